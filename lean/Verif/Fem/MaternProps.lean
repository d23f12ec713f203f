import Verif.Fem.ProjectProps
import Verif.Matern.Props

/-! # Closed-form L2 projection of the Matérn-3/2 kernel (C51) -/

namespace LinPDE.Fem
open MeasureTheory Set intervalIntegral

/-- The univariate Matérn-3/2 covariance function with lengthscale `l`, an instance of the kernels of `Verif.Matern`. -/
noncomputable def matern32 (l : ℝ) (x t : ℝ) : ℝ :=
  (Matern.MK.matern (d := 1) ⟨1, fun _ => Real.sqrt 3 / l⟩).eval (fun _ => x) (fun _ => t)

lemma matern32_eq (l x t : ℝ) (hl : 0 < l) :
    matern32 l x t = (1 + Real.sqrt 3 / l * |t - x|) * Real.exp (-(Real.sqrt 3 / l * |t - x|)) := by
  have hn : Matern.norm (Matern.sdiff (fun _ : Fin 1 => Real.sqrt 3 / l) (fun _ => x) (fun _ => t)) = Real.sqrt 3 / l * |t - x| := by
    unfold Matern.norm Matern.sdiff
    rw [Fin.sum_univ_one, Real.sqrt_sq_eq_abs, abs_mul, abs_of_nonneg (a := Real.sqrt 3 / l) (by positivity), abs_sub_comm, mul_comm]
  have hp : ∀ r, Matern.pev (Matern.derivPoly 1 0) r = 1 + r := by
    intro r
    have : (Matern.toReal (Matern.derivPoly 1 0)).coeffs = [1, 1] := by
      have h : (Matern.derivPoly 1 0).coeffs = [1, 1] := by decide +kernel
      unfold Matern.toReal
      rw [h]
      simp [Polys.Poly.ofCoeffs]
    unfold Matern.pev Polys.Poly.eval
    simp only [this]
    simp
    ring
  unfold matern32 Matern.MK.eval
  simp only
  rw [hn, hp]

lemma auxAntideriv_deriv (x t0 : ℝ) {a : ℝ} (ha : a ≠ 0) (t : ℝ) :
    HasDerivAt (auxAntideriv x t0 a) ((t - t0) * ((1 + a * (t - x)) * Real.exp (-(a * (t - x))))) t := by
  unfold auxAntideriv
  have h1 : HasDerivAt (fun t => (t - x + 2 / a) * (t - t0 + 1 / a) + 1 / a ^ 2) ((t - t0 + 1 / a) + (t - x + 2 / a)) t := by
    have := ((((hasDerivAt_id t).sub_const x).add_const (2 / a)).mul (((hasDerivAt_id t).sub_const t0).add_const (1 / a))).add_const (1 / a ^ 2)
    refine this.congr_deriv ?_
    simp
  have h2 : HasDerivAt (fun t => Real.exp (-a * (t - x))) (Real.exp (-a * (t - x)) * (-a)) t := by
    have := (((hasDerivAt_id t).sub_const x).const_mul (-a)).exp
    refine this.congr_deriv ?_
    simp
  have := h1.neg.mul h2
  refine this.congr_deriv ?_
  rw [show -(a * (t - x)) = -a * (t - x) by ring]
  simp only [Pi.neg_apply]
  field_simp
  ring

lemma integral_aux (x t0 : ℝ) {a : ℝ} (ha : a ≠ 0) (u v : ℝ) :
    ∫ t in u..v, (t - t0) * ((1 + a * (t - x)) * Real.exp (-(a * (t - x)))) = auxInt x u v t0 a := by
  rw [integral_eq_sub_of_hasDerivAt (fun t _ => auxAntideriv_deriv x t0 ha t) (Continuous.intervalIntegrable (by fun_prop) _ _)]
  rfl

/-- The integral of a linear factor times the kernel, with the case split on the position of `x`. -/
lemma integral_matern {a : ℝ} (ha : 0 < a) (x t0 : ℝ) {u v : ℝ} (h : u ≤ v) :
    ∫ t in u..v, (t - t0) * ((1 + a * |t - x|) * Real.exp (-(a * |t - x|))) =
      auxInt x (max u x) (max v x) t0 a + auxInt x (min u x) (min v x) t0 (-a) := by
  have hright : ∀ u v, x ≤ u → u ≤ v → ∫ t in u..v, (t - t0) * ((1 + a * |t - x|) * Real.exp (-(a * |t - x|))) = auxInt x u v t0 a := by
    intro u v h1 h2
    rw [← integral_aux x t0 ha.ne']
    refine integral_congr fun t ht => ?_
    rw [uIcc_of_le h2] at ht
    beta_reduce
    rw [abs_of_nonneg (by linarith [ht.1])]
  have hleft : ∀ u v, v ≤ x → u ≤ v → ∫ t in u..v, (t - t0) * ((1 + a * |t - x|) * Real.exp (-(a * |t - x|))) = auxInt x u v t0 (-a) := by
    intro u v h1 h2
    rw [← integral_aux x t0 (neg_ne_zero.mpr ha.ne')]
    refine integral_congr fun t ht => ?_
    rw [uIcc_of_le h2] at ht
    beta_reduce
    rw [abs_of_nonpos (by linarith [ht.2]), neg_mul, mul_neg]
  have hself : ∀ w c, auxInt x w w t0 c = 0 := fun w c => sub_self _
  rcases le_total x u with h1 | h1
  · rw [max_eq_left h1, max_eq_left (h1.trans h), min_eq_right h1, min_eq_right (h1.trans h), hself, add_zero, hright u v h1 h]
  · rcases le_total x v with h2 | h2
    · rw [max_eq_right h1, max_eq_left h2, min_eq_left h1, min_eq_right h2, ← hright x v le_rfl h2, ← hleft u x le_rfl h1, add_comm,
        integral_add_adjacent_intervals (Continuous.intervalIntegrable (by fun_prop) _ _) (Continuous.intervalIntegrable (by fun_prop) _ _)]
    · rw [max_eq_right h1, max_eq_right h2, min_eq_left h1, min_eq_left h2, hself, zero_add, hleft u v h2 h]

lemma intLeft_eq {b : Basis} (h : b.Good) {l : ℝ} (hl : 0 < l) (x : ℝ) {i : ℕ} (hi : i < b.len) :
    intLeft b (Real.sqrt 3 / l) x i = ∫ t in b.g i..b.g (i + 1), (t - b.g i) / (b.g (i + 1) - b.g i) * matern32 l x t := by
  have h1 := h.incr i (by have := Basis.len_lt hi; omega)
  unfold intLeft
  rw [Basis.xim1_getD hi, Basis.xi_getD hi, ← integral_matern (by positivity) x _ h1.le, ← intervalIntegral.integral_div]
  refine integral_congr fun t _ => ?_
  beta_reduce
  rw [matern32_eq l x t hl]
  ring

lemma intRight_eq {b : Basis} (h : b.Good) {l : ℝ} (hl : 0 < l) (x : ℝ) {i : ℕ} (hi : i < b.len) :
    intRight b (Real.sqrt 3 / l) x i =
      ∫ t in b.g (i + 1)..b.g (i + 2), (b.g (i + 2) - t) / (b.g (i + 2) - b.g (i + 1)) * matern32 l x t := by
  have h1 := h.incr (i + 1) (by have := Basis.len_lt hi; omega)
  unfold intRight
  rw [Basis.xip1_getD, Basis.xi_getD hi, ← integral_matern (by positivity) x _ h1.le, ← intervalIntegral.integral_neg,
    ← intervalIntegral.integral_div]
  refine integral_congr fun t _ => ?_
  beta_reduce
  rw [matern32_eq l x t hl]
  ring

/-- C51: the closed form for the Matérn-3/2 kernel agrees with the integrals of kernel times basis function, for all
grids, boundary settings, normalisation settings, lengthscales and points. -/
theorem matern32_projection {grid : List ℝ} {zb : Bool} {b : Basis} (hg : grid.Pairwise (· < ·))
    (h : mkBasis grid zb = .ok b) (nz : Bool) {l : ℝ} (hl : 0 < l) (x : ℝ) :
    crosscovProjection b nz (matern32 l) x = .ok (matern32Projection b nz l x) := by
  classical
  have hG := (mkBasis_good hg h).1
  have hq : crosscovProjection b nz (matern32 l) x = .ok ((normalizer b nz).mulVec fun i => ∫ t, b.phi i t * matern32 l x t) := by
    unfold crosscovProjection
    rw [mapM_ok (f' := fun i => ∫ t, b.phi i t * matern32 l x t) (fun i hi => quadElem_eq hg h (by simpa using hi) _)]
    change Except.ok _ = _
    congr 2
    funext i
    exact getD_map_range i.2 _
  rw [hq]
  unfold matern32Projection
  congr 2
  funext i
  have hb := boundary_fix hG
    (l := (List.range b.len).map fun i => intLeft b (Real.sqrt 3 / l) x i + intRight b (Real.sqrt 3 / l) x i)
    (L := intLeft b (Real.sqrt 3 / l) x) (R := intRight b (Real.sqrt 3 / l) x)
    (by simp) (fun i hi => getD_map_range hi _) i.2
  refine Eq.trans ?_ hb.symm
  have hc : Continuous (matern32 l x) := by
    have : matern32 l x = fun t => (1 + Real.sqrt 3 / l * |t - x|) * Real.exp (-(Real.sqrt 3 / l * |t - x|)) :=
      funext fun t => matern32_eq l x t hl
    rw [this]
    fun_prop
  rw [Basis.integral_phi_mul hG i.2 (hc.intervalIntegrable _ _), intLeft_eq hG hl x i.2, intRight_eq hG hl x i.2]

/-- C51, explicitly: without normalisation, component `i` is the integral of the kernel against basis function `i`. -/
theorem matern32_projection_integral {grid : List ℝ} {zb : Bool} {b : Basis} (hg : grid.Pairwise (· < ·))
    (h : mkBasis grid zb = .ok b) {l : ℝ} (hl : 0 < l) (x : ℝ) (i : Fin b.len) :
    matern32Projection b false l x i = ∫ t, (b.evaluate t).getD i 0 *
      ((1 + Real.sqrt 3 * |t - x| / l) * Real.exp (-(Real.sqrt 3 * |t - x| / l))) := by
  have h1 := matern32_projection hg h false hl x
  rw [project_crosscov, (project_function hg h _).2] at h1
  rw [← congrFun (Except.ok.inj h1) i]
  refine integral_congr_ae (Filter.Eventually.of_forall fun t => ?_)
  beta_reduce
  rw [matern32_eq l x t hl]
  congr 3
  · ring
  · ring_nf

end LinPDE.Fem
