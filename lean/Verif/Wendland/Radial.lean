import Verif.Wendland.Props
import Mathlib.Analysis.InnerProductSpace.Calculus
import Mathlib.Analysis.SpecialFunctions.Sqrt
import Mathlib.Analysis.Calculus.Deriv.ZPow
import Mathlib.Analysis.InnerProductSpace.PiL2

/-! # Smoothness of the Wendland covariance function in every dimension (C22) -/

namespace LinPDE.Wendland
open LinPDE.Polys
open Polynomial Topology
open scoped ContDiff

universe u

/-! ## Homogeneous functions -/

section homog
variable {E : Type u} [NormedAddCommGroup E] [InnerProductSpace ℝ E] [FiniteDimensional ℝ E]

/-- Homogeneity of degree `q`. -/
def Homog {F : Type u} [AddCommGroup F] [Module ℝ F] (q : ℕ) (h : E → F) : Prop := ∀ (c : ℝ) (x : E), h (c • x) = c ^ q • h x

variable {F : Type u} [NormedAddCommGroup F] [NormedSpace ℝ F]

omit [FiniteDimensional ℝ E] in
lemma hasFDerivAt_zpow_norm (p : ℤ) {x : E} (hx : x ≠ 0) :
    HasFDerivAt (fun x : E => ‖x‖ ^ p) ((p : ℝ) • ‖x‖ ^ (p - 2) • innerSL ℝ x) x := by
  have hn : ‖x‖ ≠ 0 := norm_ne_zero_iff.mpr hx
  have h1 : HasFDerivAt (fun x : E => ‖x‖) (‖x‖⁻¹ • innerSL ℝ x) x := by
    have h := (hasStrictFDerivAt_norm_sq x).hasFDerivAt.sqrt (pow_ne_zero 2 hn)
    simp only [Real.sqrt_sq (norm_nonneg _)] at h
    refine h.congr_fderiv ?_
    rw [← Nat.cast_smul_eq_nsmul ℝ, smul_smul]
    congr 1
    push_cast
    field_simp
  have h2 := (hasDerivAt_zpow p ‖x‖ (Or.inl hn)).comp_hasFDerivAt x h1
  refine h2.congr_fderiv ?_
  rw [smul_smul, smul_smul]
  congr 1
  rw [mul_assoc, ← zpow_neg_one, ← zpow_add₀ hn]
  congr 2
  ring

lemma homog_bound {q : ℕ} {h : E → F} (hc : Continuous h) (hh : Homog q h) :
    ∃ C, 0 ≤ C ∧ ∀ x : E, ‖h x‖ ≤ C * ‖x‖ ^ q := by
  obtain ⟨C, hC⟩ := (isCompact_closedBall (0 : E) 1).exists_bound_of_continuousOn hc.continuousOn
  refine ⟨C, (norm_nonneg _).trans (hC 0 (by simp)), fun x => ?_⟩
  by_cases hx : x = 0
  · subst hx
    have := hh 0 0
    rw [smul_zero] at this
    rw [this, norm_smul, norm_zero, norm_pow, Real.norm_eq_abs, abs_zero, mul_comm]
    exact mul_le_mul_of_nonneg_right (hC 0 (by simp)) (by positivity)
  · have hn : ‖x‖ ≠ 0 := norm_ne_zero_iff.mpr hx
    have h1 : h x = ‖x‖ ^ q • h (‖x‖⁻¹ • x) := by
      rw [← hh, smul_smul, mul_inv_cancel₀ hn, one_smul]
    rw [h1, norm_smul, norm_pow, norm_norm, mul_comm]
    refine mul_le_mul_of_nonneg_right (hC _ ?_) (by positivity)
    rw [mem_closedBall_zero_iff, norm_smul, norm_inv, norm_norm, inv_mul_cancel₀ hn]

omit [FiniteDimensional ℝ E] in
lemma homog_zero {q : ℕ} {p : ℤ} {n : ℕ} {h : E → F} (hh : Homog q h) (hpq : p + q = n + 1) :
    ‖(0 : E)‖ ^ p • h 0 = 0 := by
  rw [norm_zero]
  by_cases hp : p = 0
  · have := hh 0 0
    rw [smul_zero, zero_pow (by omega), zero_smul] at this
    rw [this, smul_zero]
  · rw [zero_zpow p hp, zero_smul]

lemma homog_le {q : ℕ} {p : ℤ} {n : ℕ} {h : E → F} (hc : Continuous h) (hh : Homog q h) (hpq : p + q = n + 1) :
    ∃ C, 0 ≤ C ∧ ∀ x : E, ‖‖x‖ ^ p • h x‖ ≤ C * ‖x‖ ^ (n + 1) := by
  obtain ⟨C, hC0, hC⟩ := homog_bound hc hh
  refine ⟨C, hC0, fun x => ?_⟩
  by_cases hx : x = 0
  · subst hx
    rw [homog_zero hh hpq]
    simp
  · have hn : ‖x‖ ≠ 0 := norm_ne_zero_iff.mpr hx
    rw [norm_smul, norm_zpow, norm_norm]
    calc ‖x‖ ^ p * ‖h x‖ ≤ ‖x‖ ^ p * (C * ‖x‖ ^ q) := mul_le_mul_of_nonneg_left (hC x) (by positivity)
      _ = C * ‖x‖ ^ (p + q) := by rw [zpow_add₀ hn, zpow_natCast]; ring
      _ = C * ‖x‖ ^ (n + 1) := by rw [hpq]; norm_cast

omit [FiniteDimensional ℝ E] in
lemma homog_fderiv {q : ℕ} {h : E → F} (hs : ContDiff ℝ ∞ h) (hh : Homog (q + 1) h) : Homog q (fderiv ℝ h) := by
  have hd : Differentiable ℝ h := hs.differentiable (by simp)
  have hcont : Continuous (fderiv ℝ h) := hs.continuous_fderiv (by simp)
  have key : ∀ (c : ℝ) (x : E), c ≠ 0 → fderiv ℝ h (c • x) = c ^ q • fderiv ℝ h x := by
    intro c x hc
    have h1 : HasFDerivAt (fun y : E => h (c • y)) ((fderiv ℝ h (c • x)).comp (c • ContinuousLinearMap.id ℝ E)) x :=
      (hd (c • x)).hasFDerivAt.comp x ((hasFDerivAt_id x).const_smul c)
    have h2 : HasFDerivAt (fun y : E => h (c • y)) (c ^ (q + 1) • fderiv ℝ h x) x := by
      have := (hd x).hasFDerivAt.const_smul (c ^ (q + 1))
      refine this.congr_of_eventuallyEq (Filter.Eventually.of_forall fun y => hh c y)
    have h3 := h1.unique h2
    have h4 : c • fderiv ℝ h (c • x) = c • (c ^ q • fderiv ℝ h x) := by
      rw [smul_smul, ← pow_succ', ← h3]
      ext v
      simp
    exact smul_right_injective _ hc h4
  intro c x
  have he : (fun c : ℝ => fderiv ℝ h (c • x)) = fun c : ℝ => c ^ q • fderiv ℝ h x := by
    refine Continuous.ext_on (dense_compl_singleton (0 : ℝ)) ?_ ?_ fun c hc => key c x hc
    · exact hcont.comp (continuous_id.smul continuous_const)
    · exact (continuous_id.pow q).smul continuous_const
  exact congrFun he c

omit [FiniteDimensional ℝ E] in
lemma homog_zero_const {h : E → F} (hh : Homog 0 h) (x : E) : h x = h 0 := by
  have := hh 0 x
  rw [zero_smul, pow_zero, one_smul] at this
  exact this.symm

/-- A norm power times a smooth homogeneous function, of total degree `n + 1`, is `n` times continuously
differentiable, also at the origin. -/
theorem contDiff_norm_homog (n : ℕ) : ∀ {F : Type u} [NormedAddCommGroup F] [NormedSpace ℝ F] (p : ℤ) (q : ℕ) (h : E → F),
    ContDiff ℝ ∞ h → Homog q h → p + q = n + 1 → ContDiff ℝ n (fun x => ‖x‖ ^ p • h x) := by
  induction n with
  | zero =>
    intro F _ _ p q h hs hh hpq
    rw [Nat.cast_zero, contDiff_zero, continuous_iff_continuousAt]
    intro x
    by_cases hx : x = 0
    · subst hx
      obtain ⟨C, _, hC⟩ := homog_le hs.continuous hh hpq
      unfold ContinuousAt
      beta_reduce
      rw [homog_zero hh hpq]
      refine squeeze_zero_norm hC ?_
      have : Continuous fun x : E => C * ‖x‖ ^ (0 + 1) := by fun_prop
      have h0 := this.tendsto 0
      simpa using h0
    · exact (hasFDerivAt_zpow_norm p hx).continuousAt.smul hs.continuous.continuousAt
  | succ n ih =>
    intro F _ _ p q h hs hh hpq
    have hd : Differentiable ℝ h := hs.differentiable (by simp)
    -- the two terms of the derivative
    let h1 : E → (E →L[ℝ] F) := fun x => (p : ℝ) • (innerSL ℝ x).smulRight (h x)
    have hs1 : ContDiff ℝ ∞ h1 := ((innerSL ℝ (E := E)).contDiff.smulRight hs).const_smul _
    have hh1 : Homog (q + 1) h1 := by
      intro c x
      ext v
      simp only [h1, hh c x, map_smul]
      simp only [smul_apply, ContinuousLinearMap.smulRight_apply, smul_smul, smul_eq_mul]
      congr 1
      ring
    have c1 : ContDiff ℝ n (fun x => ‖x‖ ^ (p - 2) • h1 x) := ih (p - 2) (q + 1) h1 hs1 hh1 (by push_cast at hpq ⊢; omega)
    have z1 : ‖(0 : E)‖ ^ (p - 2) • h1 0 = 0 := homog_zero (n := n) hh1 (by push_cast at hpq ⊢; omega)
    have hs2 : ContDiff ℝ ∞ (fderiv ℝ h) := hs.fderiv_right (by simp)
    have c2z : ContDiff ℝ n (fun x => ‖x‖ ^ p • fderiv ℝ h x) ∧ ‖(0 : E)‖ ^ p • fderiv ℝ h 0 = 0 := by
      cases q with
      | zero =>
        have e : fderiv ℝ h = fun _ => 0 := by
          have : h = fun _ => h 0 := funext (homog_zero_const hh)
          funext x
          rw [this]
          simp
        rw [e]
        simp only [smul_zero]
        exact ⟨contDiff_const, trivial⟩
      | succ q =>
        have hh2 := homog_fderiv hs hh
        exact ⟨ih p q _ hs2 hh2 (by push_cast at hpq ⊢; omega), homog_zero (n := n) hh2 (by push_cast at hpq ⊢; omega)⟩
    have hder : ∀ x, HasFDerivAt (fun x => ‖x‖ ^ p • h x) (‖x‖ ^ (p - 2) • h1 x + ‖x‖ ^ p • fderiv ℝ h x) x := by
      intro x
      by_cases hx : x = 0
      · subst hx
        rw [z1, c2z.2, add_zero]
        obtain ⟨C, hC0, hC⟩ := homog_le hs.continuous hh hpq
        rw [hasFDerivAt_iff_isLittleO_nhds_zero]
        simp only [zero_add, zero_apply, sub_zero]
        rw [homog_zero hh hpq]
        simp only [sub_zero]
        have hO : (fun x : E => ‖x‖ ^ p • h x) =O[𝓝 0] fun x : E => ‖x‖ ^ (n + 1 + 1) := by
          refine Asymptotics.IsBigO.of_bound C (Filter.Eventually.of_forall fun x => ?_)
          rw [norm_pow, norm_norm]
          exact hC x
        refine hO.trans_isLittleO ?_
        have := Asymptotics.isLittleO_norm_pow_id (E' := E) (show 1 < n + 1 + 1 by omega)
        exact this
      · have := (hasFDerivAt_zpow_norm p hx).smul (hd x).hasFDerivAt
        refine this.congr_fderiv ?_
        rw [add_comm]
        congr 1
        ext v
        simp only [h1, smul_apply, ContinuousLinearMap.smulRight_apply, smul_smul, smul_eq_mul]
        congr 1
        ring
    rw [Nat.cast_add, Nat.cast_one, contDiff_succ_iff_fderiv]
    refine ⟨fun x => (hder x).differentiableAt, fun hw => absurd hw (by simp), ?_⟩
    rw [show fderiv ℝ (fun x => ‖x‖ ^ p • h x) = fun x => ‖x‖ ^ (p - 2) • h1 x + ‖x‖ ^ p • fderiv ℝ h x from
      funext fun x => (hder x).fderiv]
    exact c1.add c2z.1

end homog

/-- Odd powers of the Euclidean norm. -/
lemma contDiff_norm_pow {E : Type} [NormedAddCommGroup E] [InnerProductSpace ℝ E] [FiniteDimensional ℝ E] (j : ℕ) :
    ContDiff ℝ j (fun x : E => ‖x‖ ^ (j + 1)) := by
  have := contDiff_norm_homog (E := E) j (F := ℝ) ((j : ℤ) + 1) 0 (fun _ => 1) contDiff_const (fun c x => by simp)
    (by push_cast; ring)
  have e : (fun x : E => ‖x‖ ^ (j + 1)) = fun x : E => ‖x‖ ^ ((j : ℤ) + 1) • (1 : ℝ) := by
    funext x
    simp only [smul_eq_mul, mul_one]
    norm_cast
  rw [e]
  exact this

lemma contDiff_norm_poly {E : Type} [NormedAddCommGroup E] [InnerProductSpace ℝ E] [FiniteDimensional ℝ E] {Q : ℝ[X]}
    {n : ℕ} (h : ∀ j, 2 * j + 1 ≤ n → Q.coeff (2 * j + 1) = 0) : ContDiff ℝ n (fun x : E => Q.eval ‖x‖) := by
  have e : (fun x : E => Q.eval ‖x‖) = fun x : E => ∑ j ∈ Finset.range (Q.natDegree + 1), Q.coeff j * ‖x‖ ^ j := by
    funext x
    rw [Polynomial.eval_eq_sum_range]
  rw [e]
  refine ContDiff.sum fun j _ => ?_
  rcases Nat.even_or_odd j with he | ho
  · obtain ⟨i, rfl⟩ := he
    have e2 : (fun x : E => Q.coeff (i + i) * ‖x‖ ^ (i + i)) = fun x : E => Q.coeff (i + i) * (‖x‖ ^ 2) ^ i := by
      funext x
      rw [← pow_mul, two_mul]
    rw [e2]
    exact contDiff_const.mul ((contDiff_norm_sq ℝ).pow i)
  · obtain ⟨i, rfl⟩ := ho
    by_cases hi : 2 * i + 1 ≤ n
    · rw [h i hi]
      simp only [zero_mul]
      exact contDiff_const
    · refine contDiff_const.mul ((contDiff_norm_pow (E := E) (2 * i)).of_le ?_)
      exact_mod_cast (by omega : n ≤ 2 * i)

/-- The Wendland function of the norm is `2 k` times continuously differentiable in every dimension. -/
theorem wendland_norm_smooth {E : Type} [NormedAddCommGroup E] [InnerProductSpace ℝ E] [FiniteDimensional ℝ E] {d k : ℕ}
    {p : Poly ℚ} (h : wendlandPoly d k = .ok p) : ContDiff ℝ (2 * k : ℕ) (fun x : E => wendlandFun p ‖x‖) := by
  rw [contDiff_iff_contDiffAt]
  intro x
  by_cases hx : x = 0
  · subst hx
    have hp : ContDiff ℝ (2 * k : ℕ) (fun x : E => (P (ell d k) k).eval ‖x‖ / (P (ell d k) k).eval 0) :=
      (contDiff_norm_poly fun j hj => P_coeff_odd _ _ j (by omega)).div_const _
    refine hp.contDiffAt.congr_of_eventuallyEq ?_
    filter_upwards [Metric.ball_mem_nhds (0 : E) one_pos] with y hy
    rw [mem_ball_zero_iff] at hy
    rw [wendlandFun_eq h, cut, if_pos hy.le]
  · exact (wendland_smooth h).1.contDiffAt.comp x (contDiffAt_norm ℝ hx)

/-- C22: the covariance function is `2 k` times continuously differentiable jointly in both arguments, in every dimension
and for all lengthscales. -/
theorem wendland_cov_smooth {d k : ℕ} {l : Fin d → ℝ} {K : WendlandCov d} (h : mkWendland d k l = .ok K) :
    ContDiff ℝ (2 * k : ℕ) (fun z : (Fin d → ℝ) × (Fin d → ℝ) => K.eval z.1 z.2) := by
  unfold mkWendland at h
  obtain ⟨p, hp, _⟩ := wendland_constructs d k
  rw [hp] at h
  obtain rfl : (⟨p, l⟩ : WendlandCov d) = K := Except.ok.inj h
  have hs := wendland_norm_smooth (E := EuclideanSpace ℝ (Fin d)) hp
  have hl : ContDiff ℝ (2 * k : ℕ) (fun z : (Fin d → ℝ) × (Fin d → ℝ) =>
      (WithLp.toLp 2 fun i => (z.1 i - z.2 i) * (1 / l i) : EuclideanSpace ℝ (Fin d))) := by
    rw [contDiff_euclidean]
    intro i
    simp only
    fun_prop
  have e : (fun z : (Fin d → ℝ) × (Fin d → ℝ) => WendlandCov.eval ⟨p, l⟩ z.1 z.2) =
      (fun x : EuclideanSpace ℝ (Fin d) => wendlandFun p ‖x‖) ∘ fun z : (Fin d → ℝ) × (Fin d → ℝ) =>
        (WithLp.toLp 2 fun i => (z.1 i - z.2 i) * (1 / l i) : EuclideanSpace ℝ (Fin d)) := by
    funext z
    simp only [Function.comp]
    rw [EuclideanSpace.norm_eq]
    unfold WendlandCov.eval
    simp only [Real.norm_eq_abs, sq_abs]
  rw [e]
  exact hs.comp hl

/-- Non-vacuity: `mkWendland` succeeds for all dimensions, smoothness and lengthscales. -/
example (d k : ℕ) (l : Fin d → ℝ) : ∃ K, mkWendland d k l = .ok K := by
  obtain ⟨p, hp, _⟩ := wendland_constructs d k
  exact ⟨⟨p, l⟩, by unfold mkWendland; rw [hp]; rfl⟩

end LinPDE.Wendland
