import Verif.Solve.Potential
import Verif.PosDef.Spectral
import Mathlib.Analysis.Calculus.ContDiff.Basic
import Mathlib.Analysis.Calculus.ContDiff.Operations
import Mathlib.Analysis.Calculus.Deriv.Support
import Mathlib.MeasureTheory.Measure.Lebesgue.Integral

/-!
# Smooth functions are potentials of Matérn kernels

The profile of the Matérn kernel with smoothness `p + 1/2` is, up to a factor, the Green's function of `(1 - D²)^(p+1)`.
-/

namespace LinPDE.Solve
open LinPDE.GP LinPDE.PosDef MeasureTheory Topology Filter
open LinPDE.Matern (psi phi)
open scoped ContDiff

/-- Infinitely differentiable functions with compact support. -/
def Test {E : Type} [NormedAddCommGroup E] [NormedSpace ℝ E] (f : E → ℝ) : Prop := ContDiff ℝ ∞ f ∧ HasCompactSupport f

/-- `f - f''`. -/
noncomputable def helm (f : ℝ → ℝ) : ℝ → ℝ := fun x => f x - deriv (deriv f) x

lemma Test.deriv {f : ℝ → ℝ} (h : Test f) : Test (deriv f) := ⟨(contDiff_infty_iff_deriv.mp h.1).2, h.2.deriv⟩

lemma Test.hasDerivAt {f : ℝ → ℝ} (h : Test f) (x : ℝ) : HasDerivAt f (_root_.deriv f x) x :=
  ((contDiff_infty_iff_deriv.mp h.1).1 x).hasDerivAt

lemma Test.helm {f : ℝ → ℝ} (h : Test f) : Test (helm f) := ⟨h.1.sub h.deriv.deriv.1, h.2.sub h.deriv.deriv.2⟩

lemma Test.iter {f : ℝ → ℝ} (h : Test f) (n : ℕ) : Test (Solve.helm^[n] f) := by
  induction n with
  | zero => exact h
  | succ n ih => rw [Function.iterate_succ_apply']; exact ih.helm

lemma Test.integrable {f φ : ℝ → ℝ} (h : Test f) (hφ : Continuous φ) : Integrable fun y => φ y * f y :=
  (hφ.mul h.1.continuous).integrable_of_hasCompactSupport h.2.mul_left

lemma Test.tendsto {f : ℝ → ℝ} (h : Test f) (φ : ℝ → ℝ) : Tendsto (fun y => φ y * f y) atTop (𝓝 0) ∧ Tendsto (fun y => φ y * f y) atBot (𝓝 0) := by
  have hs : HasCompactSupport fun y => φ y * f y := h.2.mul_left
  have := hs.is_zero_at_infty
  rw [cocompact_eq_atBot_atTop] at this
  exact ⟨this.mono_left le_sup_right, this.mono_left le_sup_left⟩

/-- Green's function of `1 - D²`. -/
lemma green_exp {f : ℝ → ℝ} (h : Test f) (x : ℝ) : ∫ y, Real.exp (-|x - y|) * helm f y = 2 * f x := by
  have hi : Integrable fun y => Real.exp (-|x - y|) * helm f y := h.helm.integrable (by fun_prop)
  rw [← intervalIntegral.integral_Iic_add_Ioi (b := x) hi.integrableOn hi.integrableOn]
  have e1 : ∫ y in Set.Iic x, Real.exp (-|x - y|) * helm f y = ∫ y in Set.Iic x, Real.exp (y - x) * helm f y := by
    refine setIntegral_congr_fun measurableSet_Iic fun y hy => ?_
    have hy : y ≤ x := hy
    show Real.exp (-|x - y|) * _ = _
    rw [abs_of_nonneg (by linarith), neg_sub]
  have e2 : ∫ y in Set.Ioi x, Real.exp (-|x - y|) * helm f y = ∫ y in Set.Ioi x, Real.exp (x - y) * helm f y := by
    refine setIntegral_congr_fun measurableSet_Ioi fun y hy => ?_
    have hy : x < y := hy
    show Real.exp (-|x - y|) * _ = _
    rw [abs_of_nonpos (by linarith), neg_neg]
  have d1 : ∀ y, HasDerivAt (fun y => Real.exp (y - x) * (f y - deriv f y)) (Real.exp (y - x) * helm f y) y := by
    intro y
    have a : HasDerivAt (fun y : ℝ => Real.exp (y - x)) (Real.exp (y - x) * 1) y := ((hasDerivAt_id y).sub_const x).exp
    refine (a.mul ((h.hasDerivAt y).sub (h.deriv.hasDerivAt y))).congr_deriv ?_
    unfold helm
    simp only [Pi.sub_apply, Pi.neg_apply]
    ring
  have d2 : ∀ y, HasDerivAt (fun y => Real.exp (x - y) * (-f y - deriv f y)) (Real.exp (x - y) * helm f y) y := by
    intro y
    have a : HasDerivAt (fun y : ℝ => Real.exp (x - y)) (Real.exp (x - y) * (-1)) y := ((hasDerivAt_id y).const_sub x).exp
    refine (a.mul ((h.hasDerivAt y).neg.sub (h.deriv.hasDerivAt y))).congr_deriv ?_
    unfold helm
    simp only [Pi.sub_apply, Pi.neg_apply]
    ring
  have t1 : Tendsto (fun y => Real.exp (y - x) * (f y - deriv f y)) atBot (𝓝 0) := by
    have := (h.tendsto fun y => Real.exp (y - x)).2.sub (h.deriv.tendsto fun y => Real.exp (y - x)).2
    simpa [mul_sub] using this
  have t2 : Tendsto (fun y => Real.exp (x - y) * (-f y - deriv f y)) atTop (𝓝 0) := by
    have := ((h.tendsto fun y => Real.exp (x - y)).1.neg).sub (h.deriv.tendsto fun y => Real.exp (x - y)).1
    simpa [mul_sub] using this
  rw [e1, e2, integral_Iic_of_hasDerivAt_of_tendsto' (fun y _ => d1 y) (h.helm.integrable (by fun_prop)).integrableOn t1,
    integral_Ioi_of_hasDerivAt_of_tendsto' (fun y _ => d2 y) (h.helm.integrable (by fun_prop)).integrableOn t2]
  simp
  ring

/-- Integration by parts. -/
lemma parts {f : ℝ → ℝ} (h : Test f) {u u' : ℝ → ℝ} (hu : ∀ y, HasDerivAt u (u' y) y) (hc : Continuous u') :
    ∫ y, u y * deriv f y = -∫ y, u' y * f y := by
  have hcu : Continuous u := continuous_iff_continuousAt.mpr fun y => (hu y).continuousAt
  exact integral_mul_deriv_eq_deriv_mul_of_integrable (fun y _ => hu y) (fun y _ => h.hasDerivAt y) (h.deriv.integrable hcu) (h.integrable hc)
    (h.integrable hcu)

/-- The factor between the profile and the Green's function. -/
noncomputable def greenC : ℕ → ℝ
  | 0 => 2
  | p + 1 => 2 * ((p : ℝ) + 1) / (2 * p + 1) * greenC p

lemma greenC_pos : ∀ p, 0 < greenC p
  | 0 => by norm_num [greenC]
  | p + 1 => by
    have := greenC_pos p
    rw [greenC]
    positivity

lemma green (p : ℕ) : ∀ {f : ℝ → ℝ}, Test f → ∀ x, ∫ y, phi p 0 (x - y) * helm^[p + 1] f y = greenC p * f x := by
  induction p with
  | zero =>
    intro f h x
    rw [greenC, ← green_exp h x]
    refine integral_congr_ae (Eventually.of_forall fun y => ?_)
    simp only [Function.iterate_succ, Function.iterate_zero, Function.comp_apply, id]
    rw [Matern.phi_zero_abs, psi_zero_zero]
  | succ p ih =>
    intro f h x
    have hg := h.iter (p + 1)
    rw [greenC, mul_assoc, ← ih h x, Function.iterate_succ_apply']
    set g := helm^[p + 1] f
    have hd : ∀ i, i + 1 ≤ 2 * (p + 1) → ∀ y, HasDerivAt (fun y => phi (p + 1) i (x - y)) (-phi (p + 1) (i + 1) (x - y)) y := by
      intro i hi y
      have := (Matern.hasDerivAt_phi (p + 1) i (x - y) (.inl hi)).comp y ((hasDerivAt_id y).const_sub x)
      refine this.congr_deriv ?_
      ring
    have hcont : ∀ i, i ≤ 2 * (p + 1) → Continuous fun y => phi (p + 1) i (x - y) := fun i hi =>
      (Matern.continuous_phi (p + 1) i hi).comp (continuous_const.sub continuous_id)
    have h1 := parts hg.deriv (hd 0 (by omega)) (hcont 1 (by omega)).neg
    have h2 := parts hg (u := fun y => -phi (p + 1) 1 (x - y)) (u' := fun y => phi (p + 1) 2 (x - y)) (fun y => by
      refine (hd 1 (by omega) y).neg.congr_deriv ?_
      ring) (hcont 2 (by omega))
    rw [h2, neg_neg] at h1
    unfold helm
    simp only [mul_sub]
    rw [integral_sub (hg.integrable (hcont 0 (by omega))) (hg.deriv.deriv.integrable (hcont 0 (by omega))), h1,
      ← integral_sub (hg.integrable (hcont 0 (by omega))) (hg.integrable (hcont 2 (by omega))), ← integral_const_mul]
    refine integral_congr_ae (Eventually.of_forall fun y => ?_)
    simp only
    rw [← sub_mul, phi_helmholtz, mul_assoc]

/-! ## With parameters -/

variable {E : Type} [NormedAddCommGroup E] [NormedSpace ℝ E]

/-- Derivative in the last variable. -/
noncomputable def dLast (F : E × ℝ → ℝ) : E × ℝ → ℝ := fun q => fderiv ℝ F q (0, 1)

/-- `F - ∂²F`. -/
noncomputable def helmL (F : E × ℝ → ℝ) : E × ℝ → ℝ := fun q => F q - dLast (dLast F) q

lemma Test.dLast {F : E × ℝ → ℝ} (h : Test F) : Test (dLast F) := by
  refine ⟨?_, ?_⟩
  · exact (h.1.fderiv_right (m := ∞) (by simp)).clm_apply contDiff_const
  · exact (h.2.fderiv_apply (𝕜 := ℝ) (0, 1))

lemma Test.helmL {F : E × ℝ → ℝ} (h : Test F) : Test (helmL F) := ⟨h.1.sub h.dLast.dLast.1, h.2.sub h.dLast.dLast.2⟩

lemma Test.iterL {F : E × ℝ → ℝ} (h : Test F) (n : ℕ) : Test (Solve.helmL^[n] F) := by
  induction n with
  | zero => exact h
  | succ n ih => rw [Function.iterate_succ_apply']; exact ih.helmL

lemma Test.sec {F : E × ℝ → ℝ} (h : Test F) (e : E) : Test fun t => F (e, t) := by
  refine ⟨h.1.comp (contDiff_const.prodMk contDiff_id), ?_⟩
  refine HasCompactSupport.intro (K := Prod.snd '' tsupport F) (h.2.isCompact.image continuous_snd) fun t ht => ?_
  by_contra h0
  exact ht ⟨(e, t), subset_tsupport F h0, rfl⟩

lemma dLast_sec {F : E × ℝ → ℝ} (h : Test F) (e : E) : (fun t => dLast F (e, t)) = deriv fun t => F (e, t) := by
  funext t
  have h1 : HasFDerivAt F (fderiv ℝ F (e, t)) (e, t) := ((h.1.differentiable (by simp)) (e, t)).hasFDerivAt
  have h2 : HasDerivAt (fun t : ℝ => (e, t)) ((0 : E), (1 : ℝ)) t := (hasDerivAt_const t e).prodMk (hasDerivAt_id t)
  exact (h1.comp_hasDerivAt t h2).deriv.symm

lemma helmL_sec {F : E × ℝ → ℝ} (h : Test F) (e : E) : (fun t => helmL F (e, t)) = helm fun t => F (e, t) := by
  funext t
  unfold helmL helm
  rw [← dLast_sec h e, ← dLast_sec h.dLast e]

lemma iterL_sec {F : E × ℝ → ℝ} (h : Test F) (e : E) (n : ℕ) : (fun t => helmL^[n] F (e, t)) = helm^[n] fun t => F (e, t) := by
  induction n with
  | zero => rfl
  | succ n ih =>
    rw [Function.iterate_succ_apply', Function.iterate_succ_apply', ← ih]
    exact helmL_sec (h.iterL n) e

/-- Functions of several variables are potentials of a scaled Matérn kernel in the last variable. -/
lemma green_last (p : ℕ) {s : ℝ} (hs : s ≠ 0) {F : E × ℝ → ℝ} (h : Test F) :
    ∃ G : E × ℝ → ℝ, Test G ∧ ∀ e x, F (e, x) = ∫ y, phi p 0 (s * (x - y)) * G (e, y) := by
  have scale : ∀ {F : E × ℝ → ℝ} (a : ℝ), a ≠ 0 → Test F → Test fun q : E × ℝ => F (q.1, a * q.2) := by
    intro F a ha h
    refine ⟨h.1.comp (contDiff_fst.prodMk (contDiff_const.mul contDiff_snd)), ?_⟩
    exact h.2.comp_homeomorph ((Homeomorph.refl E).prodCongr (Homeomorph.mulLeft₀ a ha))
  have h1 := scale s⁻¹ (inv_ne_zero hs) h
  have h2 := scale s hs (h1.iterL (p + 1))
  set H := helmL^[p + 1] fun q : E × ℝ => F (q.1, s⁻¹ * q.2) with hH
  refine ⟨fun q => (|s| * (greenC p)⁻¹) * H (q.1, s * q.2), ⟨contDiff_const.mul h2.1, h2.2.mul_left⟩, fun e x => ?_⟩
  have h3 := green p (h1.sec e) (s * x)
  rw [← iterL_sec h1 e] at h3
  simp only [inv_mul_cancel_left₀ hs] at h3
  have h4 := Measure.integral_comp_mul_left (fun y => phi p 0 (s * x - y) * H (e, y)) s
  rw [h3, smul_eq_mul, abs_inv] at h4
  have e : ∀ y, phi p 0 (s * (x - y)) * (|s| * (greenC p)⁻¹ * H (e, s * y)) = |s| * (greenC p)⁻¹ * (phi p 0 (s * x - s * y) * H (e, s * y)) := by
    intro y
    rw [mul_sub]
    ring
  simp only [e]
  rw [integral_const_mul, h4]
  have := (greenC_pos p).ne'
  have := (abs_pos.mpr hs).ne'
  field_simp

end LinPDE.Solve
