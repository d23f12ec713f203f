import Mathlib.Analysis.InnerProductSpace.Reproducing
import Mathlib.MeasureTheory.Integral.Bochner.ContinuousLinearMap
import Mathlib.MeasureTheory.Function.LocallyIntegrable
import Mathlib.MeasureTheory.Integral.IntegrableOn
import Mathlib.MeasureTheory.Function.L2Space
import Mathlib.MeasureTheory.Measure.Lebesgue.Basic
import Mathlib.Analysis.InnerProductSpace.ProdL2
import Mathlib.Analysis.InnerProductSpace.Continuous

/-! # Feature maps of covariance functions and weighted integrals of them -/

namespace LinPDE.Galerkin
open MeasureTheory RKHS
open scoped InnerProductSpace

/-- A covariance function: symmetric, and every Gram matrix is positive semidefinite. -/
structure IsCov (k : ℝ → ℝ → ℝ) : Prop where
  symm : ∀ x y, k x y = k y x
  psd : ∀ (N : ℕ) (x a : Fin N → ℝ), 0 ≤ ∑ i, ∑ j, a i * a j * k (x i) (x j)

/-- The kernel as a matrix of operators on the real line. -/
noncomputable def opMat (k : ℝ → ℝ → ℝ) : Matrix ℝ ℝ (ℝ →L[ℝ] ℝ) := Matrix.of fun x y => k x y • ContinuousLinearMap.id ℝ ℝ

lemma opMat_posSemidef {k : ℝ → ℝ → ℝ} (hk : IsCov k) : (opMat k).PosSemidef := by
  refine (List.TFAE.out (posSemidef_tfae (K := opMat k)) 0 2 rfl rfl).mpr ⟨?_, fun vv => ?_⟩
  · ext x y
    have h1 : ContinuousLinearMap.adjoint (ContinuousLinearMap.id ℝ ℝ) = ContinuousLinearMap.id ℝ ℝ := by
      symm
      rw [ContinuousLinearMap.eq_adjoint_iff]
      simp
    simp [opMat, Matrix.conjTranspose_apply, hk.symm x y, star]
    rw [h1]
    simp
  · simp only [RCLike.re_to_real]
    have h := hk.psd vv.support.card (fun i => (vv.support.equivFin.symm i : ℝ)) (fun i => vv (vv.support.equivFin.symm i : ℝ))
    refine h.trans (le_of_eq ?_)
    simp only [Finsupp.sum]
    rw [← Finset.sum_coe_sort vv.support]
    rw [← Equiv.sum_comp vv.support.equivFin.symm]
    refine Finset.sum_congr rfl fun i _ => ?_
    rw [← Finset.sum_coe_sort vv.support]
    rw [← Equiv.sum_comp vv.support.equivFin.symm]
    refine Finset.sum_congr rfl fun j _ => ?_
    simp [opMat]
    rw [hk.symm]
    ring

/-- Every covariance function is the Gram function of a family of vectors of a Hilbert space. -/
lemma exists_feature {k : ℝ → ℝ → ℝ} (hk : IsCov k) :
    ∃ (H : Type) (_ : NormedAddCommGroup H) (_ : InnerProductSpace ℝ H) (_ : CompleteSpace H) (ψ : ℝ → H),
      ∀ x y, ⟪ψ x, ψ y⟫_ℝ = k x y := by
  have : Fact (opMat k).PosSemidef := ⟨opMat_posSemidef hk⟩
  refine ⟨OfKernel (opMat k), inferInstance, inferInstance, inferInstance, fun x => RKHS.kerFun (OfKernel (opMat k)) x (1 : ℝ),
    fun x y => ?_⟩
  rw [← RKHS.kernel_inner, OfKernel.kernel_ofKernel]
  simp [opMat, hk.symm]

/-- Weight functions: integrable with bounded support. -/
structure Weight (w : ℝ → ℝ) : Prop where
  integrable : Integrable w
  bdd : ∃ A B, ∀ x, x ∉ Set.Icc A B → w x = 0

/-- Measurable and bounded on bounded sets. -/
structure LB {E : Type} [NormedAddCommGroup E] (f : ℝ → E) : Prop where
  meas : StronglyMeasurable f
  bdd : ∀ A B, ∃ M, ∀ x ∈ Set.Icc A B, ‖f x‖ ≤ M

lemma LB.of_continuous {E : Type} [NormedAddCommGroup E] {f : ℝ → E} (hf : Continuous f) : LB f :=
  ⟨hf.stronglyMeasurable, fun _ _ => isCompact_Icc.exists_bound_of_continuousOn hf.continuousOn⟩

lemma LB.add {E : Type} [NormedAddCommGroup E] {f g : ℝ → E} (hf : LB f) (hg : LB g) : LB fun x => f x + g x := by
  refine ⟨hf.meas.add hg.meas, fun A B => ?_⟩
  obtain ⟨M, hM⟩ := hf.bdd A B
  obtain ⟨N, hN⟩ := hg.bdd A B
  exact ⟨M + N, fun x hx => (norm_add_le _ _).trans (add_le_add (hM x hx) (hN x hx))⟩

lemma LB.sub {E : Type} [NormedAddCommGroup E] {f g : ℝ → E} (hf : LB f) (hg : LB g) : LB fun x => f x - g x := by
  refine ⟨hf.meas.sub hg.meas, fun A B => ?_⟩
  obtain ⟨M, hM⟩ := hf.bdd A B
  obtain ⟨N, hN⟩ := hg.bdd A B
  exact ⟨M + N, fun x hx => (norm_sub_le _ _).trans (add_le_add (hM x hx) (hN x hx))⟩

lemma LB.const_smul {E : Type} [NormedAddCommGroup E] [NormedSpace ℝ E] {f : ℝ → E} (hf : LB f) (c : ℝ) :
    LB fun x => c • f x := by
  refine ⟨hf.meas.const_smul c, fun A B => ?_⟩
  obtain ⟨M, hM⟩ := hf.bdd A B
  exact ⟨‖c‖ * M, fun x hx => by rw [norm_smul]; exact mul_le_mul_of_nonneg_left (hM x hx) (norm_nonneg _)⟩

lemma LB.const_mul {f : ℝ → ℝ} (hf : LB f) (c : ℝ) : LB fun x => c * f x := hf.const_smul c

lemma LB.smul_const {E : Type} [NormedAddCommGroup E] [NormedSpace ℝ E] {f : ℝ → ℝ} (hf : LB f) (v : E) :
    LB fun x => f x • v := by
  refine ⟨hf.meas.smul_const v, fun A B => ?_⟩
  obtain ⟨M, hM⟩ := hf.bdd A B
  exact ⟨M * ‖v‖, fun x hx => by rw [norm_smul]; exact mul_le_mul_of_nonneg_right (hM x hx) (norm_nonneg _)⟩

lemma LB.zero {E : Type} [NormedAddCommGroup E] : LB fun _ => (0 : E) := .of_continuous continuous_const

lemma LB.sum {E : Type} [NormedAddCommGroup E] {ι : Type} (s : Finset ι) {f : ι → ℝ → E} (hf : ∀ i ∈ s, LB (f i)) :
    LB fun x => ∑ i ∈ s, f i x := by
  classical
  induction s using Finset.induction with
  | empty => simpa using LB.zero
  | insert a s ha ih =>
    simp only [Finset.sum_insert ha]
    exact (hf a (by simp)).add (ih fun i hi => hf i (by simp [hi]))

lemma LB.inner_const {H : Type} [NormedAddCommGroup H] [InnerProductSpace ℝ H] {f : ℝ → H} (hf : LB f) (h : H) :
    LB fun x => ⟪f x, h⟫_ℝ := by
  refine ⟨hf.meas.inner stronglyMeasurable_const, fun A B => ?_⟩
  obtain ⟨M, hM⟩ := hf.bdd A B
  exact ⟨M * ‖h‖, fun x hx => (norm_inner_le_norm _ _).trans (mul_le_mul_of_nonneg_right (hM x hx) (norm_nonneg _))⟩

lemma Weight.integrable_smul {E : Type} [NormedAddCommGroup E] [NormedSpace ℝ E] {w : ℝ → ℝ} (hw : Weight w) {f : ℝ → E}
    (hf : LB f) : Integrable (fun x => w x • f x) := by
  obtain ⟨A, B, hAB⟩ := hw.bdd
  obtain ⟨M, hM⟩ := hf.bdd A B
  refine Integrable.mono' (hw.integrable.norm.mul_const M) (hw.integrable.1.smul hf.meas.aestronglyMeasurable)
    (Filter.Eventually.of_forall fun x => ?_)
  rw [norm_smul]
  by_cases hx : x ∈ Set.Icc A B
  · exact mul_le_mul_of_nonneg_left (hM x hx) (norm_nonneg _)
  · simp [hAB x hx]

lemma Weight.integrable_mul {w : ℝ → ℝ} (hw : Weight w) {f : ℝ → ℝ} (hf : LB f) : Integrable (fun x => w x * f x) :=
  hw.integrable_smul hf

/-- A representation of a covariance function as inner products of vectors of a Hilbert space that depend measurably on the
point and are bounded on bounded sets. -/
structure Feature (k : ℝ → ℝ → ℝ) where
  H : Type
  [i1 : NormedAddCommGroup H]
  [i2 : InnerProductSpace ℝ H]
  [i3 : CompleteSpace H]
  ψ : ℝ → H
  lb : LB ψ
  eq : ∀ x y, ⟪ψ x, ψ y⟫_ℝ = k x y

attribute [instance] Feature.i1 Feature.i2 Feature.i3

section
variable {H : Type} [NormedAddCommGroup H] [InnerProductSpace ℝ H] {ψ : ℝ → H} {k : ℝ → ℝ → ℝ}

lemma feature_continuous (hψ : ∀ x y, ⟪ψ x, ψ y⟫_ℝ = k x y) (hk : Continuous (Function.uncurry k)) : Continuous ψ := by
  have hsq : ∀ x y, ‖ψ x - ψ y‖ ^ 2 = k x x - 2 * k x y + k y y := by
    intro x y
    rw [norm_sub_sq_real, ← real_inner_self_eq_norm_sq, ← real_inner_self_eq_norm_sq, hψ, hψ, hψ]
  rw [continuous_iff_continuousAt]
  intro y
  rw [ContinuousAt, tendsto_iff_norm_sub_tendsto_zero]
  have h1 : Filter.Tendsto (fun x => k x x - 2 * k x y + k y y) (nhds y) (nhds 0) := by
    have hc : Continuous fun x => k x x - 2 * k x y + k y y := by
      have e1 : Continuous fun x => k x x := hk.comp (continuous_id.prodMk continuous_id)
      have e2 : Continuous fun x => k x y := hk.comp (continuous_id.prodMk continuous_const)
      fun_prop
    have := hc.tendsto y
    simpa [show k y y - 2 * k y y + k y y = 0 by ring] using this
  have h2 : Filter.Tendsto (fun x => Real.sqrt (k x x - 2 * k x y + k y y)) (nhds y) (nhds 0) := by
    simpa using h1.sqrt
  refine h2.congr fun x => ?_
  rw [← hsq, Real.sqrt_sq (norm_nonneg _)]

end

/-- Continuous covariance functions. -/
lemma Feature.of_continuous {k : ℝ → ℝ → ℝ} (hc : IsCov k) (hk : Continuous (Function.uncurry k)) : Nonempty (Feature k) := by
  obtain ⟨H, _, _, _, ψ, hψ⟩ := exists_feature hc
  exact ⟨⟨H, ψ, .of_continuous (feature_continuous hψ hk), hψ⟩⟩

lemma Feature.zero : Nonempty (Feature fun _ _ => 0) := ⟨⟨ℝ, fun _ => 0, .zero, by simp⟩⟩

lemma Feature.smul {k : ℝ → ℝ → ℝ} (F : Feature k) {s : ℝ} (hs : 0 ≤ s) : Nonempty (Feature fun x y => s * k x y) := by
  refine ⟨⟨F.H, fun x => Real.sqrt s • F.ψ x, F.lb.const_smul _, fun x y => ?_⟩⟩
  rw [inner_smul_left, inner_smul_right, F.eq, ← mul_assoc]
  simp [Real.mul_self_sqrt hs]

lemma LB.pair {H H' : Type} [NormedAddCommGroup H] [InnerProductSpace ℝ H] [NormedAddCommGroup H'] [InnerProductSpace ℝ H']
    {f : ℝ → H} {g : ℝ → H'} (hf : LB f) (hg : LB g) : LB fun x => WithLp.toLp 2 (f x, g x) := by
  refine ⟨(WithLp.prod_continuous_toLp 2 H H').comp_stronglyMeasurable (hf.meas.prodMk hg.meas), fun A B => ?_⟩
  obtain ⟨M, hM⟩ := hf.bdd A B
  obtain ⟨N, hN⟩ := hg.bdd A B
  refine ⟨M + N, fun x hx => ?_⟩
  have h1 : ‖WithLp.toLp 2 (f x, g x)‖ ≤ ‖f x‖ + ‖g x‖ := by
    rw [WithLp.prod_norm_eq_of_L2]
    refine Real.sqrt_le_iff.mpr ⟨by positivity, ?_⟩
    change ‖f x‖ ^ 2 + ‖g x‖ ^ 2 ≤ _
    nlinarith [mul_nonneg (norm_nonneg (f x)) (norm_nonneg (g x))]
  exact h1.trans (add_le_add (hM x hx) (hN x hx))

/-- The sum of two Gram functions. -/
lemma Feature.of_pair {H H' : Type} [NormedAddCommGroup H] [InnerProductSpace ℝ H] [CompleteSpace H] [NormedAddCommGroup H']
    [InnerProductSpace ℝ H'] [CompleteSpace H'] {f : ℝ → H} {g : ℝ → H'} (hf : LB f) (hg : LB g) {k : ℝ → ℝ → ℝ}
    (h : ∀ x y, ⟪f x, f y⟫_ℝ + ⟪g x, g y⟫_ℝ = k x y) : Nonempty (Feature k) :=
  ⟨⟨WithLp 2 (H × H'), fun x => WithLp.toLp 2 (f x, g x), hf.pair hg, fun x y => by
    rw [WithLp.prod_inner_apply]; exact h x y⟩⟩

lemma Feature.add {k k' : ℝ → ℝ → ℝ} (F : Feature k) (F' : Feature k') : Nonempty (Feature fun x y => k x y + k' x y) :=
  Feature.of_pair F.lb F'.lb fun x y => by rw [F.eq, F'.eq]

lemma Feature.symm {k : ℝ → ℝ → ℝ} (F : Feature k) (x y : ℝ) : k x y = k y x := by
  rw [← F.eq, ← F.eq, real_inner_comm]

lemma Feature.isCov {k : ℝ → ℝ → ℝ} (F : Feature k) : IsCov k := by
  refine ⟨F.symm, fun N x a => ?_⟩
  have h : ⟪∑ i, a i • F.ψ (x i), ∑ i, a i • F.ψ (x i)⟫_ℝ = ∑ i, ∑ j, a i * a j * k (x i) (x j) := by
    rw [sum_inner]
    refine Finset.sum_congr rfl fun i _ => ?_
    rw [inner_sum]
    refine Finset.sum_congr rfl fun j _ => ?_
    rw [inner_smul_left, inner_smul_right, F.eq]
    simp
    ring
  rw [← h]
  exact real_inner_self_nonneg

lemma Feature.section_lb {k : ℝ → ℝ → ℝ} (F : Feature k) (x : ℝ) : LB (k x) := by
  have h : k x = fun t => ⟪F.ψ t, F.ψ x⟫_ℝ := funext fun t => by rw [F.eq, F.symm]
  rw [h]
  exact F.lb.inner_const _

/-- Weighted integrals of functions given by the features. -/
lemma Weight.integral_inner {H : Type} [NormedAddCommGroup H] [InnerProductSpace ℝ H] [CompleteSpace H] {w : ℝ → ℝ}
    (hw : Weight w) {f : ℝ → H} (hf : LB f) (h : H) : ∫ t, w t * ⟪f t, h⟫_ℝ = ⟪∫ t, w t • f t, h⟫_ℝ := by
  rw [real_inner_comm, ← _root_.integral_inner (hw.integrable_smul hf)]
  refine integral_congr_ae (Filter.Eventually.of_forall fun t => ?_)
  simp only [inner_smul_right, real_inner_comm]

end LinPDE.Galerkin
