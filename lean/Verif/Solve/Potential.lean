import Verif.Solve.Converge
import Mathlib.Analysis.Calculus.ParametricIntegral
import Mathlib.MeasureTheory.Constructions.Pi
import Mathlib.MeasureTheory.Measure.Haar.OfBasis
import Mathlib.MeasureTheory.Function.LocallyIntegrable

/-!
# Potentials

`x ↦ ∫ k(x, y) g(y) dy` for continuous `g` with compact support has the derivatives of the kernel and a finite distance from zero in
the metric of the prior.
-/

namespace LinPDE.Solve
open LinPDE.GP LinPDE.PosDef MeasureTheory Topology Filter

variable {d : ℕ} {I : Set (Ix d)} {K : Ix d → Pt d → Ix d → Pt d → ℝ}

/-- The derivatives of `x ↦ ∫ k(x, y) g(y) dy`. -/
noncomputable def potJet (K : Ix d → Pt d → Ix d → Pt d → ℝ) (g : Pt d → ℝ) (α : Ix d) (x : Pt d) : ℝ := ∫ y, K α x 0 y * g y

lemma pot_cont (h : JetKernel I K) (hc : ContK I K) {α : Ix d} (hα : α ∈ I) (x : Pt d) : Continuous fun y => K α x 0 y :=
  (hc α hα 0 h.zero_mem).comp (continuous_const.prodMk continuous_id)

lemma pot_integrable {φ g : Pt d → ℝ} (hφ : Continuous φ) (hg : Continuous g) (hs : HasCompactSupport g) : Integrable fun y => φ y * g y :=
  (hφ.mul hg).integrable_of_hasCompactSupport hs.mul_left

/-- Differentiation of an integral with compactly supported weight. -/
lemma deriv_integral {F F' : ℝ → Pt d → ℝ} {g : Pt d → ℝ} (hg : Continuous g) (hs : HasCompactSupport g) (hF : ∀ t, Continuous (F t))
    (hF' : Continuous fun p : ℝ × Pt d => F' p.1 p.2) (hd : ∀ t y, HasDerivAt (fun t => F t y) (F' t y) t) :
    HasDerivAt (fun t => ∫ y, F t y * g y) (∫ y, F' 0 y * g y) 0 := by
  have hK : IsCompact (Set.Icc (-1 : ℝ) 1 ×ˢ tsupport g) := isCompact_Icc.prod hs
  have hFg : Continuous fun p : ℝ × Pt d => F' p.1 p.2 * g p.2 := hF'.mul (hg.comp continuous_snd)
  obtain ⟨C, hC⟩ := hK.exists_bound_of_continuousOn hFg.continuousOn
  have hb : Integrable ((tsupport g).indicator fun _ : Pt d => C) := by
    refine IntegrableOn.integrable_indicator ?_ (isClosed_tsupport g).measurableSet
    exact integrableOn_const hs.measure_lt_top.ne
  have hbd : ∀ (y : Pt d), ∀ t ∈ Set.Icc (-1 : ℝ) 1, ‖F' t y * g y‖ ≤ (tsupport g).indicator (fun _ => C) y := by
    intro y t ht
    by_cases hy : y ∈ tsupport g
    · rw [Set.indicator_of_mem hy]
      exact hC (t, y) ⟨ht, hy⟩
    · rw [Set.indicator_of_notMem hy, image_eq_zero_of_notMem_tsupport hy, mul_zero, norm_zero]
  have hF0 : Continuous fun y : Pt d => F' 0 y * g y := hFg.comp (continuous_const.prodMk continuous_id : Continuous fun y : Pt d => ((0 : ℝ), y))
  exact (hasDerivAt_integral_of_dominated_loc_of_deriv_le (μ := (volume : Measure (Pt d))) (x₀ := (0 : ℝ)) (s := Set.Icc (-1) 1)
    (F := fun t y => F t y * g y) (F' := fun t y => F' t y * g y)
    (bound := (tsupport g).indicator fun _ => C) (Icc_mem_nhds (by norm_num) (by norm_num))
    (Eventually.of_forall fun t => ((hF t).mul hg).aestronglyMeasurable)
    (pot_integrable (hF 0) hg hs) hF0.aestronglyMeasurable
    (Eventually.of_forall hbd) hb (Eventually.of_forall fun y t _ => (hd t y).mul_const _)).2

lemma pot_jet (h : JetKernel I K) (hc : ContK I K) {g : Pt d → ℝ} (hg : Continuous g) (hs : HasCompactSupport g) :
    HasJet I (potJet K g 0) (potJet K g) := by
  refine ⟨rfl, fun α u hu x => ?_⟩
  by_cases h0 : u = 0
  · subst h0
    simpa using hasDerivAt_const (0 : ℝ) (potJet K g α x)
  obtain ⟨j0, hj0⟩ := Function.ne_iff.mp h0
  have hα : α ∈ I := h.lower (fun i => by simp) (hu j0 hj0)
  have hcu : ∀ j, Continuous fun p : ℝ × Pt d => u j * K (α + Pi.single j 1) (x + p.1 • u) 0 p.2 := by
    intro j
    by_cases hj : u j = 0
    · simp only [hj, zero_mul]
      exact continuous_const
    · have h1 : Continuous fun p : ℝ × Pt d => (x + p.1 • u, p.2) :=
        (continuous_const.add (continuous_fst.smul continuous_const)).prodMk continuous_snd
      exact continuous_const.mul ((hc _ (hu j hj) 0 h.zero_mem).comp h1)
  have hd := deriv_integral hg hs (F := fun t y => K α (x + t • u) 0 y)
    (F' := fun t y => ∑ j, u j * K (α + Pi.single j 1) (x + t • u) 0 y) (fun t => pot_cont h hc hα _)
    (continuous_finsetSum _ fun j _ => hcu j) fun t y => by
      have h1 := (h.left 0 h.zero_mem y).step α u hu (x + t • u)
      have h2 : HasDerivAt (fun τ : ℝ => K α (x + t • u + (τ - t) • u) 0 y) (∑ j, u j * K (α + Pi.single j 1) (x + t • u) 0 y) t :=
        HasDerivAt.comp_sub_const (f := fun τ : ℝ => K α (x + t • u + τ • u) 0 y) t t (by rw [sub_self]; exact h1)
      refine h2.congr_of_eventuallyEq (Eventually.of_forall fun τ => ?_)
      show _ = K α (x + t • u + (τ - t) • u) 0 y
      rw [add_assoc, ← add_smul, add_sub_cancel]
  refine hd.congr_deriv ?_
  unfold potJet
  simp only [zero_smul, add_zero, Finset.sum_mul]
  rw [integral_finsetSum _ fun j _ => ?_]
  · refine Finset.sum_congr rfl fun j _ => ?_
    rw [← integral_const_mul]
    exact integral_congr_ae (Eventually.of_forall fun y => by ring)
  · have := hcu j
    have h2 : Continuous fun y : Pt d => u j * K (α + Pi.single j 1) x 0 y := by
      have := this.comp (continuous_const.prodMk continuous_id : Continuous fun y : Pt d => ((0 : ℝ), y))
      simpa [Function.comp_def] using this
    exact pot_integrable h2 hg hs

/-- The squared distance from zero is at most this number. -/
noncomputable def potNorm (K : Ix d → Pt d → Ix d → Pt d → ℝ) (g : Pt d → ℝ) : ℝ := (∫ y, Real.sqrt (K 0 y 0 y) * |g y|) ^ 2

/-- A function that differs from the prior mean by a potential has a finite distance from the prior mean. -/
lemma pot_within (h : JetKernel I K) (hc : ContK I K) (m : jetF I) {g : Pt d → ℝ} (hg : Continuous g) (hs : HasCompactSupport g) {f : jetF I}
    (hf : ∀ x, f.1 x = m.1 x + potJet K g 0 x) : Within (h.prior m) f (potNorm K g) := by
  intro L
  obtain ⟨c, rfl⟩ := lin_surjective h m L
  have hP := jet_regular h m
  have hsub : f - m ∈ (⊤ : Submodule ℝ (jetF I)) := trivial
  have hjet : HasJet I (f - m).1 (potJet K g) := by
    have e : (f - m).1 = potJet K g 0 := by
      funext x
      show f.1 x - m.1 x = _
      rw [hf]
      ring
    rw [e]
    exact pot_jet h hc hg hs
  have hint : ∀ q : I × Pt d, Integrable fun y => c q * (K q.1 q.2 0 y * g y) := fun q =>
    (pot_integrable (pot_cont h hc q.1.2 _) hg hs).const_mul _
  have e1 : (h.lin m c).1 f - (h.lin m c).1 (h.prior m).m = ∫ y, (h.prior m).cov (h.lin m c) (h.δ m (⟨0, h.zero_mem⟩, y)) * g y := by
    rw [← map_sub]
    have e2 : ((h.lin m c).1 : jetF I →ₗ[ℝ] ℝ) (f - m) = ∑ q ∈ c.support, c q * potJet K g q.1 q.2 := by
      rw [JetKernel.lin, Finsupp.linearCombination_apply, Finsupp.sum, Submodule.coe_sum, LinearMap.sum_apply]
      refine Finset.sum_congr rfl fun q _ => ?_
      show c q * dAt h.lower q (f - m) = _
      rw [dAt_eq h.lower q _ hjet]
    refine e2.trans ?_
    have e3 : ∀ y, (h.prior m).cov (h.lin m c) (h.δ m (⟨0, h.zero_mem⟩, y)) = ∑ q ∈ c.support, c q * K q.1 q.2 0 y := by
      intro y
      rw [← covBil_apply, JetKernel.lin, Finsupp.linearCombination_apply, Finsupp.sum, map_sum, LinearMap.sum_apply]
      refine Finset.sum_congr rfl fun q _ => ?_
      rw [map_smul, LinearMap.smul_apply, covBil_apply, δ_cov]
      rfl
    simp only [e3, Finset.sum_mul]
    rw [integral_finsetSum _ fun q _ => (hint q).congr (Eventually.of_forall fun y => by simp only; ring)]
    refine Finset.sum_congr rfl fun q _ => ?_
    unfold potJet
    rw [← integral_const_mul]
    exact integral_congr_ae (Eventually.of_forall fun y => by simp only; ring)
  set V := (h.prior m).cov (h.lin m c) (h.lin m c) with hV
  have hV0 : 0 ≤ V := hP.nonneg _
  have hle : ∀ y, |(h.prior m).cov (h.lin m c) (h.δ m (⟨0, h.zero_mem⟩, y)) * g y| ≤ Real.sqrt V * (Real.sqrt (K 0 y 0 y) * |g y|) := by
    intro y
    have h1 := cov_cs hP (h.lin m c) (h.δ m (⟨0, h.zero_mem⟩, y))
    rw [δ_cov] at h1
    have h2 : |(h.prior m).cov (h.lin m c) (h.δ m (⟨0, h.zero_mem⟩, y))| ≤ Real.sqrt V * Real.sqrt (K 0 y 0 y) := by
      rw [← Real.sqrt_mul hV0]
      exact Real.abs_le_sqrt h1
    rw [abs_mul, ← mul_assoc]
    exact mul_le_mul_of_nonneg_right h2 (abs_nonneg _)
  have hc0 : Continuous fun y : Pt d => K 0 y 0 y := (hc 0 h.zero_mem 0 h.zero_mem).comp (continuous_id.prodMk continuous_id)
  have hi : Integrable fun y => Real.sqrt V * (Real.sqrt (K 0 y 0 y) * |g y|) :=
    (pot_integrable (Real.continuous_sqrt.comp hc0) hg.abs hs.abs).const_mul _
  rw [e1]
  have h3 := norm_integral_le_of_norm_le (f := fun y => (h.prior m).cov (h.lin m c) (h.δ m (⟨0, h.zero_mem⟩, y)) * g y) hi (Eventually.of_forall hle)
  rw [integral_const_mul, Real.norm_eq_abs] at h3
  have h4 := pow_le_pow_left₀ (abs_nonneg _) h3 2
  rw [sq_abs, mul_pow, Real.sq_sqrt hV0] at h4
  refine h4.trans (le_of_eq ?_)
  unfold potNorm
  ring

end LinPDE.Solve
