import Verif.GP.Interpolate
import Verif.Galerkin.Spec
import Verif.PosDef.Spectral
import Mathlib.MeasureTheory.Measure.WithDensity
import Mathlib.MeasureTheory.Integral.Bochner.Basic
import Mathlib.MeasureTheory.Measure.Dirac

/-!
# Gaussian processes observed through integrals

The functionals of the model (`GP/Model.lean`) for projections: evaluations and integrals against weight functions, on the
measurable functions that are bounded on bounded sets. A covariance function with a measurable feature map gives a prior
for which `L(prior.cov, argnum=1)` is the integral over the second argument (`_lintransforms.py:9-21`,
`randprocs/crosscov/linfunctls/projections.py:46-71`, `linfunctls/projections/l2/_fem.py:63-78`).
-/

namespace LinPDE.GP
open Matrix MeasureTheory LinPDE.Galerkin
open scoped InnerProductSpace

/-- Measurable functions that are bounded on bounded sets. -/
def lbF : Submodule ℝ (ℝ → ℝ) where
  carrier := {f | LB f}
  add_mem' := fun h h' => h.add h'
  zero_mem' := LB.zero
  smul_mem' := fun c _ h => h.const_smul c

/-- Evaluation at a point. -/
def evF (x : ℝ) : lbF →ₗ[ℝ] ℝ where
  toFun f := f.1 x
  map_add' _ _ := rfl
  map_smul' _ _ := rfl

/-- The integral against a weight. -/
noncomputable def wF (w : {w : ℝ → ℝ // Weight w}) : lbF →ₗ[ℝ] ℝ where
  toFun f := ∫ t, w.1 t * f.1 t
  map_add' f g := by
    rw [← integral_add (w.2.integrable_mul f.2) (w.2.integrable_mul g.2)]
    exact integral_congr_ae (Filter.Eventually.of_forall fun t => by simp [mul_add])
  map_smul' c f := by
    simp only [RingHom.id_apply, smul_eq_mul]
    rw [← integral_const_mul]
    exact integral_congr_ae (Filter.Eventually.of_forall fun t => by simp; ring)

/-- Combinations of evaluations and weighted integrals. -/
noncomputable def lbΛ : Submodule ℝ (lbF →ₗ[ℝ] ℝ) := Submodule.span ℝ (Set.range evF ∪ Set.range wF)

lemma evF_mem (x : ℝ) : evF x ∈ lbΛ := Submodule.subset_span (Or.inl ⟨x, rfl⟩)

lemma wF_mem (w : {w : ℝ → ℝ // Weight w}) : wF w ∈ lbΛ := Submodule.subset_span (Or.inr ⟨w, rfl⟩)

/-- Functionals of inner products with feature vectors are inner products with one vector. -/
lemma exists_rep {H : Type} [NormedAddCommGroup H] [InnerProductSpace ℝ H] [CompleteSpace H] {f : ℝ → H} (hf : LB f)
    {L : lbF →ₗ[ℝ] ℝ} (hL : L ∈ lbΛ) : ∃ h : H, ∀ v, L ⟨fun s => ⟪f s, v⟫_ℝ, hf.inner_const v⟩ = ⟪h, v⟫_ℝ := by
  refine Submodule.span_induction (p := fun L _ => ∃ h : H, ∀ v, L ⟨fun s => ⟪f s, v⟫_ℝ, hf.inner_const v⟩ = ⟪h, v⟫_ℝ)
    ?_ ?_ ?_ ?_ hL
  · rintro _ (⟨x, rfl⟩ | ⟨w, rfl⟩)
    · exact ⟨f x, fun v => rfl⟩
    · exact ⟨∫ t, w.1 t • f t, fun v => w.2.integral_inner hf v⟩
  · exact ⟨0, fun v => by simp⟩
  · rintro L L' _ _ ⟨h, hh⟩ ⟨h', hh'⟩
    exact ⟨h + h', fun v => by rw [LinearMap.add_apply, hh, hh', inner_add_left]⟩
  · rintro c L _ ⟨h, hh⟩
    exact ⟨c • h, fun v => by rw [LinearMap.smul_apply, hh, inner_smul_left]; rfl⟩

variable {k : ℝ → ℝ → ℝ}

lemma sec_lb (hF : Nonempty (Feature k)) (x : ℝ) : k x ∈ lbF := hF.elim fun F => F.section_lb x

lemma sec_feature (F : Feature k) (x : ℝ) : k x = fun s => ⟪F.ψ s, F.ψ x⟫_ℝ := funext fun t => by rw [F.eq, F.symm]

lemma rep_sec (F : Feature k) {L : lbF →ₗ[ℝ] ℝ} {h : F.H}
    (hh : ∀ v, L ⟨fun s => ⟪F.ψ s, v⟫_ℝ, F.lb.inner_const v⟩ = ⟪h, v⟫_ℝ) (x : ℝ) :
    L ⟨k x, sec_lb ⟨F⟩ x⟩ = ⟪F.ψ x, h⟫_ℝ := by
  rw [real_inner_comm, ← hh]
  congr 1
  exact Subtype.ext (sec_feature F x)

/-- The prior with mean `m` and covariance function `k`. -/
@[reducible] noncomputable def lbPrior (hF : Nonempty (Feature k)) (m : lbF) : Prior ℝ where
  F := lbF
  m := m
  k := k
  sec_mem := sec_lb hF
  Λ := lbΛ
  cross_mem L hL := by
    obtain ⟨F⟩ := hF
    obtain ⟨h, hh⟩ := exists_rep F.lb hL
    rw [show (fun x => L ⟨k x, sec_lb ⟨F⟩ x⟩) = fun x => ⟪F.ψ x, h⟫_ℝ from funext (rep_sec F hh)]
    exact F.lb.inner_const h

lemma lb_cov (F : Feature k) (m : lbF) (L L' : (lbPrior ⟨F⟩ m).Λ) {h h' : F.H}
    (hh : ∀ v, L.1 ⟨fun s => ⟪F.ψ s, v⟫_ℝ, F.lb.inner_const v⟩ = ⟪h, v⟫_ℝ)
    (hh' : ∀ v, L'.1 ⟨fun s => ⟪F.ψ s, v⟫_ℝ, F.lb.inner_const v⟩ = ⟪h', v⟫_ℝ) :
    (lbPrior ⟨F⟩ m).cov L L' = ⟪h, h'⟫_ℝ := by
  rw [← hh]
  show L.1 _ = L.1 _
  congr 1
  exact Subtype.ext (funext fun x => rep_sec F hh' x)

/-- The prior satisfies the assumptions of the theorems on conditioning. -/
theorem lb_regular (hF : Nonempty (Feature k)) (m : lbF) : (lbPrior hF m).Regular := by
  obtain ⟨F⟩ := hF
  refine ⟨fun x => evF_mem x, fun L L' => ?_, fun L => ?_⟩
  · obtain ⟨h, hh⟩ := exists_rep F.lb L.2
    obtain ⟨h', hh'⟩ := exists_rep F.lb L'.2
    rw [lb_cov F m L L' hh hh', lb_cov F m L' L hh' hh, real_inner_comm]
  · obtain ⟨h, hh⟩ := exists_rep F.lb L.2
    rw [lb_cov F m L L hh hh]
    exact real_inner_self_nonneg

/-! ## Strictness -/

/-- Functionals that vanish on all sections of the kernel vanish. -/
def IStrict (k : ℝ → ℝ → ℝ) : Prop :=
  ∃ hF : Nonempty (Feature k), ∀ L ∈ lbΛ, (∀ x, L ⟨k x, sec_lb hF x⟩ = 0) → L = 0

lemma IStrict.feature (h : IStrict k) : Nonempty (Feature k) := h.1

lemma lb_var (hk : IStrict k) (m : lbF) (L : (lbPrior hk.feature m).Λ) (h0 : (lbPrior hk.feature m).cov L L = 0) : L = 0 := by
  obtain ⟨⟨F⟩, hs⟩ := hk
  obtain ⟨h, hh⟩ := exists_rep F.lb L.2
  rw [lb_cov F m L L hh hh, inner_self_eq_zero] at h0
  exact Subtype.ext (hs L.1 L.2 fun x => by rw [rep_sec F hh, h0, inner_zero_right])

/-- The measured functionals of a history have a positive definite covariance matrix exactly if they are linearly
independent. -/
lemma lb_gram_iff (hk : IStrict k) (m : lbF) {ι : Type} [Fintype ι] (L : ι → (lbPrior hk.feature m).Λ) :
    (Matrix.of fun i j => (lbPrior hk.feature m).cov (L i) (L j)).PosDef ↔
      ∀ g : ι → ℝ, ∑ i, g i • L i = 0 → ∀ i, g i = 0 := by
  have hP := lb_regular hk.feature m
  have hq : ∀ a : ι → ℝ, star a ⬝ᵥ ((Matrix.of fun i j => (lbPrior hk.feature m).cov (L i) (L j)) *ᵥ a) =
      (lbPrior hk.feature m).cov (∑ i, a i • L i) (∑ i, a i • L i) := by
    intro a
    rw [cov_sum]
    simp only [dotProduct, Matrix.mulVec, of_apply, Finset.mul_sum, Pi.star_apply, star_trivial]
    exact Finset.sum_congr rfl fun i _ => Finset.sum_congr rfl fun j _ => by ring
  refine ⟨fun hp a ha i => ?_, fun hl => ?_⟩
  · by_contra hne
    have := hp.dotProduct_mulVec_pos (x := a) fun h0 => hne (congrFun h0 i)
    rw [hq, ha, ← covBil_apply, map_zero] at this
    simp at this
  · refine Matrix.PosDef.of_dotProduct_mulVec_pos ?_ fun a ha => ?_
    · ext i j
      simp only [conjTranspose_apply, of_apply, star_trivial]
      rw [hP.symm]
    · rw [hq]
      refine lt_of_le_of_ne (hP.nonneg _) fun h0 => ha ?_
      funext i
      exact hl a (lb_var hk m _ h0.symm) i

/-! ### Stationary kernels -/

/-- Functionals are differences of integrals against two finite measures. -/
lemma exists_measures {L : lbF →ₗ[ℝ] ℝ} (hL : L ∈ lbΛ) : ∃ μ ν : Measure ℝ, IsFiniteMeasure μ ∧ IsFiniteMeasure ν ∧
    ∀ f : lbF, Integrable f.1 μ ∧ Integrable f.1 ν ∧ L f = ∫ t, f.1 t ∂μ - ∫ t, f.1 t ∂ν := by
  refine Submodule.span_induction (p := fun L _ => ∃ μ ν : Measure ℝ, IsFiniteMeasure μ ∧ IsFiniteMeasure ν ∧
    ∀ f : lbF, Integrable f.1 μ ∧ Integrable f.1 ν ∧ L f = ∫ t, f.1 t ∂μ - ∫ t, f.1 t ∂ν) ?_ ?_ ?_ ?_ hL
  · rintro _ (⟨x, rfl⟩ | ⟨w, rfl⟩)
    · refine ⟨Measure.dirac x, 0, inferInstance, inferInstance, fun f => ⟨?_, integrable_zero_measure, ?_⟩⟩
      · exact integrable_dirac (by simp)
      · simp [evF]
    · have hm : AEMeasurable w.1 volume := w.2.integrable.1.aemeasurable
      have hp : AEMeasurable (fun t => ENNReal.ofReal (w.1 t)) volume := hm.ennreal_ofReal
      have hn : AEMeasurable (fun t => ENNReal.ofReal (-w.1 t)) volume := hm.neg.ennreal_ofReal
      have i1 : ∀ f : lbF, Integrable (fun t => (ENNReal.ofReal (w.1 t)).toReal • f.1 t) volume := by
        intro f
        refine Integrable.mono (w.2.integrable_mul f.2) ((hp.ennreal_toReal.aestronglyMeasurable).smul f.2.meas.aestronglyMeasurable)
          (Filter.Eventually.of_forall fun t => ?_)
        rw [norm_smul, norm_mul]
        refine mul_le_mul_of_nonneg_right ?_ (norm_nonneg _)
        rw [ENNReal.toReal_ofReal', Real.norm_eq_abs, Real.norm_eq_abs, abs_of_nonneg (le_max_right _ _)]
        exact max_le (le_abs_self _) (abs_nonneg _)
      have i2 : ∀ f : lbF, Integrable (fun t => (ENNReal.ofReal (-w.1 t)).toReal • f.1 t) volume := by
        intro f
        refine Integrable.mono (w.2.integrable_mul f.2) ((hn.ennreal_toReal.aestronglyMeasurable).smul f.2.meas.aestronglyMeasurable)
          (Filter.Eventually.of_forall fun t => ?_)
        rw [norm_smul, norm_mul]
        refine mul_le_mul_of_nonneg_right ?_ (norm_nonneg _)
        rw [ENNReal.toReal_ofReal', Real.norm_eq_abs, Real.norm_eq_abs, abs_of_nonneg (le_max_right _ _)]
        exact max_le (neg_le_abs _) (abs_nonneg _)
      refine ⟨volume.withDensity fun t => ENNReal.ofReal (w.1 t), volume.withDensity fun t => ENNReal.ofReal (-w.1 t),
        isFiniteMeasure_withDensity_ofReal w.2.integrable.2, isFiniteMeasure_withDensity_ofReal w.2.integrable.neg.2,
        fun f => ⟨?_, ?_, ?_⟩⟩
      · exact (integrable_withDensity_iff_integrable_smul₀' hp (Filter.Eventually.of_forall fun _ => ENNReal.ofReal_lt_top)).mpr (i1 f)
      · exact (integrable_withDensity_iff_integrable_smul₀' hn (Filter.Eventually.of_forall fun _ => ENNReal.ofReal_lt_top)).mpr (i2 f)
      · rw [integral_withDensity_eq_integral_toReal_smul₀ hp (Filter.Eventually.of_forall fun _ => ENNReal.ofReal_lt_top),
          integral_withDensity_eq_integral_toReal_smul₀ hn (Filter.Eventually.of_forall fun _ => ENNReal.ofReal_lt_top),
          ← integral_sub (i1 f) (i2 f)]
        refine integral_congr_ae (Filter.Eventually.of_forall fun t => ?_)
        simp only [ENNReal.toReal_ofReal', smul_eq_mul]
        rcases le_total 0 (w.1 t) with h | h
        · rw [max_eq_left h, max_eq_right (by linarith)]; ring
        · rw [max_eq_right h, max_eq_left (by linarith)]; ring
  · exact ⟨0, 0, inferInstance, inferInstance, fun f => ⟨integrable_zero_measure, integrable_zero_measure, by simp⟩⟩
  · rintro L L' _ _ ⟨μ, ν, _, _, h⟩ ⟨μ', ν', _, _, h'⟩
    refine ⟨μ + μ', ν + ν', inferInstance, inferInstance, fun f => ⟨(h f).1.add_measure (h' f).1,
      (h f).2.1.add_measure (h' f).2.1, ?_⟩⟩
    rw [LinearMap.add_apply, (h f).2.2, (h' f).2.2, integral_add_measure (h f).1 (h' f).1,
      integral_add_measure (h f).2.1 (h' f).2.1]
    ring
  · rintro c L _ ⟨μ, ν, _, _, h⟩
    rcases le_total 0 c with hc | hc
    · refine ⟨c.toNNReal • μ, c.toNNReal • ν, inferInstance, inferInstance, fun f => ⟨(h f).1.smul_measure_nnreal,
        (h f).2.1.smul_measure_nnreal, ?_⟩⟩
      rw [LinearMap.smul_apply, (h f).2.2, integral_smul_nnreal_measure, integral_smul_nnreal_measure]
      simp only [NNReal.smul_def, Real.coe_toNNReal _ hc, smul_eq_mul]
      ring
    · refine ⟨(-c).toNNReal • ν, (-c).toNNReal • μ, inferInstance, inferInstance, fun f => ⟨(h f).2.1.smul_measure_nnreal,
        (h f).1.smul_measure_nnreal, ?_⟩⟩
      rw [LinearMap.smul_apply, (h f).2.2, integral_smul_nnreal_measure, integral_smul_nnreal_measure]
      simp only [NNReal.smul_def, Real.coe_toNNReal _ (neg_nonneg.mpr hc), smul_eq_mul]
      ring

/-- Stationary covariance functions whose spectral density has no zero. -/
lemma istrict_stationary {κ : ℝ → ℝ} (hκ : PosDef.Spectral κ) (hF : Nonempty (Feature fun x y => κ (x - y))) :
    IStrict fun x y => κ (x - y) := by
  refine ⟨hF, fun L hL h0 => ?_⟩
  obtain ⟨μ, ν, _, _, h⟩ := exists_measures hL
  have : μ = ν := hκ.measure_eq fun z => by
    have := (h ⟨_, sec_lb hF z⟩).2.2
    rw [h0 z] at this
    exact sub_eq_zero.mp this.symm
  subst this
  exact LinearMap.ext fun f => by rw [(h f).2.2, sub_self]; rfl

/-! ### Closure -/

lemma rep_zero {H : Type} [NormedAddCommGroup H] [InnerProductSpace ℝ H] {h : H} (hh : ⟪h, h⟫_ℝ = 0) : h = 0 :=
  inner_self_eq_zero.mp hh

/-- A strict kernel plus a covariance function. -/
lemma IStrict.add {k k' : ℝ → ℝ → ℝ} (hk : IStrict k) (hk' : Nonempty (Feature k')) : IStrict fun x y => k x y + k' x y := by
  obtain ⟨⟨F⟩, hs⟩ := hk
  obtain ⟨F'⟩ := hk'
  obtain ⟨G⟩ := F.add F'
  refine ⟨⟨G⟩, fun L hL h0 => ?_⟩
  obtain ⟨h, hh⟩ := exists_rep F.lb hL
  obtain ⟨h', hh'⟩ := exists_rep F'.lb hL
  have e : ∀ x, ⟪F.ψ x, h⟫_ℝ + ⟪F'.ψ x, h'⟫_ℝ = 0 := by
    intro x
    rw [← rep_sec F hh, ← rep_sec F' hh', ← map_add, ← h0 x]
    rfl
  have e2 : ⟪h, h⟫_ℝ + ⟪h', h'⟫_ℝ = 0 := by
    rw [← hh, ← hh', ← map_add, ← map_zero L]
    congr 1
    exact Subtype.ext (funext e)
  have h1 : h = 0 := by
    have a := real_inner_self_nonneg (x := h)
    have b := real_inner_self_nonneg (x := h')
    exact rep_zero (by linarith)
  exact hs L hL fun x => by rw [rep_sec F hh, h1, inner_zero_right]

/-- Positive multiples. -/
lemma IStrict.smul {k : ℝ → ℝ → ℝ} (hk : IStrict k) {c : ℝ} (hc : 0 < c) : IStrict fun x y => c * k x y := by
  obtain ⟨⟨F⟩, hs⟩ := hk
  refine ⟨F.smul hc.le, fun L hL h0 => hs L hL fun x => ?_⟩
  have := h0 x
  rw [show (⟨fun y => c * k x y, sec_lb (F.smul hc.le) x⟩ : lbF) = c • ⟨k x, sec_lb ⟨F⟩ x⟩ from rfl, map_smul,
    smul_eq_mul] at this
  exact (mul_eq_zero.mp this).resolve_left hc.ne'

/-- The Galerkin covariance function of a strict kernel. -/
lemma IStrict.galerkin {k : ℝ → ℝ → ℝ} (hk : IStrict k) {P : Proj} (hP : Galerkin.Good P) : IStrict (spec P k) := by
  obtain ⟨⟨F⟩, hs⟩ := hk
  obtain ⟨G⟩ := spec_feature hP F
  refine ⟨⟨G⟩, fun L hL h0 => ?_⟩
  have lu := uv_lb hP F.ψ
  have lr := F.lb.sub lu
  obtain ⟨a, ha⟩ := exists_rep lu hL
  obtain ⟨b, hb⟩ := exists_rep lr hL
  have e : ∀ x, ⟪uv P F.ψ x, a⟫_ℝ + ⟪F.ψ x - uv P F.ψ x, b⟫_ℝ = 0 := by
    intro x
    rw [real_inner_comm, ← ha, real_inner_comm, ← hb, ← map_add, ← h0 x]
    congr 1
    refine Subtype.ext (funext fun s => ?_)
    show ⟪uv P F.ψ s, uv P F.ψ x⟫_ℝ + ⟪F.ψ s - uv P F.ψ s, F.ψ x - uv P F.ψ x⟫_ℝ = spec P k x s
    rw [spec_eq hP F, real_inner_comm, real_inner_comm (F.ψ s - uv P F.ψ s)]
  have e2 : ⟪a, a⟫_ℝ + ⟪b, b⟫_ℝ = 0 := by
    rw [← ha, ← hb, ← map_add, ← map_zero L]
    congr 1
    exact Subtype.ext (funext e)
  have n1 := real_inner_self_nonneg (x := a)
  have n2 := real_inner_self_nonneg (x := b)
  have a0 : a = 0 := rep_zero (by linarith)
  have b0 : b = 0 := rep_zero (by linarith)
  refine hs L hL fun x => ?_
  have : L ⟨k x, sec_lb ⟨F⟩ x⟩ = ⟪a, F.ψ x⟫_ℝ + ⟪b, F.ψ x⟫_ℝ := by
    rw [← ha, ← hb, ← map_add]
    congr 1
    refine Subtype.ext (funext fun s => ?_)
    show k x s = ⟪uv P F.ψ s, F.ψ x⟫_ℝ + ⟪F.ψ s - uv P F.ψ s, F.ψ x⟫_ℝ
    rw [← inner_add_left, add_sub_cancel, F.eq, F.symm]
  rw [this, a0, b0, inner_zero_left, add_zero]

end LinPDE.GP
