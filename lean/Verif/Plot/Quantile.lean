import Verif.Plot.Model

/-!
# The standard normal distribution function and its quantiles
-/

namespace LinPDE.Plot
open ProbabilityTheory MeasureTheory Set Filter Topology

/-- The standard normal distribution. -/
noncomputable abbrev stdn : Measure ℝ := gaussianReal 0 1

lemma stdn_singleton (x : ℝ) : stdn {x} = 0 := by
  have : (1 : NNReal) ≠ 0 := one_ne_zero
  exact (gaussianReal_absolutelyContinuous 0 this) (by simp)

lemma cdf_continuous : Continuous (cdf stdn) := by
  rw [continuous_iff_continuousAt]
  intro x
  rw [(cdf stdn).mono.continuousAt_iff_leftLim_eq_rightLim, StieltjesFunction.rightLim_eq]
  have h := StieltjesFunction.measure_singleton (cdf stdn) x
  rw [measure_cdf, stdn_singleton] at h
  have h2 := (ENNReal.ofReal_eq_zero.1 h.symm)
  have h3 := (cdf stdn).mono.leftLim_le (le_refl x)
  linarith

lemma cdf_quantile {p : ℝ} (h0 : 0 < p) (h1 : p < 1) : cdf stdn (quantile p) = p := by
  obtain ⟨b, hb⟩ := ((tendsto_cdf_atTop stdn).eventually (lt_mem_nhds h1)).exists
  obtain ⟨a, ha⟩ := ((tendsto_cdf_atBot stdn).eventually (gt_mem_nhds h0)).exists
  set S := {x | p ≤ cdf stdn x}
  have hne : S.Nonempty := ⟨b, hb.le⟩
  have hbdd : BddBelow S := ⟨a, fun x hx => by
    by_contra hlt
    exact absurd (hx.trans ((monotone_cdf stdn) (not_le.1 hlt).le)) (not_le.2 ha)⟩
  have hcl : IsClosed S := isClosed_le continuous_const cdf_continuous
  have hmem : quantile p ∈ S := hcl.csInf_mem hne hbdd
  refine le_antisymm ?_ hmem
  have hlt : ∀ x, x < quantile p → cdf stdn x < p := fun x hx => by
    by_contra hge
    exact absurd (csInf_le hbdd (show x ∈ S from not_lt.1 hge)) (not_le.2 hx)
  have ht : Tendsto (cdf stdn) (𝓝[<] (quantile p)) (𝓝 (cdf stdn (quantile p))) :=
    (cdf_continuous.tendsto _).mono_left nhdsWithin_le_nhds
  exact le_of_tendsto ht (eventually_nhdsWithin_of_forall fun x hx => (hlt x hx).le)

lemma stdn_neg (s : Set ℝ) (hs : MeasurableSet s) : stdn ((fun x => -x) ⁻¹' s) = stdn s := by
  have h := gaussianReal_map_neg (μ := 0) (v := 1)
  rw [neg_zero] at h
  rw [← Measure.map_apply measurable_neg hs, h]

lemma stdn_Ici_neg (x : ℝ) : stdn.real (Ici (-x)) = cdf stdn x := by
  rw [cdf_eq_real, measureReal_def, measureReal_def, ← stdn_neg _ measurableSet_Ici]
  congr 2
  ext y
  simp

lemma stdn_Iio (x : ℝ) : stdn.real (Iio x) = cdf stdn x := by
  rw [cdf_eq_real, ← Iio_union_right, measureReal_union (by simp) (measurableSet_singleton _)]
  simp [measureReal_def, stdn_singleton]

lemma cdf_neg (x : ℝ) : cdf stdn (-x) = 1 - cdf stdn x := by
  have h := stdn_Ici_neg (-x)
  rw [neg_neg] at h
  rw [← h, ← stdn_Iio x, ← compl_Iio, probReal_compl_eq_one_sub measurableSet_Iio]

lemma cdf_zero : cdf stdn 0 = 1 / 2 := by
  have := cdf_neg 0
  rw [neg_zero] at this
  linarith

lemma stdn_Icc {x : ℝ} (hx : x ≤ 0) : stdn.real (Icc x (-x)) = 1 - 2 * cdf stdn x := by
  have h : Iic (-x) = Iio x ∪ Icc x (-x) := by
    ext y
    simp only [mem_Iic, mem_union, mem_Iio, mem_Icc]
    constructor
    · intro hy
      rcases lt_or_ge y x with h | h
      · exact Or.inl h
      · exact Or.inr ⟨h, hy⟩
    · rintro (h | h) <;> linarith
  have hd : Disjoint (Iio x) (Icc x (-x)) := disjoint_left.2 fun y h1 h2 => absurd h2.1 (not_le.2 h1)
  have := measureReal_union (μ := stdn) hd measurableSet_Icc
  rw [← h, stdn_Iio, ← cdf_eq_real, cdf_neg] at this
  linarith

lemma quantile_neg {p : ℝ} (h0 : 0 < p) (h1 : p < 1 / 2) : quantile p < 0 := by
  by_contra h
  have := monotone_cdf stdn (not_lt.1 h)
  rw [cdf_quantile h0 (by linarith), cdf_zero] at this
  linarith

lemma stdFactor_fin {c : ℝ} (h0 : -1 < c) (h1 : c < 1) : stdFactor c = .fin (-quantile ((1 - c) / 2)) := by
  unfold stdFactor ppf
  rw [if_neg (by push Not; constructor <;> linarith), if_neg (by intro h; linarith), if_neg (by intro h; linarith)]
  rfl

/-- Half the width of the credible interval of level `c`, in standard deviations. -/
noncomputable def width (c : ℝ) : ℝ := -quantile ((1 - c) / 2)

lemma width_pos {c : ℝ} (h0 : 0 < c) (h1 : c < 1) : 0 < width c :=
  neg_pos.2 (quantile_neg (by linarith) (by linarith))

lemma stdn_width {c : ℝ} (h0 : 0 < c) (h1 : c < 1) : stdn.real (Icc (-width c) (width c)) = c := by
  have h := stdn_Icc (x := quantile ((1 - c) / 2)) (quantile_neg (by linarith) (by linarith)).le
  rw [cdf_quantile (by linarith) (by linarith)] at h
  unfold width
  rw [neg_neg, h]
  ring

/-- The interval of `width c` standard deviations about the mean has probability `c`. -/
lemma gaussian_width {c m s : ℝ} (h0 : 0 < c) (h1 : c < 1) (hs : 0 < s) :
    (gaussianReal m (Real.toNNReal (s ^ 2))).real (Icc (m - width c * s) (m + width c * s)) = c := by
  have h := gaussianReal_map_const_mul (μ := 0) (v := 1) s
  have h2 := gaussianReal_map_add_const (μ := s * 0) (v := NNReal.mk (s ^ 2) (sq_nonneg _) * 1) m
  rw [← h, Measure.map_map (by fun_prop) (by fun_prop)] at h2
  have h3 : gaussianReal (s * 0 + m) (NNReal.mk (s ^ 2) (sq_nonneg _) * 1) = gaussianReal m (Real.toNNReal (s ^ 2)) := by
    congr 1
    · ring
    · ext
      simp [sq_nonneg]
  rw [← h3, ← h2, measureReal_def, Measure.map_apply (by fun_prop) measurableSet_Icc, ← measureReal_def]
  have : ((fun x => x + m) ∘ fun x => s * x) ⁻¹' Icc (m - width c * s) (m + width c * s) = Icc (-width c) (width c) := by
    ext x
    simp only [mem_preimage, Function.comp, mem_Icc]
    constructor
    · rintro ⟨a, b⟩
      constructor <;> nlinarith
    · rintro ⟨a, b⟩
      constructor <;> nlinarith
  rw [this]
  exact stdn_width h0 h1

end LinPDE.Plot
