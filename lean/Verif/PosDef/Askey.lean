import Verif.PosDef.Ball

/-!
# Askey's truncated powers are mixtures of Euclid's hats
-/

namespace LinPDE.PosDef
open MeasureTheory Filter Topology Metric

/-- `f` is a mixture of truncated powers on `[ε, 1)`, and at least that mixture on `(0, ε)`. -/
def Mix (ε : ℝ) (m : ℕ) (f : ℝ → ℝ) : Prop :=
  ∃ nu : Measure ℝ, IsFiniteMeasure nu ∧ (∀ᵐ t ∂nu, t ≤ 1) ∧
    (∀ u, 0 < u → u < 1 → ∫ t, pp m (t - u) ∂nu ≤ f u) ∧ ∀ u, ε ≤ u → u < 1 → ∫ t, pp m (t - u) ∂nu = f u

lemma pp_le_one (m : ℕ) {t : ℝ} (ht : t ≤ 1) : pp m t ≤ 1 := by
  unfold pp
  split_ifs with h
  · exact pow_le_one₀ h.le ht
  · exact zero_le_one

lemma mix_integrable {nu : Measure ℝ} [IsFiniteMeasure nu] (hnu : ∀ᵐ t ∂nu, t ≤ 1) (m : ℕ) {u : ℝ} (hu : 0 ≤ u) :
    Integrable (fun t => pp m (t - u)) nu := by
  refine Integrable.of_bound ((pp_measurable m).comp (by fun_prop)).aestronglyMeasurable 1 ?_
  filter_upwards [hnu] with t ht
  rw [Real.norm_eq_abs, abs_of_nonneg (pp_nonneg _ _)]
  exact pp_le_one m (by linarith)

lemma Mix.add {ε : ℝ} {m : ℕ} {f g : ℝ → ℝ} (hf : Mix ε m f) (hg : Mix ε m g) (hε : 0 < ε) : Mix ε m fun u => f u + g u := by
  obtain ⟨nu, _, h1, h2, h3⟩ := hf
  obtain ⟨xi, _, g1, g2, g3⟩ := hg
  refine ⟨nu + xi, inferInstance, ?_, fun u h0 h => ?_, fun u h0 h => ?_⟩
  · rw [ae_add_measure_iff]
    exact ⟨h1, g1⟩
  · rw [integral_add_measure (mix_integrable h1 m h0.le) (mix_integrable g1 m h0.le)]
    exact add_le_add (h2 u h0 h) (g2 u h0 h)
  · rw [integral_add_measure (mix_integrable h1 m (hε.le.trans h0)) (mix_integrable g1 m (hε.le.trans h0)), h3 u h0 h, g3 u h0 h]

lemma Mix.smul {ε : ℝ} {m : ℕ} {f : ℝ → ℝ} (hf : Mix ε m f) {c : ℝ} (hc : 0 ≤ c) : Mix ε m fun u => c * f u := by
  obtain ⟨nu, _, h1, h2, h3⟩ := hf
  refine ⟨ENNReal.ofReal c • nu, nu.smul_finite ENNReal.ofReal_ne_top, Measure.ae_smul_measure h1 _, fun u h0 h => ?_,
    fun u h0 h => ?_⟩
  · rw [integral_smul_measure, ENNReal.toReal_ofReal hc, smul_eq_mul]
    exact mul_le_mul_of_nonneg_left (h2 u h0 h) hc
  · rw [integral_smul_measure, ENNReal.toReal_ofReal hc, smul_eq_mul, h3 u h0 h]

/-- Functions decreasing with derivative `-w`. -/
structure Dec (f w : ℝ → ℝ) : Prop where
  deriv : ∀ u, 0 < u → HasDerivAt f (-w u) u
  cont : ContinuousOn w (Set.Ioi 0)
  nonneg : ∀ u, 0 < u → u ≤ 1 → 0 ≤ w u

lemma Dec.intervalIntegrable {f w : ℝ → ℝ} (h : Dec f w) {a b : ℝ} (ha : 0 < a) (hb : 0 < b) :
    IntervalIntegrable w volume a b := by
  refine (h.cont.mono ?_).intervalIntegrable
  intro x hx
  exact lt_of_lt_of_le (lt_min ha hb) hx.1

lemma Dec.integral {f w : ℝ → ℝ} (h : Dec f w) {a b : ℝ} (ha : 0 < a) (hab : a ≤ b) : ∫ v in Set.Ioc a b, w v = f a - f b := by
  rw [← intervalIntegral.integral_of_le hab]
  have := intervalIntegral.integral_eq_sub_of_hasDerivAt (f := f) (f' := fun u => -w u) (a := a) (b := b)
    (fun x hx => h.deriv x (by rw [Set.uIcc_of_le hab] at hx; exact lt_of_lt_of_le ha hx.1))
    (h.intervalIntegrable ha (lt_of_lt_of_le ha hab)).neg
  rw [intervalIntegral.integral_neg] at this
  linarith

lemma Dec.integrableOn {f w : ℝ → ℝ} (h : Dec f w) {a b : ℝ} (ha : 0 < a) (hab : a ≤ b) : IntegrableOn w (Set.Ioc a b) :=
  (intervalIntegrable_iff_integrableOn_Ioc_of_le hab).mp (h.intervalIntegrable ha (lt_of_lt_of_le ha hab))

lemma Mix.base {ε : ℝ} (hε : 0 < ε) (hε1 : ε < 1) {f w : ℝ → ℝ} (h : Dec f w) (h1 : 0 ≤ f 1) (hw : Measurable w) : Mix ε 0 f := by
  set xi := (volume.restrict (Set.Ioc ε 1)).withDensity (fun v => ENNReal.ofReal (w v)) with hxi
  have hfin : IsFiniteMeasure xi := by
    refine isFiniteMeasure_withDensity_ofReal ?_
    exact (h.integrableOn hε hε1.le).2
  have hae : ∀ᵐ t ∂xi, t ≤ 1 := by
    refine (withDensity_absolutelyContinuous _ _).ae_le ?_
    filter_upwards [ae_restrict_mem measurableSet_Ioc] with t ht using ht.2
  have hval : ∀ u, 0 < u → u < 1 → ∫ t, pp 0 (t - u) ∂xi = ∫ v in Set.Ioc (max u ε) 1, w v := by
    intro u h0 hu
    rw [hxi, integral_withDensity_eq_integral_toReal_smul (by fun_prop) (Eventually.of_forall fun _ => ENNReal.ofReal_lt_top)]
    have e : Set.Ioc (max u ε) 1 = Set.Ioi u ∩ Set.Ioc ε 1 := by
      ext t; simp only [Set.mem_Ioc, Set.mem_inter_iff, Set.mem_Ioi, max_lt_iff]; tauto
    rw [e, ← Measure.restrict_restrict measurableSet_Ioi, ← integral_indicator measurableSet_Ioi]
    refine setIntegral_congr_fun measurableSet_Ioc fun t ht => ?_
    rw [ENNReal.toReal_ofReal (h.nonneg t (hε.trans ht.1) ht.2), smul_eq_mul]
    unfold pp
    by_cases hut : u < t
    · rw [if_pos (by linarith), Set.indicator_of_mem (by exact hut), pow_zero, mul_one]
    · rw [if_neg (by linarith), Set.indicator_of_notMem (by exact hut), mul_zero]
  have hd : ∀ u, 0 < u → u < 1 → ∫ t, pp 0 (t - u) ∂(ENNReal.ofReal (f 1) • Measure.dirac 1 + xi) = f (max u ε) := by
    intro u h0 hu
    have hdi : Integrable (fun t => pp 0 (t - u)) (ENNReal.ofReal (f 1) • Measure.dirac 1) :=
      (integrable_dirac (by simp)).smul_measure ENNReal.ofReal_ne_top
    rw [integral_add_measure hdi (mix_integrable hae 0 h0.le), integral_smul_measure, integral_dirac, hval u h0 hu,
      h.integral (lt_max_of_lt_left h0) (max_le hu.le hε1.le), ENNReal.toReal_ofReal h1]
    unfold pp
    rw [if_pos (by linarith), pow_zero, smul_eq_mul]
    ring
  refine ⟨ENNReal.ofReal (f 1) • Measure.dirac 1 + xi, ?_, ?_, fun u h0 hu => ?_, fun u h0 hu => ?_⟩
  · have : IsFiniteMeasure (ENNReal.ofReal (f 1) • Measure.dirac (1 : ℝ)) := Measure.smul_finite _ ENNReal.ofReal_ne_top
    infer_instance
  · rw [ae_add_measure_iff]
    refine ⟨Measure.ae_smul_measure ?_ _, hae⟩
    rw [ae_dirac_iff measurableSet_Iic]
  · rw [hd u h0 hu]
    have := h.integral h0 (le_max_left u ε)
    have h2 : 0 ≤ ∫ v in Set.Ioc u (max u ε), w v := by
      refine setIntegral_nonneg measurableSet_Ioc fun v hv => h.nonneg v (h0.trans hv.1) (hv.2.trans (max_le hu.le hε1.le))
    linarith
  · rw [hd u (hε.trans_le h0) hu, max_eq_left h0]

lemma pp_integral (m : ℕ) {t u : ℝ} (ht : t ≤ 1) :
    ∫ v in Set.Ioc u 1, pp m (t - v) = pp (m + 1) (t - u) / (m + 1) := by
  by_cases h : u < t
  · have e1 : ∫ v in Set.Ioc u 1, pp m (t - v) = ∫ v in Set.Ioo u t, (t - v) ^ m := by
      have e : Set.Ioo u t = Set.Iio t ∩ Set.Ioc u 1 := by
        ext v; simp only [Set.mem_Ioo, Set.mem_inter_iff, Set.mem_Iio, Set.mem_Ioc]
        constructor
        · rintro ⟨a, b⟩; exact ⟨b, a, b.le.trans ht⟩
        · rintro ⟨a, b, c⟩; exact ⟨b, a⟩
      rw [e, ← Measure.restrict_restrict measurableSet_Iio, ← integral_indicator measurableSet_Iio]
      congr 1
      funext v
      unfold pp
      by_cases hv : v < t
      · rw [if_pos (by linarith), Set.indicator_of_mem (by exact hv)]
      · rw [if_neg (by linarith), Set.indicator_of_notMem (by exact hv)]
    rw [e1, ← integral_Ioc_eq_integral_Ioo, ← intervalIntegral.integral_of_le h.le,
      intervalIntegral.integral_comp_sub_left (fun x => x ^ m) t, integral_pow]
    unfold pp
    rw [if_pos (by linarith)]
    simp
  · unfold pp
    rw [if_neg (by linarith), zero_div]
    refine setIntegral_eq_zero_of_forall_eq_zero fun v hv => ?_
    rw [if_neg (by linarith [hv.1])]

lemma mix_swap {nu : Measure ℝ} [IsFiniteMeasure nu] (hnu : ∀ᵐ t ∂nu, t ≤ 1) (m : ℕ) (u : ℝ) {p : ℝ → ℝ} (hp : Measurable p)
    (hp0 : ∀ v, u < v → 0 ≤ p v) :
    ∫ v in Set.Ioc u 1, ∫ t, pp m (t - p v) ∂nu = ∫ t, (∫ v in Set.Ioc u 1, pp m (t - p v)) ∂nu ∧
      IntegrableOn (fun v => ∫ t, pp m (t - p v) ∂nu) (Set.Ioc u 1) ∧
      Integrable (fun t => ∫ v in Set.Ioc u 1, pp m (t - p v)) nu := by
  have hm : Measurable fun q : ℝ × ℝ => pp m (q.2 - p q.1) :=
    (pp_measurable m).comp (measurable_snd.sub (hp.comp measurable_fst))
  have hi : Integrable (fun q : ℝ × ℝ => pp m (q.2 - p q.1)) ((volume.restrict (Set.Ioc u 1)).prod nu) := by
    refine Integrable.of_bound hm.aestronglyMeasurable 1 ?_
    rw [Measure.ae_prod_iff_ae_ae (measurableSet_le hm.norm measurable_const)]
    filter_upwards [ae_restrict_mem measurableSet_Ioc] with v hv
    filter_upwards [hnu] with t ht
    rw [Real.norm_eq_abs, abs_of_nonneg (pp_nonneg _ _)]
    exact pp_le_one m (by linarith [hp0 v hv.1])
  exact ⟨integral_integral_swap (f := fun v t => pp m (t - p v)) hi, hi.integral_prod_left, hi.integral_prod_right⟩

lemma Mix.step {ε : ℝ} (hε : 0 < ε) {m : ℕ} {f w : ℝ → ℝ} (h : Dec f w) (h1 : f 1 = 0) (hw : Mix ε m w) : Mix ε (m + 1) f := by
  obtain ⟨nu, _, n1, n2, n3⟩ := hw
  have hval : ∀ u, 0 < u → u < 1 → ∫ t, pp (m + 1) (t - u) ∂((ENNReal.ofReal (1 / (m + 1))) • nu) =
      ∫ v in Set.Ioc u 1, ∫ t, pp m (t - v) ∂nu := by
    intro u h0 hu
    rw [integral_smul_measure, ENNReal.toReal_ofReal (by positivity), (mix_swap n1 m u (p := fun v => v) measurable_id fun v hv => (h0.trans hv).le).1,
      smul_eq_mul, ← integral_const_mul]
    refine integral_congr_ae ?_
    filter_upwards [n1] with t ht
    rw [pp_integral m ht]
    ring
  refine ⟨(ENNReal.ofReal (1 / (m + 1))) • nu, nu.smul_finite ENNReal.ofReal_ne_top, Measure.ae_smul_measure n1 _,
    fun u h0 hu => ?_, fun u h0 hu => ?_⟩
  · rw [hval u h0 hu, show f u = ∫ v in Set.Ioc u 1, w v by rw [h.integral h0 hu.le, h1, sub_zero],
      integral_Ioc_eq_integral_Ioo, integral_Ioc_eq_integral_Ioo]
    have hi := (mix_swap n1 m u (p := fun v => v) measurable_id fun v hv => (h0.trans hv).le).2.1
    exact setIntegral_mono_on (hi.mono_set Set.Ioo_subset_Ioc_self) ((h.integrableOn h0 hu.le).mono_set Set.Ioo_subset_Ioc_self)
      measurableSet_Ioo fun v hv => n2 v (h0.trans hv.1) hv.2
  · have h0' := hε.trans_le h0
    rw [hval u h0' hu, show f u = ∫ v in Set.Ioc u 1, w v by rw [h.integral h0' hu.le, h1, sub_zero],
      integral_Ioc_eq_integral_Ioo, integral_Ioc_eq_integral_Ioo]
    exact setIntegral_congr_fun measurableSet_Ioo fun v hv => n3 v (h0.trans hv.1.le) hv.2

/-- The functions `(1 - √u)^a u^(-b/2)`. -/
noncomputable def gab (a b : ℕ) (u : ℝ) : ℝ := (1 - √u) ^ a * (√u)⁻¹ ^ b

lemma gab_measurable (a b : ℕ) : Measurable (gab a b) := by
  unfold gab
  fun_prop

lemma gab_nonneg (a b : ℕ) {u : ℝ} (hu : u ≤ 1) : 0 ≤ gab a b u := by
  unfold gab
  have : √u ≤ 1 := Real.sqrt_le_one.mpr hu
  have : 0 ≤ 1 - √u := by linarith
  positivity

lemma gab_dec (a b : ℕ) : Dec (gab a b) fun u => (a / 2 : ℝ) * gab (a - 1) (b + 1) u + (b / 2 : ℝ) * gab a (b + 2) u := by
  refine ⟨fun u hu => ?_, ?_, fun u _ hu1 => ?_⟩
  · have hs : √u ≠ 0 := (Real.sqrt_pos.mpr hu).ne'
    have h1 := Real.hasDerivAt_sqrt hu.ne'
    have h2 := (h1.const_sub 1).pow a
    have h3 := (h1.inv hs).pow b
    convert! h2.mul h3 using 1
    unfold gab
    cases a <;> cases b <;> simp <;> field_simp <;> ring
  · unfold gab
    refine ContinuousOn.add ?_ ?_
    all_goals
      refine continuousOn_const.mul (ContinuousOn.mul (by fun_prop) (ContinuousOn.pow (ContinuousOn.inv₀ (by fun_prop) ?_) _))
      intro u hu
      exact (Real.sqrt_pos.mpr hu).ne'
  · have := gab_nonneg (a - 1) (b + 1) hu1
    have := gab_nonneg a (b + 2) hu1
    positivity

lemma gab_mix {ε : ℝ} (hε : 0 < ε) (hε1 : ε < 1) : ∀ (m a b : ℕ), m ≤ a → Mix ε m (gab a b) := by
  intro m
  induction m with
  | zero =>
    intro a b _
    refine Mix.base hε hε1 (gab_dec a b) (gab_nonneg a b le_rfl) ?_
    exact ((gab_measurable _ _).const_mul _).add ((gab_measurable _ _).const_mul _)
  | succ m ih =>
    intro a b ha
    refine Mix.step hε (gab_dec a b) ?_ ?_
    · unfold gab
      rw [Real.sqrt_one, sub_self, zero_pow (by omega), zero_mul]
    · exact ((ih (a - 1) (b + 1) (by omega)).smul (by positivity)).add ((ih a (b + 2) (by omega)).smul (by positivity)) hε

/-- A mixture of Euclid's hats that is `(1 - r)₊ ^ (m + 1)` beyond `√ε`. -/
lemma hat_mixture {ε : ℝ} (hε : 0 < ε) (hε1 : ε < 1) (m : ℕ) : ∃ T : ℝ → ℝ, Rad (2 * m + 1) (fun u => T √u) ∧ T 0 ≤ 1 ∧
    ∀ r, √ε ≤ r → T r = max (1 - r) 0 ^ (m + 1) := by
  obtain ⟨nu, _, n1, n2, n3⟩ := gab_mix hε hε1 m m 0 le_rfl
  have hhat : ∀ t r : ℝ, t ≤ 1 → 0 ≤ r → hat m t r = ∫ s in Set.Ioc r 1, pp m (t - s ^ 2) := by
    intro t r ht hr
    unfold hat
    refine setIntegral_eq_of_subset_of_forall_sdiff_eq_zero measurableSet_Ioi Set.Ioc_subset_Ioi_self fun s hs => ?_
    have h1 : 1 < s := by
      by_contra h
      exact hs.2 ⟨hs.1, not_lt.mp h⟩
    unfold pp
    rw [if_neg]
    nlinarith
  have hhi : ∀ r : ℝ, 0 ≤ r → Integrable (fun t => hat m t r) nu := by
    intro r hr
    refine (mix_swap n1 m r (p := fun s => s ^ 2) (by fun_prop) fun v _ => sq_nonneg v).2.2.congr ?_
    filter_upwards [n1] with t ht
    exact (hhat t r ht hr).symm
  have hpow : ∀ r : ℝ, r ≤ 1 → ∫ s in Set.Ioc r 1, (1 - s) ^ m = (1 - r) ^ (m + 1) / (m + 1) := by
    intro r hr
    rw [← intervalIntegral.integral_of_le hr, intervalIntegral.integral_comp_sub_left (fun x : ℝ => x ^ m) 1, integral_pow]
    simp
  have hT : ∀ r : ℝ, 0 ≤ r → ∫ t, hat m t r ∂nu = ∫ s in Set.Ioc r 1, ∫ t, pp m (t - s ^ 2) ∂nu := by
    intro r hr
    rw [(mix_swap n1 m r (p := fun s => s ^ 2) (by fun_prop) fun v _ => sq_nonneg v).1]
    refine integral_congr_ae ?_
    filter_upwards [n1] with t ht
    exact hhat t r ht hr
  have hg : ∀ s : ℝ, 0 ≤ s → gab m 0 (s ^ 2) = (1 - s) ^ m := by
    intro s hs
    unfold gab
    rw [Real.sqrt_sq hs, pow_zero, mul_one]
  refine ⟨fun r => (m + 1) * ∫ t, hat m t r ∂nu, ?_, ?_, fun r hr => ?_⟩
  · refine PSD.smul (k := fun x y : Fin (2 * m + 1) → ℝ => ∫ t, hat m t √(∑ i, (x i - y i) ^ 2) ∂nu) ?_ (by positivity)
    refine ⟨fun x y => ?_, fun N x a => ?_⟩
    · rw [show ∑ i, (x i - y i) ^ 2 = ∑ i, (y i - x i) ^ 2 from Finset.sum_congr rfl fun i _ => by ring]
    · have hi : ∀ i j, Integrable (fun t => a i * a j * hat m t √(∑ l, (x i l - x j l) ^ 2)) nu := fun i j =>
        (hhi _ (Real.sqrt_nonneg _)).const_mul _
      simp only [← integral_const_mul]
      have e : ∑ i, ∑ j, ∫ t, a i * a j * hat m t √(∑ l, (x i l - x j l) ^ 2) ∂nu =
          ∫ t, ∑ i, ∑ j, a i * a j * hat m t √(∑ l, (x i l - x j l) ^ 2) ∂nu := by
        rw [integral_finsetSum _ fun i _ => integrable_finsetSum _ fun j _ => hi i j]
        refine Finset.sum_congr rfl fun i _ => ?_
        rw [integral_finsetSum _ fun j _ => hi i j]
      rw [e]
      exact integral_nonneg fun t => (hat_rad m t).nonneg N x a
  · beta_reduce
    rw [hT 0 le_rfl]
    have h1 : ∫ s in Set.Ioc (0 : ℝ) 1, ∫ t, pp m (t - s ^ 2) ∂nu ≤ ∫ s in Set.Ioc (0 : ℝ) 1, (1 - s) ^ m := by
      rw [integral_Ioc_eq_integral_Ioo, integral_Ioc_eq_integral_Ioo]
      refine setIntegral_mono_on ((mix_swap n1 m 0 (p := fun s => s ^ 2) (by fun_prop) fun v _ => sq_nonneg v).2.1.mono_set
        Set.Ioo_subset_Ioc_self) ?_ measurableSet_Ioo fun s hs => ?_
      · exact (Continuous.integrableOn_Icc (by fun_prop)).mono_set Set.Ioo_subset_Icc_self
      · rw [← hg s hs.1.le]
        exact n2 _ (by have := hs.1; positivity) (by nlinarith [hs.1, hs.2])
    rw [hpow 0 zero_le_one] at h1
    have h2 : (0 : ℝ) < m + 1 := by positivity
    calc ((m : ℝ) + 1) * _ ≤ (m + 1) * ((1 - 0) ^ (m + 1) / (m + 1)) := mul_le_mul_of_nonneg_left h1 h2.le
      _ = 1 := by field_simp; simp
  · have hr0 : 0 ≤ r := (Real.sqrt_nonneg _).trans hr
    dsimp only
    rw [hT r hr0]
    rcases lt_or_ge r 1 with h | h
    · rw [max_eq_left (by linarith)]
      have : ∫ s in Set.Ioc r 1, ∫ t, pp m (t - s ^ 2) ∂nu = ∫ s in Set.Ioc r 1, (1 - s) ^ m := by
        rw [integral_Ioc_eq_integral_Ioo, integral_Ioc_eq_integral_Ioo]
        refine setIntegral_congr_fun measurableSet_Ioo fun s hs => ?_
        have hs0 : 0 ≤ s := hr0.trans hs.1.le
        rw [← hg s hs0]
        refine n3 _ ?_ ?_
        · rw [← Real.sqrt_le_left hs0]
          exact hr.trans hs.1.le
        · nlinarith [hs.2]
      rw [this, hpow r h.le]
      field_simp
    · rw [max_eq_right (by linarith), Set.Ioc_eq_empty (by linarith)]
      simp

lemma equality_psd {α : Type} [DecidableEq α] : PSD fun x y : α => if x = y then (1 : ℝ) else 0 := by
  refine ⟨fun x y => by simp only [eq_comm], fun N x a => ?_⟩
  have h : ∀ i j, (if x i = x j then (1 : ℝ) else 0) =
      ∑ v ∈ Finset.univ.image x, (if x i = v then 1 else 0) * (if x j = v then 1 else 0) := by
    intro i j
    rw [Finset.sum_eq_single (x i)]
    · simp [eq_comm]
    · intro v _ hv
      rw [if_neg (Ne.symm hv), zero_mul]
    · intro hv
      exact absurd (Finset.mem_image_of_mem x (Finset.mem_univ i)) hv
  have h2 : ∑ i, ∑ j, a i * a j * (if x i = x j then (1 : ℝ) else 0) =
      ∑ v ∈ Finset.univ.image x, (∑ i, a i * if x i = v then 1 else 0) ^ 2 := by
    have : ∀ v, (∑ i, a i * if x i = v then (1 : ℝ) else 0) ^ 2 =
        ∑ i, ∑ j, a i * a j * ((if x i = v then 1 else 0) * (if x j = v then 1 else 0)) := by
      intro v
      rw [sq, Finset.sum_mul_sum]
      exact Finset.sum_congr rfl fun i _ => Finset.sum_congr rfl fun j _ => by ring
    rw [Finset.sum_congr rfl fun v (_ : v ∈ Finset.univ.image x) => this v, Finset.sum_comm (s := Finset.univ.image x)]
    refine Finset.sum_congr rfl fun i _ => ?_
    rw [Finset.sum_comm (s := Finset.univ.image x)]
    refine Finset.sum_congr rfl fun j _ => ?_
    rw [h, Finset.mul_sum]
  rw [h2]
  exact Finset.sum_nonneg fun v _ => sq_nonneg _

/-- Askey: `(1 - r)₊ ^ (m + 1)` is a covariance function in `2 m + 1` dimensions. -/
lemma askey_rad (m : ℕ) : Rad (2 * m + 1) fun u => max (1 - √u) 0 ^ (m + 1) := by
  classical
  refine ⟨fun x y => ?_, fun N x a => ?_⟩
  · rw [show ∑ i, (x i - y i) ^ 2 = ∑ i, (y i - x i) ^ 2 from Finset.sum_congr rfl fun i _ => by ring]
  set q : Fin N → Fin N → ℝ := fun i j => ∑ l, (x i l - x j l) ^ 2 with hq
  have hq0 : ∀ i j, 0 ≤ q i j := fun i j => Finset.sum_nonneg fun _ _ => sq_nonneg _
  have hqx : ∀ i j, q i j = 0 → x i = x j := by
    intro i j h
    rw [hq] at h
    have h' := (Finset.sum_eq_zero_iff_of_nonneg (s := Finset.univ) (f := fun l => (x i l - x j l) ^ 2)
      fun l _ => sq_nonneg _).mp h
    funext l
    have := h' l (Finset.mem_univ l)
    have := pow_eq_zero_iff (two_ne_zero) |>.mp this
    linarith
  obtain ⟨ε, hε, hε1, hεq⟩ : ∃ ε : ℝ, 0 < ε ∧ ε < 1 ∧ ∀ i j, q i j ≠ 0 → ε ≤ q i j := by
    set S : Finset ℝ := insert (1 / 2) ((Finset.univ.image fun p : Fin N × Fin N => q p.1 p.2).erase 0) with hS
    have hne : S.Nonempty := Finset.insert_nonempty _ _
    refine ⟨S.min' hne, ?_, ?_, fun i j h => ?_⟩
    · rw [Finset.lt_min'_iff]
      intro y hy
      rw [hS, Finset.mem_insert, Finset.mem_erase, Finset.mem_image] at hy
      rcases hy with rfl | ⟨h0, p, _, rfl⟩
      · norm_num
      · exact lt_of_le_of_ne (hq0 _ _) (Ne.symm h0)
    · have := S.min'_le (1 / 2) (by simp [hS])
      linarith
    · refine S.min'_le _ ?_
      rw [hS, Finset.mem_insert, Finset.mem_erase, Finset.mem_image]
      exact .inr ⟨h, (i, j), Finset.mem_univ _, rfl⟩
  obtain ⟨T, hT, hT0, hTr⟩ := hat_mixture hε hε1 m
  have h1 := hT.nonneg N x a
  have h2 := (equality_psd (α := Fin (2 * m + 1) → ℝ)).nonneg N x a
  have key : ∀ i j, max (1 - √(q i j)) 0 ^ (m + 1) = T √(q i j) + (1 - T 0) * (if x i = x j then 1 else 0) := by
    intro i j
    by_cases h : q i j = 0
    · rw [if_pos (hqx i j h), h, Real.sqrt_zero]
      norm_num
    · have hne : x i ≠ x j := by
        intro hx
        apply h
        simp only [hq, hx, sub_self]
        simp
      rw [if_neg hne, hTr _ (Real.sqrt_le_sqrt (hεq i j h))]
      ring
  have e : ∑ i, ∑ j, a i * a j * max (1 - √(q i j)) 0 ^ (m + 1) = ∑ i, ∑ j, a i * a j * T √(q i j) +
      (1 - T 0) * ∑ i, ∑ j, a i * a j * (if x i = x j then 1 else 0) := by
    simp only [key, Finset.mul_sum, ← Finset.sum_add_distrib]
    exact Finset.sum_congr rfl fun i _ => Finset.sum_congr rfl fun j _ => by ring
  show 0 ≤ ∑ i, ∑ j, a i * a j * max (1 - √(q i j)) 0 ^ (m + 1)
  rw [e]
  exact add_nonneg h1 (mul_nonneg (by linarith) h2)

end LinPDE.PosDef
