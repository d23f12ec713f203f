import Verif.Gmm.Model
import Mathlib.Probability.Distributions.Gaussian.Real
import Mathlib.Probability.ConditionalProbability

/-!
# C63: the density of a truncated Gaussian mixture
-/

namespace LinPDE.Gmm
open LinPDE.Domains MeasureTheory Real ProbabilityTheory
open scoped NNReal

/-- The variance. -/
noncomputable def var (sigma : ℝ) : ℝ≥0 := ⟨sigma ^ 2, sq_nonneg _⟩

lemma var_ne {sigma : ℝ} (h : sigma ≠ 0) : var sigma ≠ 0 := by
  intro hv
  have : sigma ^ 2 = 0 := congrArg NNReal.toReal hv
  exact h (by simpa using this)

lemma gaussianPdf_eq {sigma : ℝ} (h : sigma ≠ 0) (mu x : ℝ) :
    gaussianPdf mu sigma x = |sigma| / sigma * gaussianPDFReal mu (var sigma) x := by
  unfold gaussianPdf gaussianPDFReal
  have h1 : √(2 * π * (var sigma : ℝ)) = √(2 * π) * |sigma| := by
    show √(2 * π * sigma ^ 2) = _
    rw [Real.sqrt_mul (by positivity), Real.sqrt_sq_eq_abs]
  have h2 : -(x - mu) ^ 2 / (2 * (var sigma : ℝ)) = -0.5 * ((x - mu) / sigma) ^ 2 := by
    show -(x - mu) ^ 2 / (2 * sigma ^ 2) = _
    field_simp
    ring
  rw [h1, h2]
  have h3 : |sigma| ≠ 0 := abs_ne_zero.mpr h
  have h4 : √(2 * π) ≠ 0 := by positivity
  field_simp

lemma stdPdf_integrable : Integrable fun t : ℝ => 1 / √(2 * π) * exp (-0.5 * t ^ 2) :=
  (integrable_exp_neg_mul_sq (b := 0.5) (by norm_num)).const_mul _

lemma Z_eq (g : Mixture) {sigma : ℝ} (h : sigma ≠ 0) (mu : ℝ) : g.Z mu sigma = ∫ x in g.lower..g.upper, gaussianPdf mu sigma x := by
  unfold Mixture.Z normCdf
  rw [intervalIntegral.integral_Iic_sub_Iic stdPdf_integrable.integrableOn stdPdf_integrable.integrableOn]
  have := intervalIntegral.integral_comp_div (a := g.lower - mu) (b := g.upper - mu)
    (fun t => 1 / √(2 * π) * exp (-0.5 * t ^ 2)) h
  have h2 := intervalIntegral.integral_comp_sub_right (a := g.lower) (b := g.upper)
    (fun x => 1 / √(2 * π) * exp (-0.5 * (x / sigma) ^ 2)) mu
  rw [← h2] at this
  unfold gaussianPdf
  have h3 : ∀ x, 1 / (√(2 * π) * sigma) * exp (-0.5 * ((x - mu) / sigma) ^ 2) =
      sigma⁻¹ * (1 / √(2 * π) * exp (-0.5 * ((x - mu) / sigma) ^ 2)) := fun x => by
    field_simp
  simp only [h3]
  rw [intervalIntegral.integral_const_mul (sigma⁻¹), this, smul_eq_mul, inv_mul_cancel_left₀ h]

/-- Mass of a component in the domain. -/
noncomputable def mass (g : Mixture) (mu sigma : ℝ) : ℝ := ∫ x in Set.Icc g.lower g.upper, gaussianPDFReal mu (var sigma) x

lemma mass_eq (g : Mixture) (hle : g.lower ≤ g.upper) (mu sigma : ℝ) :
    mass g mu sigma = ∫ x in g.lower..g.upper, gaussianPDFReal mu (var sigma) x := by
  rw [mass, intervalIntegral.integral_of_le hle, integral_Icc_eq_integral_Ioc]

lemma gaussianPDFReal_cont (mu : ℝ) (v : ℝ≥0) : Continuous (gaussianPDFReal mu v) := by
  rw [gaussianPDFReal_def]
  fun_prop

lemma mass_pos (g : Mixture) (hlt : g.lower < g.upper) (mu : ℝ) {sigma : ℝ} (h : sigma ≠ 0) : 0 < mass g mu sigma := by
  rw [mass_eq g hlt.le]
  exact intervalIntegral.intervalIntegral_pos_of_pos ((gaussianPDFReal_cont mu _).intervalIntegrable _ _)
    (fun x => gaussianPDFReal_pos mu _ x (var_ne h)) hlt

lemma Z_mass (g : Mixture) (hle : g.lower ≤ g.upper) {sigma : ℝ} (h : sigma ≠ 0) (mu : ℝ) :
    g.Z mu sigma = |sigma| / sigma * mass g mu sigma := by
  rw [Z_eq g h, mass_eq g hle, ← intervalIntegral.integral_const_mul]
  simp only [gaussianPdf_eq h]

lemma sign_ne {sigma : ℝ} (h : sigma ≠ 0) : |sigma| / sigma ≠ 0 := div_ne_zero (abs_ne_zero.mpr h) h

lemma component_eq (g : Mixture) (hle : g.lower ≤ g.upper) {sigma : ℝ} (h : sigma ≠ 0) (mu x : ℝ) :
    gaussianPdf mu sigma x / g.Z mu sigma = gaussianPDFReal mu (var sigma) x / mass g mu sigma := by
  rw [gaussianPdf_eq h, Z_mass g hle h, mul_div_mul_left _ _ (sign_ne h)]

/-- The density of the mixture of the components conditioned on the domain. -/
noncomputable def density (g : Mixture) (ps : List (ℝ × ℝ)) (x : ℝ) : ℝ :=
  (ps.map fun p => gaussianPDFReal p.1 (var p.2) x / mass g p.1 p.2).sum / ps.length

lemma mk'_le {D : DomainLike} {ms ss : List ℝ} {g : Mixture} (hD : ∀ l u, D = .dom (.interval l u) → l ≤ u)
    (h : mk' D ms ss = .ok g) : g.lower ≤ g.upper ∧ g.means = ms ∧ g.stds = ss := by
  unfold mk' at h
  split at h
  · cases h
  · cases h
  · rename_i l u hd
    injection h with h
    subst h
    refine ⟨?_, rfl, rfl⟩
    cases D with
    | dom d =>
      rw [asdomain] at hd
      injection hd with hd
      exact hD l u (by rw [hd])
    | scalars a b =>
      rw [asdomain, mkInterval] at hd
      split_ifs at hd with hc
      injection hd with hd
      injection hd with h1 h2
      dsimp only
      rw [← h1, ← h2]
      exact not_lt.mp hc
    | arrays xs ys =>
      rw [asdomain, mkBox] at hd
      split_ifs at hd
      injection hd with hd
      cases hd
    | other => cases hd
  · cases h

/-- C63: evaluation succeeds exactly if the lengths of the parameters can be broadcast, there is a component, no standard
deviation is zero and the interval is not degenerate; the value is the density of the mixture. -/
theorem eval_spec (g : Mixture) (hle : g.lower ≤ g.upper) (x : ℝ) :
    (∀ ps, bcast1 g.means g.stds = some ps → ps ≠ [] → (∀ p ∈ ps, p.2 ≠ 0) → g.lower < g.upper →
      g.eval x = .ok (density g ps x)) ∧
    (g.eval x = .error .valueError ↔ bcast1 g.means g.stds = none) ∧
    (g.eval x = .error .nonFinite ↔ ∃ ps, bcast1 g.means g.stds = some ps ∧
      (ps = [] ∨ (∃ p ∈ ps, p.2 = 0) ∨ g.lower = g.upper)) := by
  have hZ : ∀ p : ℝ × ℝ, p.2 ≠ 0 → (g.Z p.1 p.2 = 0 ↔ g.lower = g.upper) := by
    intro p hp
    rw [Z_mass g hle hp]
    constructor
    · intro h
      by_contra hne
      have := mass_pos g (lt_of_le_of_ne hle hne) p.1 hp
      exact (mul_ne_zero (sign_ne hp) this.ne') h
    · intro h
      rw [mass_eq g hle, h, intervalIntegral.integral_same, mul_zero]
  have hcond : ∀ ps : List (ℝ × ℝ), (ps = [] ∨ ∃ p ∈ ps, p.2 = 0 ∨ g.Z p.1 p.2 = 0) ↔
      (ps = [] ∨ (∃ p ∈ ps, p.2 = 0) ∨ g.lower = g.upper) := by
    intro ps
    constructor
    · rintro (h | ⟨p, hp, h | h⟩)
      · exact .inl h
      · exact .inr (.inl ⟨p, hp, h⟩)
      · by_cases h0 : p.2 = 0
        · exact .inr (.inl ⟨p, hp, h0⟩)
        · exact .inr (.inr ((hZ p h0).mp h))
    · rintro (h | ⟨p, hp, h⟩ | h)
      · exact .inl h
      · exact .inr ⟨p, hp, .inl h⟩
      · cases ps with
        | nil => exact .inl rfl
        | cons p ps =>
          by_cases h0 : p.2 = 0
          · exact .inr ⟨p, List.mem_cons_self, .inl h0⟩
          · exact .inr ⟨p, List.mem_cons_self, .inr ((hZ p h0).mpr h)⟩
  refine ⟨?_, ?_, ?_⟩
  · intro ps hps h0 h1 h2
    unfold Mixture.eval
    rw [hps]
    dsimp only
    rw [if_neg]
    · unfold density
      congr 3
      apply List.map_congr_left
      intro p hp
      exact component_eq g hle (h1 p hp) p.1 x
    · rw [hcond]
      rintro (h | ⟨p, hp, h⟩ | h)
      · exact h0 h
      · exact h1 p hp h
      · exact h2.ne h
  · unfold Mixture.eval
    cases bcast1 g.means g.stds with
    | none => simp
    | some ps =>
      dsimp only
      split_ifs <;> simp
  · unfold Mixture.eval
    cases bcast1 g.means g.stds with
    | none => simp
    | some ps =>
      dsimp only
      split_ifs with h
      · simp only [true_iff]
        exact ⟨ps, rfl, (hcond ps).mp h⟩
      · simp only [Option.some.injEq, false_iff]
        rintro ⟨qs, rfl, hq⟩
        exact h ((hcond _).mpr hq)

lemma density_integrable (g : Mixture) (ps : List (ℝ × ℝ)) : Integrable (density g ps) := by
  have h : Integrable fun x => (ps.map fun p => gaussianPDFReal p.1 (var p.2) x / mass g p.1 p.2).sum := by
    induction ps with
    | nil => simp
    | cons p ps ih =>
      simp only [List.map_cons, List.sum_cons]
      exact ((integrable_gaussianPDFReal _ _).div_const _).add ih
  exact h.div_const _

lemma density_setIntegral (g : Mixture) (ps : List (ℝ × ℝ)) (S : Set ℝ) : ∫ x in S, density g ps x =
    (ps.map fun p => (∫ x in S, gaussianPDFReal p.1 (var p.2) x) / mass g p.1 p.2).sum / ps.length := by
  unfold density
  rw [integral_div]
  congr 1
  induction ps with
  | nil => simp
  | cons p ps ih =>
    simp only [List.map_cons, List.sum_cons]
    rw [integral_add, ih, integral_div]
    · exact ((integrable_gaussianPDFReal _ _).div_const _).integrableOn
    · have : Integrable fun x => (ps.map fun p => gaussianPDFReal p.1 (var p.2) x / mass g p.1 p.2).sum := by
        clear ih
        induction ps with
        | nil => simp
        | cons p ps ih =>
          simp only [List.map_cons, List.sum_cons]
          exact ((integrable_gaussianPDFReal _ _).div_const _).add ih
      exact this.integrableOn

lemma gaussian_toReal (mu : ℝ) {sigma : ℝ} (h : sigma ≠ 0) (S : Set ℝ) :
    (gaussianReal mu (var sigma) S).toReal = ∫ x in S, gaussianPDFReal mu (var sigma) x := by
  rw [gaussianReal_apply_eq_integral mu (var_ne h), ENNReal.toReal_ofReal]
  exact setIntegral_nonneg_of_ae (Filter.Eventually.of_forall fun x => gaussianPDFReal_nonneg _ _ _)

/-- C63: on its domain the function is the density of the equally weighted mixture of the normal laws, each conditioned on the
domain: integrating it over any part of the domain gives the mean of the conditional probabilities. -/
theorem density_spec (g : Mixture) (hlt : g.lower < g.upper) (ps : List (ℝ × ℝ)) (hps : bcast1 g.means g.stds = some ps)
    (h0 : ps ≠ []) (h1 : ∀ p ∈ ps, p.2 ≠ 0) : ∃ f : ℝ → ℝ, (∀ x, g.eval x = .ok (f x)) ∧
      ∀ S : Set ℝ, ∫ x in Set.Icc g.lower g.upper ∩ S, f x =
        (ps.map fun p => ((gaussianReal p.1 (var p.2))[S | Set.Icc g.lower g.upper]).toReal).sum / ps.length := by
  refine ⟨density g ps, fun x => (eval_spec g hlt.le x).1 ps hps h0 h1 hlt, fun S => ?_⟩
  rw [density_setIntegral]
  congr 2
  apply List.map_congr_left
  intro p hp
  rw [cond_apply measurableSet_Icc, ENNReal.toReal_mul, ENNReal.toReal_inv, gaussian_toReal p.1 (h1 p hp),
    gaussian_toReal p.1 (h1 p hp), ← mass, div_eq_inv_mul]

/-- C63: the function is positive and integrates to one over the domain. -/
theorem density_mass (g : Mixture) (hlt : g.lower < g.upper) (ps : List (ℝ × ℝ)) (h0 : ps ≠ []) (h1 : ∀ p ∈ ps, p.2 ≠ 0) :
    (∀ x, 0 < density g ps x) ∧ ∫ x in g.lower..g.upper, density g ps x = 1 := by
  have hl : (0 : ℝ) < ps.length := by
    have := List.length_pos_iff.mpr h0
    exact_mod_cast this
  constructor
  · intro x
    refine div_pos ?_ hl
    cases ps with
    | nil => exact absurd rfl h0
    | cons p ps =>
      rw [List.map_cons, List.sum_cons]
      have hc : ∀ q ∈ p :: ps, 0 < gaussianPDFReal q.1 (var q.2) x / mass g q.1 q.2 := fun q hq =>
        div_pos (gaussianPDFReal_pos _ _ _ (var_ne (h1 q hq))) (mass_pos g hlt _ (h1 q hq))
      refine add_pos_of_pos_of_nonneg (hc p List.mem_cons_self) ?_
      apply List.sum_nonneg
      intro y hy
      obtain ⟨q, hq, rfl⟩ := List.mem_map.mp hy
      exact (hc q (List.mem_cons_of_mem _ hq)).le
  · rw [intervalIntegral.integral_of_le hlt.le, ← integral_Icc_eq_integral_Ioc, density_setIntegral]
    have : (ps.map fun p => (∫ x in Set.Icc g.lower g.upper, gaussianPDFReal p.1 (var p.2) x) / mass g p.1 p.2) =
        ps.map fun _ => (1 : ℝ) := by
      apply List.map_congr_left
      intro p hp
      exact div_self (mass_pos g hlt p.1 (h1 p hp)).ne'
    rw [this]
    simp [hl.ne']

/-- C63, violated: the function is not truncated: it is positive outside the domain too, and integrates to more than one over the
line. -/
theorem truncation_violated (g : Mixture) (hlt : g.lower < g.upper) (ps : List (ℝ × ℝ)) (hps : bcast1 g.means g.stds = some ps)
    (h0 : ps ≠ []) (h1 : ∀ p ∈ ps, p.2 ≠ 0) :
    (∀ x, x ∉ Set.Icc g.lower g.upper → ∃ y, g.eval x = .ok y ∧ 0 < y) ∧
      ∃ f : ℝ → ℝ, (∀ x, g.eval x = .ok (f x)) ∧ Integrable f ∧ 1 < ∫ x, f x := by
  have hev := fun x => (eval_spec g hlt.le x).1 ps hps h0 h1 hlt
  obtain ⟨hpos, hone⟩ := density_mass g hlt ps h0 h1
  refine ⟨fun x _ => ⟨_, hev x, hpos x⟩, density g ps, hev, density_integrable g ps, ?_⟩
  have hint := density_integrable g ps
  have hsplit := integral_add_compl (μ := volume) (s := Set.Icc g.lower g.upper) measurableSet_Icc hint
  have h2 : ∫ x in Set.Icc g.lower g.upper, density g ps x = 1 := by
    rw [integral_Icc_eq_integral_Ioc, ← intervalIntegral.integral_of_le hlt.le, hone]
  rw [← hsplit, h2]
  have h3 : 0 < ∫ x in (Set.Icc g.lower g.upper)ᶜ, density g ps x := by
    rw [setIntegral_pos_iff_support_of_nonneg_ae (Filter.Eventually.of_forall fun x => (hpos x).le) hint.integrableOn]
    have hsupp : Function.support (density g ps) = Set.univ := by
      ext x; simp [(hpos x).ne']
    rw [hsupp, Set.univ_inter]
    refine lt_of_lt_of_le ?_ (measure_mono (s := Set.Ioo g.upper (g.upper + 1)) ?_)
    · rw [Real.volume_Ioo]; simp
    · intro x hx hx'
      exact absurd hx'.2 (not_le.mpr hx.1)
  linarith

/-- C63: the constructor accepts intervals only, and pairs of scalars that form one. -/
theorem mk'_isOk (D : DomainLike) (ms ss : List ℝ) : (∃ g, mk' D ms ss = .ok g) ↔
    (∃ l u, D = .dom (.interval l u)) ∨ ∃ a b, D = .scalars a b ∧ a ≤ b := by
  unfold mk'
  cases D with
  | dom d => cases d <;> simp [asdomain]
  | scalars a b =>
    by_cases h : a ≤ b
    · simp [asdomain, mkInterval, not_lt.mpr h, h]
    · simp [asdomain, mkInterval, not_le.mp h, h]
  | arrays xs ys =>
    simp only [asdomain, mkBox]
    split_ifs <;> simp
  | other => simp [asdomain]

/-- C63: exceptions of the constructor. -/
theorem mk'_error (ms ss : List ℝ) : (∀ a b, b < a → mk' (.scalars a b) ms ss = .error .valueError) ∧
    (∀ d, (∀ l u, d ≠ .interval l u) → mk' (.dom d) ms ss = .error .typeError) ∧ mk' .other ms ss = .error .valueError := by
  refine ⟨fun a b h => ?_, fun d hd => ?_, rfl⟩
  · simp [mk', asdomain, mkInterval, h]
  · cases d <;> simp_all [mk', asdomain]

/-- C63, violated: parameters whose lengths do not fit are accepted, and every evaluation raises. -/
theorem lengths_violated (a b : ℝ) (h : a ≤ b) (ms ss : List ℝ) (hl : ms.length ≠ ss.length) (hm : ms.length ≠ 1)
    (hs : ss.length ≠ 1) : ∃ g, mk' (.scalars a b) ms ss = .ok g ∧ ∀ x, g.eval x = .error .valueError := by
  refine ⟨⟨a, b, ms, ss⟩, by simp [mk', asdomain, mkInterval, not_lt.mpr h], fun x => ?_⟩
  refine (eval_spec ⟨a, b, ms, ss⟩ h x).2.1.mpr ?_
  unfold bcast1
  rw [if_neg hl]
  split
  · rename_i h'; exact absurd (by rw [show ms = _ from h']; rfl) hm
  · rename_i h' _; exact absurd (by rw [show ss = _ from h']; rfl) hs
  · rfl

/-- C63: parameters of equal length, a single standard deviation shared by all components, and a single mean. -/
theorem components_spec (ms ss : List ℝ) (mu sigma : ℝ) (h : ms.length = ss.length) (h2 : ms.length ≠ 1) :
    bcast1 ms ss = some (ms.zip ss) ∧ bcast1 ms [sigma] = some (ms.map fun m => (m, sigma)) ∧
      bcast1 [mu] ss = some (ss.map fun s => (mu, s)) := by
  refine ⟨by unfold bcast1; rw [if_pos h], ?_, ?_⟩
  · unfold bcast1
    rw [if_neg (by simpa using h2)]
    split
    · exact absurd (by rfl) h2
    · rename_i h'; rw [(List.cons.inj h').1]
    · rename_i h'; exact absurd rfl (h' _)
  · unfold bcast1
    rw [if_neg (by simpa [← h] using h2.symm)]

/-- Two components on `[-1, 2]`. -/
example : ∃ g ps, mk' (.scalars (-1) 2) [0, 1] [1, 3] = .ok g ∧ bcast1 g.means g.stds = some ps ∧
    (∀ x, g.eval x = .ok (density g ps x)) ∧ ∫ x in (-1 : ℝ)..2, density g ps x = 1 ∧ ∃ y, g.eval 5 = .ok y ∧ 0 < y := by
  have hb : bcast1 [0, 1] [1, 3] = some [(0, 1), (1, 3)] := rfl
  refine ⟨⟨-1, 2, [0, 1], [1, 3]⟩, [(0, 1), (1, 3)], ?_, hb, fun x => ?_, ?_, ?_⟩
  · simp only [mk', asdomain, mkInterval]; norm_num
  · exact (eval_spec ⟨-1, 2, [0, 1], [1, 3]⟩ (by norm_num) x).1 _ hb (by simp) (by simp) (by norm_num)
  · exact (density_mass ⟨-1, 2, [0, 1], [1, 3]⟩ (by norm_num) _ (by simp) (by simp)).2
  · exact (truncation_violated ⟨-1, 2, [0, 1], [1, 3]⟩ (by norm_num) _ hb (by simp) (by simp)).1 5 (by norm_num)

end LinPDE.Gmm
