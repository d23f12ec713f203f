import Verif.PosDef.Basic
import Mathlib.Probability.Distributions.Gaussian.Real
import Mathlib.Probability.Independence.Basic
import Mathlib.Analysis.SpecialFunctions.PolarCoord

/-!
# Integrating out coordinates keeps radial functions positive semidefinite
-/

namespace LinPDE.PosDef
open MeasureTheory Filter Topology ProbabilityTheory
open scoped NNReal

/-! ## Double averages of covariance functions -/

lemma map_pair {Z : Type} [MeasurableSpace Z] (mu : Measure Z) [IsProbabilityMeasure mu] {N : ℕ} {a b : Fin N} (h : a ≠ b) :
    (Measure.pi fun _ : Fin N => mu).map (fun w => (w a, w b)) = mu.prod mu := by
  have hi : iIndepFun (fun i (w : Fin N → Z) => w i) (Measure.pi fun _ : Fin N => mu) :=
    iIndepFun_pi (X := fun _ => id) (fun _ => aemeasurable_id)
  have h2 := (indepFun_iff_map_prod_eq_prod_map_map (measurable_pi_apply a).aemeasurable
    (measurable_pi_apply b).aemeasurable).mp (hi.indepFun h)
  rw [h2, (measurePreserving_eval (fun _ : Fin N => mu) a).map_eq, (measurePreserving_eval (fun _ : Fin N => mu) b).map_eq]

lemma PSD.average_nonneg {Z : Type} [MeasurableSpace Z] (mu : Measure Z) [IsProbabilityMeasure mu] {K : Z → Z → ℝ} (hK : PSD K)
    (hm : Measurable fun p : Z × Z => K p.1 p.2) {C : ℝ} (hC : ∀ x y, |K x y| ≤ C) :
    0 ≤ ∫ p, K p.1 p.2 ∂(mu.prod mu) := by
  set I := ∫ p, K p.1 p.2 ∂(mu.prod mu) with hI
  have key : ∀ N : ℕ, 0 ≤ (N : ℝ) * ((N : ℝ) - 1) * I + N * C := by
    intro N
    set P := Measure.pi fun _ : Fin N => mu with hP
    have hmab : ∀ a b : Fin N, Measurable fun w : Fin N → Z => K (w a) (w b) := fun a b =>
      Measurable.comp (g := fun p : Z × Z => K p.1 p.2) (f := fun w : Fin N → Z => (w a, w b)) hm
        ((measurable_pi_apply a).prodMk (measurable_pi_apply b))
    have hint : ∀ a b : Fin N, Integrable (fun w : Fin N → Z => K (w a) (w b)) P := fun a b =>
      Integrable.of_bound (hmab a b).aestronglyMeasurable C (Eventually.of_forall fun w => hC _ _)
    have h1 : 0 ≤ ∫ w, ∑ a, ∑ b, K (w a) (w b) ∂P := by
      apply integral_nonneg
      intro w
      have := hK.nonneg N w fun _ => 1
      simpa using this
    rw [integral_finsetSum _ (fun a _ => integrable_finsetSum _ fun b _ => hint a b)] at h1
    have h2 : ∀ a b : Fin N, ∫ w, K (w a) (w b) ∂P ≤ if a = b then C else I := by
      intro a b
      split_ifs with hab
      · refine (integral_mono (hint a b) (integrable_const C) fun w => (le_abs_self _).trans (hC _ _)).trans (le_of_eq ?_)
        simp
      · rw [hI, ← map_pair mu hab, integral_map]
        · exact ((measurable_pi_apply a).prodMk (measurable_pi_apply b)).aemeasurable
        · exact hm.aestronglyMeasurable
    refine h1.trans ?_
    have h3 : ∀ a : Fin N, ∫ w, ∑ b, K (w a) (w b) ∂P ≤ ((N : ℝ) - 1) * I + C := by
      intro a
      rw [integral_finsetSum _ (fun b _ => hint a b)]
      refine (Finset.sum_le_sum fun b _ => h2 a b).trans (le_of_eq ?_)
      have : ∀ b : Fin N, (if a = b then C else I) = I + if a = b then C - I else 0 := by
        intro b; split_ifs <;> ring
      simp only [this, Finset.sum_add_distrib, Finset.sum_const, Finset.card_univ, Fintype.card_fin, nsmul_eq_mul,
        Finset.sum_ite_eq, Finset.mem_univ, if_true]
      ring
    refine (Finset.sum_le_sum fun a _ => h3 a).trans (le_of_eq ?_)
    simp only [Finset.sum_const, Finset.card_univ, Fintype.card_fin, nsmul_eq_mul]
    ring
  by_contra hneg
  push Not at hneg
  obtain ⟨n, hn⟩ := exists_nat_gt (C / (-I) + 1)
  have h1 : C < ((n : ℝ) - 1) * (-I) := by
    rw [← div_lt_iff₀ (by linarith)]
    linarith
  have hn0 : (0 : ℝ) < n := by
    rcases Nat.eq_zero_or_pos n with h0 | h0
    · exfalso
      subst h0
      obtain ⟨z⟩ : Nonempty Z := by
        by_contra hz
        rw [not_nonempty_iff] at hz
        have : mu Set.univ = 0 := by rw [Set.univ_eq_empty_iff.mpr hz, measure_empty]
        simp at this
      have := (abs_nonneg _).trans (hC z z)
      have h3 : 0 ≤ C / (-I) := div_nonneg this (by linarith)
      norm_num at hn
      linarith
    · exact_mod_cast h0
  have h2 := key n
  nlinarith

/-! ## Radial functions -/

/-- `F` is a covariance function of the squared distance in `n` dimensions. -/
def Rad (n : ℕ) (F : ℝ → ℝ) : Prop := PSD fun x y : Fin n → ℝ => F (∑ i, (x i - y i) ^ 2)

lemma Rad.succ {n : ℕ} {F : ℝ → ℝ} (h : Rad (n + 1) F) : Rad n F := by
  refine (PSD.comp h fun x : Fin n → ℝ => (Fin.cons 0 x : Fin (n + 1) → ℝ)).congr fun x y => ?_
  simp [Fin.sum_univ_succ]

lemma Rad.mono {n m : ℕ} {F : ℝ → ℝ} (hnm : n ≤ m) (h : Rad m F) : Rad n F := by
  induction m, hnm using Nat.le_induction with
  | base => exact h
  | succ m _ ih => exact ih h.succ

lemma Rad.congr {n : ℕ} {F G : ℝ → ℝ} (h : Rad n F) (e : ∀ u, 0 ≤ u → G u = F u) : Rad n G :=
  PSD.congr h fun _ _ => e _ (Finset.sum_nonneg fun _ _ => sq_nonneg _)

/-- Bounded, measurable and of bounded support. -/
structure Tame (F : ℝ → ℝ) : Prop where
  meas : Measurable F
  bdd : ∃ C, ∀ u, |F u| ≤ C
  supp : ∃ R, 0 ≤ R ∧ ∀ u, R ≤ u → F u = 0

lemma Tame.slice {F : ℝ → ℝ} (h : Tame F) {u : ℝ} (hu : 0 ≤ u) : Integrable fun s : ℝ => F (u + s ^ 2) := by
  obtain ⟨C, hC⟩ := h.bdd
  obtain ⟨R, hR, hs⟩ := h.supp
  have h1 : IntegrableOn (fun s : ℝ => F (u + s ^ 2)) (Set.Icc (-√R) √R) :=
    Measure.integrableOn_of_bounded (M := C) (by simp) (h.meas.comp (by fun_prop)).aestronglyMeasurable
      (Eventually.of_forall fun s => hC _)
  refine h1.integrable_of_forall_notMem_eq_zero fun s hs' => hs _ ?_
  by_contra hlt
  push Not at hlt
  exact hs' (abs_le.mp (Real.abs_le_sqrt (by linarith)))

/-- Integrating out one coordinate. -/
noncomputable def marg (F : ℝ → ℝ) (u : ℝ) : ℝ := if 0 ≤ u then ∫ s : ℝ, F (u + s ^ 2) else 0

lemma Tame.marg {F : ℝ → ℝ} (h : Tame F) : Tame (marg F) := by
  obtain ⟨C, hC⟩ := h.bdd
  obtain ⟨R, hR, hs⟩ := h.supp
  refine ⟨?_, ⟨2 * √R * C, ?_⟩, ⟨R, hR, ?_⟩⟩
  · unfold PosDef.marg
    refine Measurable.ite measurableSet_Ici ?_ measurable_const
    have : StronglyMeasurable fun p : ℝ × ℝ => F (p.1 + p.2 ^ 2) := (h.meas.comp (by fun_prop)).stronglyMeasurable
    exact this.integral_prod_right'.measurable
  · intro u
    have hC0 : 0 ≤ C := (abs_nonneg _).trans (hC 0)
    unfold PosDef.marg
    split_ifs with hu
    · have h1 : ∫ s : ℝ, F (u + s ^ 2) = ∫ s in Set.Icc (-√R) √R, F (u + s ^ 2) := by
        rw [setIntegral_eq_integral_of_forall_compl_eq_zero]
        intro s hs'
        refine hs _ ?_
        by_contra hlt
        push Not at hlt
        exact hs' (abs_le.mp (Real.abs_le_sqrt (by linarith)))
      rw [h1, ← Real.norm_eq_abs]
      refine (norm_setIntegral_le_of_norm_le_const (by simp) fun s _ => hC _).trans (le_of_eq ?_)
      rw [Real.volume_real_Icc_of_le (by linarith [Real.sqrt_nonneg R])]
      ring
    · rw [abs_zero]
      positivity
  · intro u hu
    unfold PosDef.marg
    rw [if_pos (hR.trans hu)]
    have : ∀ s : ℝ, F (u + s ^ 2) = 0 := fun s => hs _ (by nlinarith [sq_nonneg s])
    simp [this]

lemma Rad.marg {n : ℕ} {F : ℝ → ℝ} (h : Rad (n + 1) F) (ht : Tame F) : Rad n (marg F) := by
  refine ⟨fun x y => ?_, fun N x a => ?_⟩
  · congr 1
    exact Finset.sum_congr rfl fun i _ => by ring
  set q : Fin N → Fin N → ℝ := fun i j => ∑ l, (x i l - x j l) ^ 2 with hq
  have hq0 : ∀ i j, 0 ≤ q i j := fun i j => Finset.sum_nonneg fun _ _ => sq_nonneg _
  set G : ℝ → ℝ := fun s => ∑ i, ∑ j, a i * a j * F (q i j + s ^ 2) with hG
  have hGi : Integrable G := integrable_finsetSum _ fun i _ => integrable_finsetSum _ fun j _ =>
    (ht.slice (hq0 i j)).const_mul _
  have hval : ∑ i, ∑ j, a i * a j * PosDef.marg F (q i j) = ∫ s, G s := by
    rw [hG, integral_finsetSum _ fun i _ => integrable_finsetSum _ fun j _ => (ht.slice (hq0 i j)).const_mul _]
    refine Finset.sum_congr rfl fun i _ => ?_
    rw [integral_finsetSum _ fun j _ => (ht.slice (hq0 i j)).const_mul _]
    refine Finset.sum_congr rfl fun j _ => ?_
    rw [integral_const_mul, PosDef.marg, if_pos (hq0 i j)]
  show 0 ≤ ∑ i, ∑ j, a i * a j * PosDef.marg F (q i j)
  rw [hval]
  have hGm : Measurable G := by
    refine Finset.measurable_sum _ fun i _ => Finset.measurable_sum _ fun j _ => ?_
    exact (ht.meas.comp (by fun_prop)).const_mul _
  obtain ⟨C, hC⟩ := ht.bdd
  have hGb : ∀ s, |G s| ≤ ∑ i, ∑ j, |a i * a j| * C := fun s => by
    refine (Finset.abs_sum_le_sum_abs _ _).trans (Finset.sum_le_sum fun i _ => ?_)
    refine (Finset.abs_sum_le_sum_abs _ _).trans (Finset.sum_le_sum fun j _ => ?_)
    rw [abs_mul]
    exact mul_le_mul_of_nonneg_left (hC _) (abs_nonneg _)
  have hGK : PSD fun z z' : ℝ => G (z - z') := by
    refine ⟨fun z z' => ?_, fun M z b => ?_⟩
    · simp only [hG]
      refine Finset.sum_congr rfl fun i _ => Finset.sum_congr rfl fun j _ => ?_
      rw [show (z - z') ^ 2 = (z' - z) ^ 2 by ring]
    · have := PSD.fintype h (ι := Fin M × Fin N) (fun p => (Fin.cons (z p.1) (x p.2) : Fin (n + 1) → ℝ))
        (fun p => b p.1 * a p.2)
      refine this.trans (le_of_eq ?_)
      simp only [Fintype.sum_prod_type, Fin.sum_univ_succ (n := n), Fin.cons_zero, Fin.cons_succ, hG, Finset.mul_sum]
      refine Finset.sum_congr rfl fun m _ => ?_
      rw [Finset.sum_comm]
      refine Finset.sum_congr rfl fun m' _ => Finset.sum_congr rfl fun i _ => Finset.sum_congr rfl fun j _ => ?_
      rw [add_comm ((z m - z m') ^ 2)]
      ring
  -- Gaussian averages
  have hv : ∀ v : ℝ≥0, v ≠ 0 → 0 ≤ ∫ s, Real.exp (-s ^ 2 / (2 * (v + v : ℝ≥0))) * G s := by
    intro v hv
    have h1 := hGK.average_nonneg (gaussianReal 0 v) (hGm.comp (by fun_prop)) fun z z' => hGb (z - z')
    have h2 : ∫ p, G (p.1 - p.2) ∂((gaussianReal 0 v).prod (gaussianReal 0 v)) = ∫ s, G s ∂(gaussianReal 0 (v + v)) := by
      have h3 := gaussianReal_conv_gaussianReal (m₁ := 0) (m₂ := 0) (v₁ := v) (v₂ := v)
      rw [add_zero] at h3
      rw [← h3, Measure.conv, integral_map (by fun_prop) hGm.aestronglyMeasurable]
      have h4 : (gaussianReal 0 v).map (fun x => -x) = gaussianReal 0 v := by rw [gaussianReal_map_neg, neg_zero]
      have h5 : ((gaussianReal 0 v).prod (gaussianReal 0 v)) =
          ((gaussianReal 0 v).prod (gaussianReal 0 v)).map (Prod.map id fun x => -x) := by
        rw [← Measure.map_prod_map _ _ measurable_id (by fun_prop), h4, Measure.map_id]
      conv_lhs => rw [h5]
      rw [integral_map (by fun_prop)]
      · simp [sub_eq_add_neg]
      · exact (hGm.comp (by fun_prop)).aestronglyMeasurable
    rw [h2, integral_gaussianReal_eq_integral_smul (by simpa using hv)] at h1
    have h6 : (√(2 * Real.pi * (v + v : ℝ≥0)))⁻¹ ≠ 0 := by
      have : (0 : ℝ) < (v + v : ℝ≥0) := by
        rw [NNReal.coe_pos]
        exact pos_iff_ne_zero.mpr (by simpa using hv)
      positivity
    have h7 : ∫ s, gaussianPDFReal 0 (v + v) s • G s =
        (√(2 * Real.pi * (v + v : ℝ≥0)))⁻¹ * ∫ s, Real.exp (-s ^ 2 / (2 * (v + v : ℝ≥0))) * G s := by
      rw [← integral_const_mul]
      refine integral_congr_ae (Eventually.of_forall fun s => ?_)
      simp only [gaussianPDFReal, sub_zero, smul_eq_mul]
      ring
    rw [h7] at h1
    exact nonneg_of_mul_nonneg_right h1 (lt_of_le_of_ne (by positivity) h6.symm)
  have hlim : Tendsto (fun k : ℕ => ∫ s, Real.exp (-s ^ 2 / (2 * (((k + 1 : ℕ) : ℝ≥0) + ((k + 1 : ℕ) : ℝ≥0) : ℝ≥0))) * G s) atTop
      (𝓝 (∫ s, G s)) := by
    refine tendsto_integral_of_dominated_convergence (fun s => |G s|) (fun k => ?_) hGi.abs (fun k => ?_) ?_
    · exact (Measurable.mul (by fun_prop) hGm).aestronglyMeasurable
    · refine Eventually.of_forall fun s => ?_
      rw [Real.norm_eq_abs, abs_mul]
      refine mul_le_of_le_one_left (abs_nonneg _) ?_
      rw [abs_of_pos (Real.exp_pos _), Real.exp_le_one_iff]
      exact div_nonpos_of_nonpos_of_nonneg (by nlinarith [sq_nonneg s]) (by positivity)
    · refine Eventually.of_forall fun s => ?_
      have h1 : Tendsto (fun k : ℕ => -s ^ 2 / (2 * ((((k + 1 : ℕ) : ℝ≥0) + ((k + 1 : ℕ) : ℝ≥0) : ℝ≥0) : ℝ))) atTop (𝓝 0) := by
        refine Tendsto.div_atTop tendsto_const_nhds ?_
        refine tendsto_atTop_mono (f := fun k : ℕ => (k : ℝ)) (fun k => ?_) tendsto_natCast_atTop_atTop
        push_cast
        have : (0 : ℝ) ≤ k := Nat.cast_nonneg k
        linarith
      have h2 := (Real.continuous_exp.tendsto 0).comp h1
      rw [Real.exp_zero] at h2
      simpa using h2.mul_const (G s)
  exact ge_of_tendsto' hlim fun k => hv _ (by simp)

/-- Integrating out two coordinates is integration in the squared distance. -/
lemma marg_marg {F : ℝ → ℝ} (h : Tame F) {u : ℝ} (hu : 0 ≤ u) : marg (marg F) u = Real.pi * ∫ v in Set.Ioi u, F v := by
  obtain ⟨C, hC⟩ := h.bdd
  obtain ⟨R, hR, hs⟩ := h.supp
  have hm : Measurable fun p : ℝ × ℝ => F (u + (p.1 ^ 2 + p.2 ^ 2)) := h.meas.comp (by fun_prop)
  have hint : Integrable (fun p : ℝ × ℝ => F (u + (p.1 ^ 2 + p.2 ^ 2))) (volume.prod volume) := by
    have h1 : IntegrableOn (fun p : ℝ × ℝ => F (u + (p.1 ^ 2 + p.2 ^ 2))) (Set.Icc (-√R) √R ×ˢ Set.Icc (-√R) √R)
        (volume.prod volume) := by
      refine Measure.integrableOn_of_bounded (M := C) ?_ hm.aestronglyMeasurable (Eventually.of_forall fun s => hC _)
      rw [Measure.prod_prod]
      exact (ENNReal.mul_lt_top (by simp) (by simp)).ne
    refine h1.integrable_of_forall_notMem_eq_zero fun p hp => hs _ ?_
    by_contra hlt
    push Not at hlt
    exact hp ⟨abs_le.mp (Real.abs_le_sqrt (by nlinarith [sq_nonneg p.2])),
      abs_le.mp (Real.abs_le_sqrt (by nlinarith [sq_nonneg p.1]))⟩
  have h1 : marg (marg F) u = ∫ p : ℝ × ℝ, F (u + (p.1 ^ 2 + p.2 ^ 2)) := by
    rw [Measure.volume_eq_prod, integral_prod _ hint, marg, if_pos hu]
    refine integral_congr_ae (Eventually.of_forall fun s => ?_)
    dsimp only
    rw [marg, if_pos (by positivity)]
    simp only [add_assoc]
  rw [h1, ← integral_comp_polarCoord_symm]
  have h2 : ∀ p : ℝ × ℝ, p.1 • F (u + ((polarCoord.symm p).1 ^ 2 + (polarCoord.symm p).2 ^ 2)) =
      (p.1 * F (u + p.1 ^ 2)) * 1 := by
    intro p
    rw [polarCoord_symm_apply, smul_eq_mul, mul_one]
    congr 3
    simp only
    have := Real.sin_sq_add_cos_sq p.2
    linear_combination p.1 ^ 2 * this
  simp only [h2]
  have h3 : polarCoord.target = Set.Ioi (0 : ℝ) ×ˢ Set.Ioo (-Real.pi) Real.pi := rfl
  rw [h3, Measure.volume_eq_prod, setIntegral_prod_mul (fun r => r * F (u + r ^ 2)) fun _ => (1 : ℝ)]
  have h4 : ∫ _ in Set.Ioo (-Real.pi) Real.pi, (1 : ℝ) = 2 * Real.pi := by
    rw [setIntegral_const, Real.volume_real_Ioo_of_le (by linarith [Real.pi_pos]), smul_eq_mul]
    ring
  have h5 : (fun r : ℝ => u + r ^ 2) '' Set.Ioi 0 = Set.Ioi u := by
    ext v
    simp only [Set.mem_image, Set.mem_Ioi]
    constructor
    · rintro ⟨r, hr, rfl⟩
      nlinarith [sq_pos_of_pos hr]
    · intro hv
      exact ⟨√(v - u), Real.sqrt_pos.mpr (by linarith), by rw [Real.sq_sqrt (by linarith)]; ring⟩
  have h6 := integral_image_eq_integral_abs_deriv_smul (f := fun r : ℝ => u + r ^ 2) (f' := fun r => 2 * r) (s := Set.Ioi 0)
    measurableSet_Ioi (fun r _ => by
      have := ((hasDerivAt_pow 2 r).const_add u).hasDerivWithinAt (s := Set.Ioi 0)
      simpa using this) (by
      intro a ha b hb hab
      have h : a ^ 2 = b ^ 2 := by simpa using hab
      exact (sq_eq_sq₀ (le_of_lt ha) (le_of_lt hb)).mp h) F
  rw [h5] at h6
  rw [h4, h6]
  have h7 : ∫ r in Set.Ioi (0 : ℝ), |2 * r| • F (u + r ^ 2) = 2 * ∫ r in Set.Ioi (0 : ℝ), r * F (u + r ^ 2) := by
    rw [← integral_const_mul]
    refine setIntegral_congr_fun measurableSet_Ioi fun r hr => ?_
    have : (0 : ℝ) < r := hr
    simp only [smul_eq_mul]
    rw [abs_of_pos (by linarith)]
    ring
  rw [h7]
  ring

/-- Integration in the squared distance lowers the dimension by two. -/
lemma Rad.integrate {n : ℕ} {F : ℝ → ℝ} (h : Rad (n + 2) F) (ht : Tame F) : Rad n fun u => ∫ v in Set.Ioi u, F v := by
  have h1 : Rad n fun u => Real.pi⁻¹ * PosDef.marg (PosDef.marg F) u :=
    PSD.smul ((Rad.marg (n := n + 1) h ht).marg ht.marg) (by positivity)
  refine h1.congr fun u hu => ?_
  rw [marg_marg ht hu, inv_mul_cancel_left₀ Real.pi_ne_zero]

end LinPDE.PosDef
