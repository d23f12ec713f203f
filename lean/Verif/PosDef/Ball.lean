import Verif.PosDef.Average
import Mathlib.MeasureTheory.Measure.Haar.InnerProductSpace
import Mathlib.MeasureTheory.Measure.Lebesgue.EqHaar
import Mathlib.Analysis.InnerProductSpace.Projection.Reflection

/-!
# The volume of the intersection of two balls is a covariance function of their centres
-/

namespace LinPDE.PosDef
open MeasureTheory Filter Topology Metric
open scoped RealInnerProductSpace

/-- Truncated power, with value zero at zero also for the exponent zero. -/
noncomputable def pp (m : ℕ) (t : ℝ) : ℝ := if 0 < t then t ^ m else 0

lemma pp_nonneg (m : ℕ) (t : ℝ) : 0 ≤ pp m t := by
  unfold pp
  split_ifs with h
  · positivity
  · exact le_rfl

lemma pp_measurable (m : ℕ) : Measurable (pp m) :=
  Measurable.ite measurableSet_Ioi (by fun_prop) measurable_const

/-- Volume of the unit ball. -/
noncomputable def ballVol (n : ℕ) : ℝ := volume.real (ball (0 : EuclideanSpace ℝ (Fin n)) 1)

lemma ballVol_pos (n : ℕ) : 0 < ballVol n := by
  unfold ballVol
  rw [measureReal_def]
  exact ENNReal.toReal_pos (measure_ball_pos _ _ one_pos).ne' measure_ball_lt_top.ne

lemma volume_sq_lt (m : ℕ) (T : ℝ) :
    volume {y : Fin (2 * m) → ℝ | ∑ i, y i ^ 2 < T} = ENNReal.ofReal (ballVol (2 * m) * pp m T) := by
  unfold pp
  split_ifs with hT
  · have h1 := (EuclideanSpace.volume_preserving_symm_measurableEquiv_toLp (Fin (2 * m))).measure_preimage
      (s := {y : Fin (2 * m) → ℝ | ∑ i, y i ^ 2 < T}) (measurableSet_lt (by fun_prop) measurable_const).nullMeasurableSet
    rw [← h1]
    have h2 : (MeasurableEquiv.toLp 2 (Fin (2 * m) → ℝ)).symm ⁻¹' {y : Fin (2 * m) → ℝ | ∑ i, y i ^ 2 < T} =
        ball (0 : EuclideanSpace ℝ (Fin (2 * m))) √T := by
      ext y
      simp only [Set.mem_preimage, Set.mem_ofPred_eq, mem_ball_zero_iff, EuclideanSpace.norm_eq, Real.norm_eq_abs, sq_abs]
      rw [Real.sqrt_lt_sqrt_iff (Finset.sum_nonneg fun _ _ => sq_nonneg _)]
      rfl
    rw [h2, Measure.addHaar_ball_of_pos _ _ (Real.sqrt_pos.mpr hT), finrank_euclideanSpace, Fintype.card_fin, pow_mul,
      Real.sq_sqrt hT.le, mul_comm, ENNReal.ofReal_mul (ballVol_pos _).le, ballVol, ofReal_measureReal measure_ball_lt_top.ne]
  · have : {y : Fin (2 * m) → ℝ | ∑ i, y i ^ 2 < T} = ∅ := by
      ext y
      simp only [Set.mem_ofPred_eq, Set.mem_empty_iff_false, iff_false]
      have := Finset.sum_nonneg fun (i : Fin (2 * m)) (_ : i ∈ Finset.univ) => sq_nonneg (y i)
      linarith
    rw [this, mul_zero]
    simp

lemma lens_aux (m : ℕ) {rho : ℝ} (hr : 0 < rho) (r : ℝ) :
    volume (ball (0 : EuclideanSpace ℝ (Fin (2 * m + 1))) rho ∩ ball (EuclideanSpace.single 0 r) rho) =
      ∫⁻ s, ENNReal.ofReal (ballVol (2 * m) * pp m (rho ^ 2 - max (s ^ 2) ((s - r) ^ 2))) := by
  have hp1 := (EuclideanSpace.volume_preserving_symm_measurableEquiv_toLp (Fin (2 * m + 1))).symm
  have hp2 := (volume_preserving_piFinSuccAbove (fun _ : Fin (2 * m + 1) => ℝ) 0).symm
  have hp := hp1.comp hp2
  set A := ball (0 : EuclideanSpace ℝ (Fin (2 * m + 1))) rho ∩ ball (EuclideanSpace.single 0 r) rho with hA
  have hAm : MeasurableSet A := measurableSet_ball.inter measurableSet_ball
  rw [← hp.measure_preimage hAm.nullMeasurableSet, Measure.volume_eq_prod, Measure.prod_apply]
  · refine lintegral_congr fun s => ?_
    rw [← volume_sq_lt]
    congr 1
    ext y
    simp only [hA, Set.mem_preimage, Set.mem_inter_iff, mem_ball, EuclideanSpace.dist_eq, Set.mem_ofPred_eq, sq_abs, Real.dist_eq]
    rw [Real.sqrt_lt' hr, Real.sqrt_lt' hr, Fin.sum_univ_succ, Fin.sum_univ_succ]
    simp [MeasurableEquiv.piFinSuccAbove, lt_sub_iff_add_lt]
    constructor
    · rintro ⟨h1, h2⟩
      rcases max_cases (s ^ 2) ((s - r) ^ 2) with ⟨h, _⟩ | ⟨h, _⟩ <;> rw [h] <;> linarith
    · intro h
      have h1 := le_max_left (s ^ 2) ((s - r) ^ 2)
      have h2 := le_max_right (s ^ 2) ((s - r) ^ 2)
      constructor <;> linarith
  · exact hp.measurable hAm

lemma lens (m : ℕ) {rho : ℝ} (hr : 0 < rho) (a b : EuclideanSpace ℝ (Fin (2 * m + 1))) :
    volume (ball a rho ∩ ball b rho) =
      ∫⁻ s, ENNReal.ofReal (ballVol (2 * m) * pp m (rho ^ 2 - max (s ^ 2) ((s - ‖b - a‖) ^ 2))) := by
  rw [← lens_aux m hr]
  have h1 : volume (ball a rho ∩ ball b rho) = volume (ball 0 rho ∩ ball (b - a) rho) := by
    rw [← measure_preimage_add volume a (ball a rho ∩ ball b rho)]
    congr 1
    ext y
    simp only [Set.mem_preimage, Set.mem_inter_iff, mem_ball, dist_eq_norm, sub_zero]
    rw [show a + y - a = y by abel, show a + y - b = y - (b - a) by abel]
  rw [h1]
  have hn : ‖b - a‖ = ‖EuclideanSpace.single (0 : Fin (2 * m + 1)) ‖b - a‖‖ := by
    rw [PiLp.norm_single, norm_norm]
  set w := EuclideanSpace.single (0 : Fin (2 * m + 1)) ‖b - a‖ with hw
  have h2 := Submodule.reflection_sub hn
  set φ := (ℝ ∙ (b - a - w))ᗮ.reflection with hφ
  have h3 := φ.measurePreserving.measure_preimage (s := ball 0 rho ∩ ball w rho)
    (measurableSet_ball.inter measurableSet_ball).nullMeasurableSet
  rw [← h3]
  congr 1
  ext y
  simp only [Set.mem_preimage, Set.mem_inter_iff, mem_ball, dist_eq_norm, sub_zero]
  rw [← h2, ← map_sub, LinearIsometryEquiv.norm_map, LinearIsometryEquiv.norm_map]

/-- Integral of the truncated power of `τ - s²` beyond `r`. -/
noncomputable def hat (m : ℕ) (t r : ℝ) : ℝ := ∫ s in Set.Ioi r, pp m (t - s ^ 2)

lemma pp_sq_integrable (m : ℕ) (t : ℝ) : Integrable fun s : ℝ => pp m (t - s ^ 2) := by
  have h1 : IntegrableOn (fun s : ℝ => pp m (t - s ^ 2)) (Set.Icc (-√t) √t) := by
    refine Measure.integrableOn_of_bounded (M := |t| ^ m) (by simp) ((pp_measurable m).comp (by fun_prop)).aestronglyMeasurable
      (Eventually.of_forall fun s => ?_)
    unfold pp
    split_ifs with h
    · rw [Real.norm_eq_abs, abs_pow]
      refine pow_le_pow_left₀ (abs_nonneg _) ?_ m
      rw [abs_of_pos h]
      nlinarith [sq_nonneg s, le_abs_self t]
    · simp
  refine h1.integrable_of_forall_notMem_eq_zero fun s hs => ?_
  unfold pp
  rw [if_neg]
  intro h
  exact hs (abs_le.mp (Real.abs_le_sqrt (by linarith)))

lemma lens_profile (m : ℕ) (t : ℝ) {r : ℝ} (hr : 0 ≤ r) :
    Integrable (fun s : ℝ => pp m (t - max (s ^ 2) ((s - r) ^ 2))) ∧
      ∫ s : ℝ, pp m (t - max (s ^ 2) ((s - r) ^ 2)) = 2 * hat m t (r / 2) := by
  have e1 : Set.EqOn (fun s : ℝ => pp m (t - max (s ^ 2) ((s - r) ^ 2))) (fun s => pp m (t - s ^ 2)) (Set.Ioi (r / 2)) := by
    intro s hs
    have : r / 2 < s := hs
    dsimp only
    rw [max_eq_left (by nlinarith)]
  have e2 : Set.EqOn (fun s : ℝ => pp m (t - max (s ^ 2) ((s - r) ^ 2))) (fun s => pp m (t - (s - r) ^ 2)) (Set.Iic (r / 2)) := by
    intro s hs
    have : s ≤ r / 2 := hs
    dsimp only
    rw [max_eq_right (by nlinarith)]
  have i1 : IntegrableOn (fun s : ℝ => pp m (t - max (s ^ 2) ((s - r) ^ 2))) (Set.Ioi (r / 2)) :=
    (integrableOn_congr_fun e1 measurableSet_Ioi).mpr (pp_sq_integrable m t).integrableOn
  have i2 : IntegrableOn (fun s : ℝ => pp m (t - max (s ^ 2) ((s - r) ^ 2))) (Set.Iic (r / 2)) :=
    (integrableOn_congr_fun e2 measurableSet_Iic).mpr ((pp_sq_integrable m t).comp_sub_right r).integrableOn
  refine ⟨?_, ?_⟩
  · rw [← integrableOn_univ, ← Set.Iic_union_Ioi (a := r / 2)]
    exact i2.union i1
  · rw [← intervalIntegral.integral_Iic_add_Ioi i2 i1, setIntegral_congr_fun measurableSet_Ioi e1,
      setIntegral_congr_fun measurableSet_Iic e2]
    have h3 : ∫ s in Set.Iic (r / 2), pp m (t - (s - r) ^ 2) = hat m t (r / 2) := by
      have h4 : ∫ s in Set.Iic (r / 2), pp m (t - (s - r) ^ 2) = ∫ s, Set.indicator (Set.Ici (r / 2)) (fun s => pp m (t - s ^ 2)) (r - s) := by
        rw [← integral_indicator measurableSet_Iic]
        congr 1
        funext s
        by_cases h : s ≤ r / 2
        · rw [Set.indicator_of_mem (by exact h), Set.indicator_of_mem (by show r / 2 ≤ r - s; linarith)]
          congr 2
          ring
        · rw [Set.indicator_of_notMem (by exact h), Set.indicator_of_notMem]
          show ¬ r / 2 ≤ r - s
          intro h'
          exact h (by linarith)
      rw [h4, integral_sub_left_eq_self (fun s => Set.indicator (Set.Ici (r / 2)) (fun s => pp m (t - s ^ 2)) s),
        integral_indicator measurableSet_Ici, integral_Ici_eq_integral_Ioi, hat]
    rw [h3, ← hat]
    ring

/-- The volume of the intersection of two balls. -/
lemma lens_real (m : ℕ) {t : ℝ} (ht : 0 < t) (a b : EuclideanSpace ℝ (Fin (2 * m + 1))) :
    volume.real (ball a √t ∩ ball b √t) = ballVol (2 * m) * (2 * hat m t (‖b - a‖ / 2)) := by
  obtain ⟨h1, h2⟩ := lens_profile m t (norm_nonneg (b - a))
  rw [measureReal_def, lens m (Real.sqrt_pos.mpr ht), Real.sq_sqrt ht.le, ← ofReal_integral_eq_lintegral_ofReal,
    ENNReal.toReal_ofReal, integral_const_mul, h2]
  · exact integral_nonneg fun s => mul_nonneg (ballVol_pos _).le (pp_nonneg _ _)
  · exact h1.const_mul _
  · exact Eventually.of_forall fun s => mul_nonneg (ballVol_pos _).le (pp_nonneg _ _)

lemma lens_psd {n : ℕ} (rho : ℝ) : PSD fun a b : EuclideanSpace ℝ (Fin n) => volume.real (ball a rho ∩ ball b rho) := by
  refine ⟨fun a b => by rw [Set.inter_comm], fun N x c => ?_⟩
  set f : Fin N → EuclideanSpace ℝ (Fin n) → ℝ := fun i => (ball (x i) rho).indicator fun _ => 1 with hf
  have h0 : ∀ i j y, f i y * f j y = (ball (x i) rho ∩ ball (x j) rho).indicator (fun _ => (1 : ℝ)) y := by
    classical
    intro i j y
    simp only [hf, Set.indicator_apply, Set.mem_inter_iff]
    split_ifs <;> simp_all
  have h1 : ∀ i j, volume.real (ball (x i) rho ∩ ball (x j) rho) = ∫ y, f i y * f j y := by
    intro i j
    simp only [h0]
    rw [integral_indicator (measurableSet_ball.inter measurableSet_ball), setIntegral_const, smul_eq_mul, mul_one]
  have hi : ∀ i j, Integrable fun y => f i y * f j y := by
    intro i j
    simp only [h0]
    rw [integrable_indicator_iff (measurableSet_ball.inter measurableSet_ball)]
    refine integrableOn_const ?_
    exact (lt_of_le_of_lt (measure_mono Set.inter_subset_left) measure_ball_lt_top).ne
  have h2 : ∑ i, ∑ j, c i * c j * volume.real (ball (x i) rho ∩ ball (x j) rho) = ∫ y, (∑ i, c i * f i y) ^ 2 := by
    have : ∀ y, (∑ i, c i * f i y) ^ 2 = ∑ i, ∑ j, c i * c j * (f i y * f j y) := fun y => by
      rw [sq, Finset.sum_mul_sum]
      exact Finset.sum_congr rfl fun i _ => Finset.sum_congr rfl fun j _ => by ring
    simp only [this]
    rw [integral_finsetSum _ fun i _ => integrable_finsetSum _ fun j _ => (hi i j).const_mul _]
    refine Finset.sum_congr rfl fun i _ => ?_
    rw [integral_finsetSum _ fun j _ => (hi i j).const_mul _]
    refine Finset.sum_congr rfl fun j _ => ?_
    rw [integral_const_mul, h1]
  rw [h2]
  exact integral_nonneg fun y => sq_nonneg _

/-- Euclid's hats in odd dimensions. -/
lemma hat_rad (m : ℕ) (t : ℝ) : Rad (2 * m + 1) fun u => hat m t √u := by
  by_cases ht : 0 < t
  · have h := (lens_psd (n := 2 * m + 1) √t).comp fun x : Fin (2 * m + 1) → ℝ => WithLp.toLp 2 fun i => 2 * x i
    refine (h.smul (c := (ballVol (2 * m) * 2)⁻¹) (by have := ballVol_pos (2 * m); positivity)).congr fun x y => ?_
    rw [lens_real m ht]
    have : ‖WithLp.toLp 2 (fun i => 2 * y i) - WithLp.toLp 2 (fun i => 2 * x i)‖ / 2 = √(∑ i, (x i - y i) ^ 2) := by
      rw [EuclideanSpace.norm_eq, div_eq_iff two_ne_zero]
      have h2 : ∑ i, ‖(WithLp.toLp 2 (fun i => 2 * y i) - WithLp.toLp 2 (fun i => 2 * x i) :
          EuclideanSpace ℝ (Fin (2 * m + 1))) i‖ ^ 2 = 2 ^ 2 * ∑ i, (x i - y i) ^ 2 := by
        rw [Finset.mul_sum]
        refine Finset.sum_congr rfl fun i _ => ?_
        rw [Real.norm_eq_abs, sq_abs]
        simp only [PiLp.sub_apply]
        ring
      rw [h2, Real.sqrt_mul (by positivity), Real.sqrt_sq (by positivity), mul_comm]
    rw [this]
    have := (ballVol_pos (2 * m)).ne'
    field_simp
  · refine (PSD.const (c := 0) le_rfl).congr fun x y => ?_
    unfold hat
    have : ∀ s : ℝ, pp m (t - s ^ 2) = 0 := fun s => by
      unfold pp
      rw [if_neg]
      nlinarith [sq_nonneg s]
    simp [this]

end LinPDE.PosDef
