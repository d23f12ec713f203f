import Verif.PosDef.Props
import Mathlib.MeasureTheory.Measure.CharacteristicFunction.Basic
import Mathlib.MeasureTheory.Integral.IntegralEqImproper
import Mathlib.MeasureTheory.Integral.ExpDecay
import Mathlib.Analysis.SpecialFunctions.ImproperIntegrals
import Mathlib.Analysis.SpecialFunctions.Gaussian.FourierTransform
import Mathlib.MeasureTheory.Group.Integral
import Mathlib.MeasureTheory.Measure.Lebesgue.Integral

/-! # Kernels with nonvanishing Fourier transform tell finite measures apart -/

namespace LinPDE.PosDef
open MeasureTheory Filter Topology Polynomial
open LinPDE.Matern (psi phi maternPoly)

/-- The Fourier transform of a function of one variable. -/
noncomputable def FT (κ : ℝ → ℝ) (ω : ℝ) : ℂ := ∫ s : ℝ, Complex.exp (ω * s * Complex.I) * (κ s : ℂ)

/-- Continuous integrable functions whose Fourier transform has no zero. -/
structure Spectral (κ : ℝ → ℝ) : Prop where
  cont : Continuous κ
  int : Integrable κ
  ne : ∀ ω, FT κ ω ≠ 0

lemma norm_char (a : ℝ) : ‖Complex.exp (a * Complex.I)‖ = 1 := Complex.norm_exp_ofReal_mul_I a

lemma norm_char' (ω s : ℝ) : ‖Complex.exp (ω * s * Complex.I)‖ = 1 := by
  rw [← Complex.ofReal_mul]; exact norm_char _

lemma continuous_char (ω : ℝ) : Continuous fun s : ℝ => Complex.exp (ω * s * Complex.I) := by fun_prop

lemma integrable_char_mul {κ : ℝ → ℝ} (h : Integrable κ) (ω : ℝ) :
    Integrable fun s : ℝ => Complex.exp (ω * s * Complex.I) * (κ s : ℂ) := by
  refine (h.ofReal (𝕜 := ℂ)).bdd_mul (c := 1) (continuous_char ω).aestronglyMeasurable ?_
  exact Eventually.of_forall fun s => (norm_char' ω s).le

lemma ft_shift (κ : ℝ → ℝ) (ω t : ℝ) :
    ∫ z : ℝ, Complex.exp (ω * z * Complex.I) * (κ (z - t) : ℂ) = Complex.exp (ω * t * Complex.I) * FT κ ω := by
  rw [FT, ← integral_const_mul,
    ← integral_sub_right_eq_self (fun s : ℝ => Complex.exp (ω * t * Complex.I) * (Complex.exp (ω * s * Complex.I) * (κ s : ℂ))) t]
  refine integral_congr_ae (Eventually.of_forall fun z => ?_)
  show _ = _ * (_ * _)
  rw [← mul_assoc, ← Complex.exp_add]
  congr 2
  push_cast
  ring

lemma integrable_shear {κ : ℝ → ℝ} (hc : Continuous κ) (hi : Integrable κ) (ω : ℝ) (μ : Measure ℝ) [IsFiniteMeasure μ] :
    Integrable (Function.uncurry fun z t : ℝ => Complex.exp (ω * z * Complex.I) * (κ (z - t) : ℂ)) (volume.prod μ) := by
  have hm : Continuous (Function.uncurry fun z t : ℝ => Complex.exp (ω * z * Complex.I) * (κ (z - t) : ℂ)) := by
    unfold Function.uncurry
    fun_prop
  rw [integrable_prod_iff' hm.aestronglyMeasurable]
  refine ⟨Eventually.of_forall fun t => ?_, ?_⟩
  · exact integrable_char_mul (hi.comp_sub_right t) ω
  · have : (fun t : ℝ => ∫ z : ℝ, ‖Function.uncurry (fun z t : ℝ => Complex.exp (ω * z * Complex.I) * (κ (z - t) : ℂ)) (z, t)‖) =
        fun _ => ∫ s : ℝ, |κ s| := by
      funext t
      rw [← integral_sub_right_eq_self (fun s => |κ s|) t]
      refine integral_congr_ae (Eventually.of_forall fun z => ?_)
      simp [Function.uncurry, norm_char']
    rw [this]
    exact integrable_const _

lemma ft_conv {κ : ℝ → ℝ} (hc : Continuous κ) (hi : Integrable κ) (ω : ℝ) (μ : Measure ℝ) [IsFiniteMeasure μ] :
    ∫ z : ℝ, Complex.exp (ω * z * Complex.I) * ((∫ t, κ (z - t) ∂μ : ℝ) : ℂ) = charFun μ ω * FT κ ω := by
  have h1 : ∀ z : ℝ, Complex.exp (ω * z * Complex.I) * ((∫ t, κ (z - t) ∂μ : ℝ) : ℂ) =
      ∫ t, Complex.exp (ω * z * Complex.I) * (κ (z - t) : ℂ) ∂μ := by
    intro z
    rw [integral_const_mul]
    congr 1
    exact integral_complex_ofReal.symm
  simp_rw [h1]
  rw [integral_integral_swap (integrable_shear hc hi ω μ), charFun_apply_real, ← integral_mul_const]
  exact integral_congr_ae (Eventually.of_forall fun t => ft_shift κ ω t)

/-- Finite measures with the same convolution with `κ` are equal. -/
theorem Spectral.measure_eq {κ : ℝ → ℝ} (h : Spectral κ) {μ ν : Measure ℝ} [IsFiniteMeasure μ] [IsFiniteMeasure ν]
    (hz : ∀ z, ∫ t, κ (z - t) ∂μ = ∫ t, κ (z - t) ∂ν) : μ = ν := by
  refine Measure.ext_of_charFun (funext fun ω => ?_)
  have h1 := ft_conv h.cont h.int ω μ
  have h2 := ft_conv h.cont h.int ω ν
  simp_rw [hz] at h1
  exact mul_right_cancel₀ (h.ne ω) (h1.symm.trans h2)

/-! ## Closure -/

lemma FT_smul (c : ℝ) (κ : ℝ → ℝ) (ω : ℝ) : FT (fun t => c * κ t) ω = c * FT κ ω := by
  unfold FT
  rw [← integral_const_mul]
  refine integral_congr_ae (Eventually.of_forall fun z => ?_)
  simp
  ring

lemma Spectral.smul {κ : ℝ → ℝ} (h : Spectral κ) {c : ℝ} (hc : c ≠ 0) : Spectral fun t => c * κ t := by
  refine ⟨continuous_const.mul h.cont, h.int.const_mul c, fun ω => ?_⟩
  rw [FT_smul]
  exact mul_ne_zero (by exact_mod_cast hc) (h.ne ω)

lemma Spectral.scale {κ : ℝ → ℝ} (h : Spectral κ) {a : ℝ} (ha : a ≠ 0) : Spectral fun t => κ (a * t) := by
  refine ⟨h.cont.comp (continuous_const.mul continuous_id), h.int.comp_mul_left' ha, fun ω => ?_⟩
  have : FT (fun t => κ (a * t)) ω = |a⁻¹| • FT κ (ω / a) := by
    unfold FT
    rw [← Measure.integral_comp_mul_left (fun s : ℝ => Complex.exp ((ω / a : ℝ) * s * Complex.I) * (κ s : ℂ)) a]
    refine integral_congr_ae (Eventually.of_forall fun z => ?_)
    simp only
    congr 2
    have : (a : ℂ) ≠ 0 := by exact_mod_cast ha
    push_cast
    field_simp
  rw [this]
  exact smul_ne_zero (abs_ne_zero.mpr (inv_ne_zero ha)) (h.ne _)

/-! ## Matérn profiles -/

lemma psi_isBigO (p n : ℕ) : psi p n =O[atTop] fun r => Real.exp (-(1 / 2) * r) := by
  refine Asymptotics.IsBigO.of_bound 1 ?_
  have h1 := (((Matern.R p n).comp (C 2 * X)).tendsto_div_exp_atTop).comp (tendsto_id.atTop_div_const (by norm_num : (0 : ℝ) < 2))
  have h2 := (Metric.tendsto_atTop.mp h1) 1 one_pos
  obtain ⟨N, hN⟩ := h2
  filter_upwards [eventually_ge_atTop N] with r hr
  have h3 := hN r hr
  simp only [Function.comp, id, eval_comp, eval_mul, eval_C, eval_X, dist_zero_right, Real.norm_eq_abs, abs_div] at h3
  rw [div_lt_one (abs_pos.mpr (Real.exp_pos _).ne'), show 2 * (r / 2) = r by ring] at h3
  unfold psi
  rw [norm_mul, Real.norm_eq_abs, Real.norm_eq_abs, Real.norm_eq_abs, one_mul, Real.abs_exp, Real.abs_exp]
  rw [Real.abs_exp] at h3
  calc |eval r (Matern.R p n)| * Real.exp (-r) ≤ Real.exp (r / 2) * Real.exp (-r) :=
        mul_le_mul_of_nonneg_right h3.le (Real.exp_pos _).le
    _ = Real.exp (-(1 / 2) * r) := by rw [← Real.exp_add]; congr 1; ring

lemma psi_integrableOn (p n : ℕ) : IntegrableOn (psi p n) (Set.Ioi 0) :=
  integrable_of_isBigO_exp_neg (by norm_num : (0 : ℝ) < 1 / 2) (Matern.continuous_psi p n).continuousOn (psi_isBigO p n)

lemma phi_integrable (p n : ℕ) : Integrable (phi p n) := by
  rw [← integrableOn_univ, ← Set.Iio_union_Ici (a := (0 : ℝ)), integrableOn_union]
  constructor
  · have h := (psi_integrableOn p n)
    rw [show (0 : ℝ) = -0 by simp] at h
    have h2 : IntegrableOn (fun t => (-1) ^ n * psi p n (-t)) (Set.Iio 0) := (h.comp_neg_Iio).const_mul ((-1) ^ n)
    refine h2.congr_fun (fun t ht => ?_) measurableSet_Iio
    have ht' : t < 0 := ht
    show _ = _
    unfold phi
    rw [if_neg (by linarith)]
  · rw [integrableOn_Ici_iff_integrableOn_Ioi]
    refine (psi_integrableOn p n).congr_fun (fun t ht => ?_) measurableSet_Ioi
    exact (Matern.phi_of_nonneg (le_of_lt ht)).symm

lemma ft_deriv {κ κ' : ℝ → ℝ} (hd : ∀ t, HasDerivAt κ (κ' t) t) (hi : Integrable κ) (hi' : Integrable κ') (ω : ℝ) :
    FT κ' ω = -(ω * Complex.I) * FT κ ω := by
  have hu : ∀ x : ℝ, HasDerivAt (fun s : ℝ => Complex.exp (ω * s * Complex.I))
      (ω * Complex.I * Complex.exp (ω * x * Complex.I)) x := by
    intro x
    have h1 : HasDerivAt (fun s : ℝ => (ω : ℂ) * s * Complex.I) (ω * 1 * Complex.I) x :=
      ((Complex.ofRealCLM.hasDerivAt (x := x)).const_mul (ω : ℂ)).mul_const Complex.I
    refine h1.cexp.congr_deriv ?_
    ring
  have hv : ∀ x : ℝ, HasDerivAt (fun s : ℝ => (κ s : ℂ)) (κ' x : ℂ) x := fun x => (hd x).ofReal_comp
  have h := integral_mul_deriv_eq_deriv_mul_of_integrable (u := fun s : ℝ => Complex.exp (ω * s * Complex.I))
    (v := fun s : ℝ => (κ s : ℂ)) (fun x _ => hu x) (fun x _ => hv x) (integrable_char_mul hi' ω)
    (((integrable_char_mul hi ω).const_mul (ω * Complex.I)).congr (Eventually.of_forall fun x => by simp [mul_assoc]))
    (integrable_char_mul hi ω)
  unfold FT
  rw [h, ← integral_const_mul, ← integral_neg]
  refine integral_congr_ae (Eventually.of_forall fun z => ?_)
  simp only
  ring

/-- `φ_{p+1} − φ_{p+1}″ = 2(p+1)/(2p+1) φ_p`. -/
lemma R_helmholtz (p : ℕ) : Matern.R (p + 1) 0 - Matern.R (p + 1) 2 = C (2 * ((p : ℝ) + 1) / (2 * p + 1)) * Matern.R p 0 := by
  have h : Matern.P (p + 1) 0 - Matern.P (p + 1) 2 = C (2 * ((p : ℚ) + 1) / (2 * p + 1)) * Matern.P p 0 := by
    have g : ((2 : ℚ) * p + 1) ≠ 0 := by positivity
    rw [Matern.P_succ, Matern.P_succ, derivative_sub]
    ext j
    show ((maternPoly (p + 1)).toPoly - (derivative (derivative (maternPoly (p + 1)).toPoly) -
      derivative (maternPoly (p + 1)).toPoly - (derivative (maternPoly (p + 1)).toPoly - (maternPoly (p + 1)).toPoly))).coeff j =
      (C (2 * ((p : ℚ) + 1) / (2 * p + 1)) * (maternPoly p).toPoly).coeff j
    rw [coeff_C_mul]
    simp only [coeff_sub, coeff_derivative, Matern.coeff_maternPoly]
    by_cases h1 : j + 1 ≤ p
    · rw [if_pos (by omega), if_pos (by omega), if_pos (by omega), if_pos (by omega)]
      have a1 := Matern.maternCoeff_prev p j (by omega)
      have a2 := Matern.maternCoeff_prev p (j + 1) (by omega)
      have a3 := Matern.maternCoeff_succ p j (by omega)
      push_cast at a1 a2 a3 ⊢
      rw [eq_comm, div_mul_eq_mul_div, div_eq_iff g]
      linear_combination (-2) * a1 + ((j : ℚ) + 1) * a2 + a3
    · by_cases h2 : j ≤ p
      · obtain rfl : j = p := by omega
        rw [if_pos (by omega), if_neg (by omega), if_pos (by omega), if_pos (by omega)]
        have a1 := Matern.maternCoeff_prev j j (by omega)
        push_cast at a1 ⊢
        rw [eq_comm, div_mul_eq_mul_div, div_eq_iff g]
        linear_combination (-2) * a1
      · rw [if_neg h2]
        simp only [show ¬(j + 1 ≤ p + 1) by omega, show ¬(j + 1 + 1 ≤ p + 1) by omega, if_false]
        ring
  have h2 := congrArg (Polynomial.map (algebraMap ℚ ℝ)) h
  simpa [Matern.R, Polynomial.map_sub, Polynomial.map_mul] using h2

lemma phi_helmholtz (p : ℕ) (t : ℝ) :
    phi (p + 1) 0 t - phi (p + 1) 2 t = 2 * ((p : ℝ) + 1) / (2 * p + 1) * phi p 0 t := by
  have key : ∀ r, psi (p + 1) 0 r - psi (p + 1) 2 r = 2 * ((p : ℝ) + 1) / (2 * p + 1) * psi p 0 r := by
    intro r
    have h := congrArg (eval r) (R_helmholtz p)
    rw [eval_sub, eval_mul, eval_C] at h
    unfold psi
    rw [← sub_mul, h, mul_assoc]
  unfold phi
  split_ifs
  · exact key t
  · simpa using key (-t)

lemma ft_step (p : ℕ) (ω : ℝ) :
    (1 + (ω : ℂ) ^ 2) * FT (phi (p + 1) 0) ω = (2 * ((p : ℝ) + 1) / (2 * p + 1) : ℝ) * FT (phi p 0) ω := by
  have h1 := ft_deriv (κ := phi (p + 1) 0) (κ' := phi (p + 1) 1) (fun t => Matern.hasDerivAt_phi (p + 1) 0 t (Or.inl (by omega)))
    (phi_integrable _ _) (phi_integrable _ _) ω
  have h2 := ft_deriv (κ := phi (p + 1) 1) (κ' := phi (p + 1) 2) (fun t => Matern.hasDerivAt_phi (p + 1) 1 t (Or.inl (by omega)))
    (phi_integrable _ _) (phi_integrable _ _) ω
  have h3 : FT (phi (p + 1) 0) ω - FT (phi (p + 1) 2) ω = (2 * ((p : ℝ) + 1) / (2 * p + 1) : ℝ) * FT (phi p 0) ω := by
    rw [← FT_smul]
    unfold FT
    rw [← integral_sub (integrable_char_mul (phi_integrable _ _) ω) (integrable_char_mul (phi_integrable _ _) ω)]
    refine integral_congr_ae (Eventually.of_forall fun z => ?_)
    simp only
    rw [← phi_helmholtz]
    push_cast
    ring
  rw [← h3, h2, h1]
  linear_combination ((ω : ℂ) ^ 2 * FT (phi (p + 1) 0) ω) * Complex.I_sq

lemma ft_exp (ω : ℝ) : FT (phi 0 0) ω ≠ 0 := by
  have hne : (1 : ℂ) + (ω : ℂ) ^ 2 ≠ 0 := by
    have : (0 : ℝ) < 1 + ω ^ 2 := by positivity
    exact_mod_cast this.ne'
  have key : FT (phi 0 0) ω = 2 / (1 + (ω : ℂ) ^ 2) := by
    unfold FT
    rw [← intervalIntegral.integral_Iic_add_Ioi (b := (0 : ℝ)) (integrable_char_mul (phi_integrable _ _) ω).integrableOn
      (integrable_char_mul (phi_integrable _ _) ω).integrableOn]
    have hp : ∀ s : ℝ, phi 0 0 s = Real.exp (-|s|) := by
      intro s
      rw [Matern.phi_zero_abs, psi_zero_zero]
    have e1 : ∫ s in Set.Iic (0 : ℝ), Complex.exp (ω * s * Complex.I) * (phi 0 0 s : ℂ) =
        ∫ s in Set.Iic (0 : ℝ), Complex.exp ((1 + ω * Complex.I) * s) := by
      refine setIntegral_congr_fun measurableSet_Iic fun s hs => ?_
      rw [hp, abs_of_nonpos hs, Complex.ofReal_exp, ← Complex.exp_add]
      congr 1
      push_cast
      ring
    have e2 : ∫ s in Set.Ioi (0 : ℝ), Complex.exp (ω * s * Complex.I) * (phi 0 0 s : ℂ) =
        ∫ s in Set.Ioi (0 : ℝ), Complex.exp ((-1 + ω * Complex.I) * s) := by
      refine setIntegral_congr_fun measurableSet_Ioi fun s hs => ?_
      rw [hp, abs_of_pos hs, Complex.ofReal_exp, ← Complex.exp_add]
      congr 1
      push_cast
      ring
    rw [e1, e2, integral_exp_mul_complex_Iic (by simp), integral_exp_mul_complex_Ioi (by simp)]
    have n1 : (1 : ℂ) + ω * Complex.I ≠ 0 := fun h => by simpa using congrArg Complex.re h
    have n2 : (-1 : ℂ) + ω * Complex.I ≠ 0 := fun h => by simpa using congrArg Complex.re h
    simp only [Complex.ofReal_zero, mul_zero, Complex.exp_zero]
    field_simp
    linear_combination (-2 * (ω : ℂ) ^ 2) * Complex.I_sq
  rw [key]
  exact div_ne_zero two_ne_zero hne

/-- Every half-integer Matérn profile. -/
lemma phi_spectral (p : ℕ) : Spectral (phi p 0) := by
  refine ⟨?_, phi_integrable p 0, ?_⟩
  · rw [show phi p 0 = fun t => psi p 0 |t| from funext fun t => Matern.phi_zero_abs p t]
    exact (Matern.continuous_psi p 0).comp continuous_abs
  · induction p with
    | zero => exact ft_exp
    | succ p ih =>
      intro ω h0
      have h := ft_step p ω
      rw [h0, mul_zero] at h
      refine mul_ne_zero ?_ (ih ω) h.symm
      have : (0 : ℝ) < 2 * ((p : ℝ) + 1) / (2 * p + 1) := by positivity
      exact_mod_cast this.ne'

/-- The Gaussian. -/
lemma gauss_spectral {a : ℝ} (ha : 0 < a) : Spectral fun t => Real.exp (-a * t ^ 2) := by
  refine ⟨by fun_prop, integrable_exp_neg_mul_sq ha, fun ω => ?_⟩
  have h := fourierIntegral_gaussian (b := (a : ℂ)) (by simpa using ha) (ω : ℂ)
  have e : FT (fun t => Real.exp (-a * t ^ 2)) ω = ∫ x : ℝ, Complex.exp (Complex.I * ω * x) * Complex.exp (-a * x ^ 2) := by
    unfold FT
    refine integral_congr_ae (Eventually.of_forall fun z => ?_)
    simp only
    rw [Complex.ofReal_exp]
    congr 2
    · ring
    · push_cast; ring
  rw [e, h]
  refine mul_ne_zero ?_ (Complex.exp_ne_zero _)
  rw [Ne, Complex.cpow_eq_zero_iff]
  have : (a : ℂ) ≠ 0 := by exact_mod_cast ha.ne'
  simp [this, Real.pi_ne_zero]

end LinPDE.PosDef
