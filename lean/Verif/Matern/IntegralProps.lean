import Verif.Matern.Integral
import Verif.Matern.Props
import Mathlib.MeasureTheory.Integral.IntervalIntegral.FundThmCalculus

/-! # Integrals of univariate half-integer Matérn kernels (C26) -/

namespace LinPDE.Matern
open LinPDE.Polys Polynomial MeasureTheory

lemma antiLoop_fst (p n : ℕ) : (antiLoop p n).1.toPoly = derivative^[n] (P p 0) := by
  induction n with
  | zero => rfl
  | succ n ih =>
    show ((antiLoop p n).1.differentiate).toPoly = _
    rw [toPoly_differentiate, ih, Function.iterate_succ_apply']

lemma antiLoop2_fst (p n : ℕ) : (antiLoop2 p n).1.toPoly = derivative^[n] (P p 0) := by
  induction n with
  | zero => rfl
  | succ n ih =>
    show ((antiLoop2 p n).1.differentiate).toPoly = _
    rw [toPoly_differentiate, ih, Function.iterate_succ_apply']

lemma antiLoop_rel (p n : ℕ) :
    derivative (antiLoop p n).2.toPoly - (antiLoop p n).2.toPoly = derivative^[n + 1] (P p 0) - P p 0 := by
  induction n with
  | zero => rfl
  | succ n ih =>
    have e : (antiLoop p (n + 1)).2.toPoly = (antiLoop p n).2.toPoly + derivative^[n + 1] (P p 0) := by
      show ((antiLoop p n).2.add (antiLoop p (n + 1)).1).toPoly = _
      rw [toPoly_add, antiLoop_fst]
    rw [e, derivative_add, ← Function.iterate_succ_apply' derivative (n + 1)]
    linear_combination ih

lemma antiLoop2_rel (p n : ℕ) :
    derivative (antiLoop2 p n).2.toPoly - (antiLoop2 p n).2.toPoly =
      C ((n : ℚ) + 1) * derivative^[n + 1] (P p 0) - (antiLoop p n).2.toPoly := by
  induction n with
  | zero =>
    show derivative (P p 0) - P p 0 = C (((0 : ℕ) : ℚ) + 1) * derivative (P p 0) - P p 0
    simp
  | succ n ih =>
    have e : (antiLoop2 p (n + 1)).2.toPoly =
        (antiLoop2 p n).2.toPoly + C ((n : ℚ) + 1 + 1) * derivative^[n + 1] (P p 0) := by
      show ((antiLoop2 p n).2.add ((antiLoop2 p (n + 1)).1.smul _)).toPoly = _
      rw [toPoly_add, toPoly_smul, antiLoop2_fst]
      push_cast
      rfl
    have e1 : (antiLoop p (n + 1)).2.toPoly = (antiLoop p n).2.toPoly + derivative^[n + 1] (P p 0) := by
      show ((antiLoop p n).2.add (antiLoop p (n + 1)).1).toPoly = _
      rw [toPoly_add, antiLoop_fst]
    rw [e, e1, derivative_add, derivative_C_mul, ← Function.iterate_succ_apply' derivative (n + 1)]
    push_cast
    simp only [C_add, C_1] at ih ⊢
    linear_combination ih

lemma natDegree_P (p : ℕ) : (P p 0).natDegree < p + 1 := by
  have h := natDegree_toPoly_le (derivPoly p 0)
  rw [degree_derivPoly] at h
  exact Nat.lt_succ_of_le h

lemma rel1 (p : ℕ) : derivative (antiLoop p p).2.toPoly = (antiLoop p p).2.toPoly - P p 0 := by
  have := antiLoop_rel p p
  rw [iterate_derivative_eq_zero (natDegree_P p)] at this
  linear_combination this

lemma rel2 (p : ℕ) : derivative (antiLoop2 p p).2.toPoly = (antiLoop2 p p).2.toPoly - (antiLoop p p).2.toPoly := by
  have := antiLoop2_rel p p
  rw [iterate_derivative_eq_zero (natDegree_P p), mul_zero] at this
  linear_combination this

lemma hasDerivAt_pev {q q' : Poly ℚ} {c : ℝ} (h : derivative q.toPoly = q'.toPoly) (r : ℝ) :
    HasDerivAt (fun r => pev q (c * r)) (pev q' (c * r) * c) r := by
  have h1 := ((q.toPoly.map (algebraMap ℚ ℝ)).hasDerivAt (c * r)).comp r ((hasDerivAt_id r).const_mul c)
  rw [derivative_map, h] at h1
  simp only [mul_one] at h1
  refine (h1.congr_deriv ?_).congr_of_eventuallyEq (Filter.Eventually.of_forall fun t => ?_)
  · rw [pev_eq]
  · show pev q _ = _
    rw [pev_eq]; rfl

lemma hasDerivAt_pev' {q : Poly ℚ} {c : ℝ} (r : ℝ) :
    HasDerivAt (fun r => pev q (c * r)) (((derivative q.toPoly).map (algebraMap ℚ ℝ)).eval (c * r) * c) r := by
  have := hasDerivAt_pev (q := q) (q' := q.differentiate) (c := c) (by rw [toPoly_differentiate]) r
  rwa [pev_eq, toPoly_differentiate] at this

lemma coeff0_eq (q : Poly ℚ) : coeff0 q = pev q 0 := by
  unfold coeff0 pev
  rw [eval_eq_toPoly_eval, ← coeff_zero_eq_eval_zero, coeff_toPoly]
  cases h : (toReal q).coeffs with
  | nil => exact absurd h (toReal q).ne
  | cons c l => rfl

lemma sqrt2nu_pos (p : ℕ) : 0 < sqrt2nu p := Real.sqrt_pos.mpr (by positivity)

lemma sqrt2nu_sq (p : ℕ) : sqrt2nu p * sqrt2nu p = 2 * p + 1 := Real.mul_self_sqrt (by positivity)

lemma anti1_zero (p : ℕ) : anti1 p 0 = 0 := by
  unfold anti1 C1
  rw [coeff0_eq]; simp

lemma hasDerivAt_exp_mul (c r : ℝ) : HasDerivAt (fun r => Real.exp (-c * r)) (Real.exp (-c * r) * -c) r := by
  have := ((hasDerivAt_id r).const_mul (-c)).exp
  simpa using this

/-- The first antiderivative. -/
lemma hasDerivAt_anti1 (p : ℕ) (r : ℝ) : HasDerivAt (anti1 p) (profile p (sqrt2nu p * r)) r := by
  have hs := (sqrt2nu_pos p).ne'
  have h := (((hasDerivAt_exp_mul (sqrt2nu p) r).const_mul (-(1 / sqrt2nu p))).mul
    (hasDerivAt_pev' (q := (antiLoop p p).2) (c := sqrt2nu p) r)).add_const (C1 p)
  refine h.congr_deriv ?_
  rw [rel1, Polynomial.map_sub, eval_sub, profile_eq, psi, R, pev_eq, neg_mul]
  field_simp
  ring

/-- The second antiderivative. -/
lemma hasDerivAt_anti2 (p : ℕ) (r : ℝ) : HasDerivAt (anti2 p) (anti1 p r) r := by
  have hs := (sqrt2nu_pos p).ne'
  have h := ((((hasDerivAt_exp_mul (sqrt2nu p) r).const_mul (1 / (2 * (p : ℝ) + 1))).mul
    (hasDerivAt_pev' (q := (antiLoop2 p p).2) (c := sqrt2nu p) r)).add ((hasDerivAt_id r).const_mul (C1 p))).add_const (C2 p)
  refine h.congr_deriv ?_
  rw [rel2, Polynomial.map_sub, eval_sub, anti1, pev_eq, pev_eq, ← sqrt2nu_sq]
  field_simp
  ring

section Radial

variable {f A B : ℝ → ℝ}

/-- Odd extension. -/
noncomputable def oddExt (A : ℝ → ℝ) (u : ℝ) : ℝ := if 0 ≤ u then A u else -A (-u)

lemma oddExt_nonpos (h0 : A 0 = 0) {u : ℝ} (hu : u ≤ 0) : oddExt A u = -A (-u) := by
  unfold oddExt
  split_ifs with h
  · have : u = 0 := le_antisymm hu h
    subst this
    simp [h0]
  · rfl

lemma hasDerivAt_of_sides {g : ℝ → ℝ} {y u : ℝ} (hr : HasDerivWithinAt g y (Set.Ici u) u)
    (hl : HasDerivWithinAt g y (Set.Iic u) u) : HasDerivAt g y u := by
  have := hl.union hr
  rwa [Set.Iic_union_Ici, hasDerivWithinAt_univ] at this

lemma hasDerivAt_oddExt (hA : ∀ r, HasDerivAt A (f r) r) (h0 : A 0 = 0) (u : ℝ) : HasDerivAt (oddExt A) (f |u|) u := by
  have hneg : ∀ u, HasDerivAt (fun u => -A (-u)) (f (-u)) u := fun u => by
    have := ((hA (-u)).comp u (hasDerivAt_neg u)).neg
    refine this.congr_deriv ?_
    ring
  rcases lt_trichotomy u 0 with hu | hu | hu
  · rw [abs_of_neg hu]
    refine (hneg u).congr_of_eventuallyEq ?_
    filter_upwards [Iio_mem_nhds hu] with t ht
    exact oddExt_nonpos h0 (le_of_lt ht)
  · subst hu
    rw [abs_zero]
    apply hasDerivAt_of_sides
    · exact (hA 0).hasDerivWithinAt.congr (fun t ht => if_pos ht) (if_pos le_rfl)
    · have := hneg 0
      rw [neg_zero] at this
      exact this.hasDerivWithinAt.congr (fun t ht => oddExt_nonpos h0 ht) (oddExt_nonpos h0 le_rfl)
  · rw [abs_of_pos hu]
    refine (hA u).congr_of_eventuallyEq ?_
    filter_upwards [Ioi_mem_nhds hu] with t ht
    exact if_pos (le_of_lt ht)

lemma hasDerivAt_abs_comp (hB : ∀ r, HasDerivAt B (A r) r) (h0 : A 0 = 0) (u : ℝ) :
    HasDerivAt (fun u => B |u|) (oddExt A u) u := by
  have hneg : ∀ u, HasDerivAt (fun u => B (-u)) (-A (-u)) u := fun u => by
    have := ((hB (-u)).comp u (hasDerivAt_neg u))
    refine this.congr_deriv ?_
    ring
  rcases lt_trichotomy u 0 with hu | hu | hu
  · rw [oddExt_nonpos h0 hu.le]
    refine (hneg u).congr_of_eventuallyEq ?_
    filter_upwards [Iio_mem_nhds hu] with t ht
    show B |t| = _
    rw [abs_of_neg ht]
  · subst hu
    apply hasDerivAt_of_sides
    · rw [oddExt, if_pos le_rfl]
      exact (hB 0).hasDerivWithinAt.congr (fun t ht => by rw [abs_of_nonneg ht]) (by rw [abs_zero])
    · rw [oddExt_nonpos h0 le_rfl]
      have := hneg 0
      refine this.hasDerivWithinAt.congr (fun t ht => ?_) (by rw [abs_zero, neg_zero])
      show B |t| = _
      rw [abs_of_nonpos ht]
  · rw [oddExt, if_pos hu.le]
    refine (hB u).congr_of_eventuallyEq ?_
    filter_upwards [Ioi_mem_nhds hu] with t ht
    show B |t| = _
    rw [abs_of_pos ht]

open Classical in
lemma radialIntegral_eq (l a b x : ℝ) (hl : 0 < l) :
    radialIntegral A l a b x = l * (oddExt A ((b - x) / l) - oddExt A ((a - x) / l)) := by
  have key : ∀ c : ℝ, negPow (c < x) * A (|c - x| / l) = oddExt A ((c - x) / l) := by
    intro c
    unfold negPow oddExt
    by_cases h : c < x
    · have h1 : c - x < 0 := by linarith
      rw [if_pos h, if_neg (not_le.mpr (div_neg_of_neg_of_pos h1 hl)), abs_of_neg h1, neg_div]; ring
    · have h1 : 0 ≤ c - x := by linarith
      rw [if_neg h, if_pos (div_nonneg h1 hl.le), abs_of_nonneg h1]; ring
  unfold radialIntegral
  rw [key, key]

/-- The integral of a radial function from an antiderivative of its profile. -/
lemma radialIntegral_spec (hf : Continuous f) (hA : ∀ r, HasDerivAt A (f r) r) (h0 : A 0 = 0) (l a b x : ℝ) (hl : 0 < l) :
    radialIntegral A l a b x = ∫ t in a..b, f (|x - t| / l) := by
  have h : ∀ t ∈ Set.uIcc a b, HasDerivAt (fun t => l * oddExt A ((t - x) / l)) (f (|x - t| / l)) t := by
    intro t _
    have h1 : HasDerivAt (fun t => (t - x) / l) (1 / l) t := ((hasDerivAt_id t).sub_const x).div_const l
    have h2 := ((hasDerivAt_oddExt hA h0 ((t - x) / l)).comp t h1).const_mul l
    refine h2.congr_deriv ?_
    rw [abs_div, abs_of_pos hl, abs_sub_comm]
    field_simp
  rw [intervalIntegral.integral_eq_sub_of_hasDerivAt h (Continuous.intervalIntegrable (by fun_prop) _ _),
    radialIntegral_eq l a b x hl]
  ring

lemma continuous_oddExt (hA : ∀ r, HasDerivAt A (f r) r) (h0 : A 0 = 0) : Continuous (oddExt A) :=
  continuous_iff_continuousAt.mpr fun u => (hasDerivAt_oddExt hA h0 u).continuousAt

/-- The double integral of a radial function. -/
lemma radialIntegral2_spec (hf : Continuous f) (hA : ∀ r, HasDerivAt A (f r) r) (h0 : A 0 = 0)
    (hB : ∀ r, HasDerivAt B (A r) r) (l a b c d : ℝ) (hl : 0 < l) :
    radialIntegral2 B l a b c d = ∫ x in a..b, ∫ t in c..d, f (|x - t| / l) := by
  have hin : ∀ x, ∫ t in c..d, f (|x - t| / l) = l * oddExt A ((d - x) / l) - l * oddExt A ((c - x) / l) := by
    intro x
    rw [← radialIntegral_spec hf hA h0 l c d x hl, radialIntegral_eq l c d x hl]; ring
  have hc := continuous_oddExt hA h0
  have hout : ∀ e : ℝ, ∫ x in a..b, l * oddExt A ((e - x) / l) = l ^ 2 * (B (|a - e| / l) - B (|b - e| / l)) := by
    intro e
    have h : ∀ x ∈ Set.uIcc a b, HasDerivAt (fun x => -(l ^ 2 * B |(e - x) / l|)) (l * oddExt A ((e - x) / l)) x := by
      intro x _
      have h1 : HasDerivAt (fun x => (e - x) / l) (-1 / l) x := ((hasDerivAt_id x).const_sub e).div_const l
      have h2 := (((hasDerivAt_abs_comp hB h0 ((e - x) / l)).comp x h1).const_mul (l ^ 2)).neg
      refine h2.congr_deriv ?_
      field_simp
    rw [intervalIntegral.integral_eq_sub_of_hasDerivAt h (Continuous.intervalIntegrable (by fun_prop) _ _)]
    rw [abs_div, abs_div, abs_of_pos hl, abs_sub_comm e a, abs_sub_comm e b]
    ring
  simp only [hin]
  rw [intervalIntegral.integral_sub (Continuous.intervalIntegrable (by fun_prop) _ _)
    (Continuous.intervalIntegrable (by fun_prop) _ _), hout, hout]
  unfold radialIntegral2
  ring

end Radial

lemma continuous_profile (p : ℕ) : Continuous (profile p) := by
  have : profile p = psi p 0 := funext fun r => profile_eq p r
  rw [this]
  exact continuous_psi p 0

/-- C26: the closed form for the covariance of a value of a half-integer Matérn process and its integral over `[a, b]`
is the integral of the kernel. -/
theorem maternIntegral_spec (p : ℕ) (l a b x : ℝ) (hl : 0 < l) :
    maternIntegral p l a b x = ∫ t in a..b, profile p (sqrt2nu p * (|x - t| / l)) :=
  radialIntegral_spec (f := fun r => profile p (sqrt2nu p * r))
    ((continuous_profile p).comp (by fun_prop)) (hasDerivAt_anti1 p) (anti1_zero p) l a b x hl

/-- C26: the closed form for the covariance of two integrals of a half-integer Matérn process is the double integral of
the kernel. -/
theorem maternIntegral2_spec (p : ℕ) (l a b c d : ℝ) (hl : 0 < l) :
    maternIntegral2 p l a b c d = ∫ x in a..b, ∫ t in c..d, profile p (sqrt2nu p * (|x - t| / l)) :=
  radialIntegral2_spec (f := fun r => profile p (sqrt2nu p * r))
    ((continuous_profile p).comp (by fun_prop)) (hasDerivAt_anti1 p) (anti1_zero p) (hasDerivAt_anti2 p) l a b c d hl

/-- C26: the two radial antiderivatives are the integrals from zero. -/
theorem maternAntiderivatives_spec (p : ℕ) (r : ℝ) : anti1 p r = (∫ t in (0 : ℝ)..r, profile p (sqrt2nu p * t)) ∧
    anti2 p r = ∫ t in (0 : ℝ)..r, anti1 p t := by
  have h1 : Continuous (anti1 p) := continuous_iff_continuousAt.mpr fun t => (hasDerivAt_anti1 p t).continuousAt
  constructor
  · rw [intervalIntegral.integral_eq_sub_of_hasDerivAt (fun t _ => hasDerivAt_anti1 p t)
      (((continuous_profile p).comp (by fun_prop)).intervalIntegrable _ _), anti1_zero, sub_zero]
  · have h0 : anti2 p 0 = 0 := by
      unfold anti2 C2
      rw [coeff0_eq]
      simp
    rw [intervalIntegral.integral_eq_sub_of_hasDerivAt (fun t _ => hasDerivAt_anti2 p t) (h1.intervalIntegrable _ _), h0, sub_zero]

/-- C26: the kernel under the integrals is the Matérn kernel of the model with lengthscale `l`. -/
theorem profile_is_kernel (p : ℕ) (l : ℝ) (hl : 0 < l) (x t : Fin 1 → ℝ) :
    (MK.matern ⟨p, fun _ => sqrt2nu p / l⟩).eval x t = profile p (sqrt2nu p * (|x 0 - t 0| / l)) := by
  rw [eval_univariate (show (MK.matern _).Valid from trivial)]
  show 1 * phi p 0 (sqrt2nu p / l * (x 0 - t 0)) = _
  rw [one_mul, phi_zero_abs, profile_eq, abs_mul, abs_of_pos (div_pos (sqrt2nu_pos p) hl)]
  congr 1
  ring

/-- C26: exchanging the two integrals does not change the result. -/
theorem maternIntegral2_symm (p : ℕ) (l a b c d : ℝ) : maternIntegral2 p l a b c d = maternIntegral2 p l c d a b := by
  unfold maternIntegral2 radialIntegral2
  rw [abs_sub_comm b c, abs_sub_comm a c, abs_sub_comm b d, abs_sub_comm a d]
  ring

/-- Non-vacuity: for `p = 0` the closed form is the familiar one. -/
example : maternIntegral 0 1 0 1 0 = 1 - Real.exp (-1) := by
  have hp : ∀ r, pev (antiLoop 0 0).2 r = 1 := by
    intro r
    rw [pev_eq]
    show ((P 0 0).map _).eval r = 1
    rw [P_zero_order]; simp
  simp [maternIntegral, radialIntegral, anti1, C1, coeff0_eq, sqrt2nu, negPow, hp, show ¬(1 : ℝ) < 0 by norm_num]
  ring

end LinPDE.Matern
