import Verif.Matern.Model
import Mathlib.Tactic.FieldSimp
import Mathlib.Tactic.Ring
import Mathlib.Tactic.LinearCombination
import Mathlib.Algebra.Polynomial.Derivative
import Mathlib.Algebra.Polynomial.Eval.Coeff

/-! # Matérn polynomials: helper lemmas -/

namespace LinPDE.Matern
open LinPDE.Polys Polynomial

lemma maternCoeff_ne (p k : ℕ) : maternCoeff p k ≠ 0 := by
  unfold maternCoeff
  have h1 := Nat.factorial_ne_zero
  positivity

lemma maternCoeff_zero (p : ℕ) : maternCoeff p 0 = 1 := by
  unfold maternCoeff
  have h1 : ((2 * p).factorial : ℚ) ≠ 0 := by exact_mod_cast Nat.factorial_ne_zero _
  have h2 : (p.factorial : ℚ) ≠ 0 := by exact_mod_cast Nat.factorial_ne_zero _
  simp
  field_simp

lemma maternCoeff_succ (p k : ℕ) (hk : k < p) :
    maternCoeff p (k + 1) * ((k + 1) * (2 * p - k)) = maternCoeff p k * (2 * (p - k)) := by
  unfold maternCoeff
  obtain ⟨a, ha⟩ : ∃ a, p = k + 1 + a := ⟨p - (k + 1), by omega⟩
  have e1 : 2 * p - k = (2 * p - (k + 1)) + 1 := by omega
  have e2 : p - k = (p - (k + 1)) + 1 := by omega
  rw [e1, e2, Nat.factorial_succ (2 * p - (k + 1)), Nat.factorial_succ (p - (k + 1)), Nat.factorial_succ k]
  have f1 : ((2 * p).factorial : ℚ) ≠ 0 := by exact_mod_cast Nat.factorial_ne_zero _
  have f2 : ((p - (k + 1)).factorial : ℚ) ≠ 0 := by exact_mod_cast Nat.factorial_ne_zero _
  have f3 : ((k).factorial : ℚ) ≠ 0 := by exact_mod_cast Nat.factorial_ne_zero _
  have c1 : ((2 * p - (k + 1) : ℕ) : ℚ) = 2 * p - (k + 1) := by
    rw [Nat.cast_sub (by omega)]; push_cast; ring
  have c2 : ((p - (k + 1) : ℕ) : ℚ) = p - (k + 1) := by
    rw [Nat.cast_sub (by omega)]; push_cast; ring
  push_cast
  rw [c1, c2]
  have g1 : ((p : ℚ) - (k + 1) + 1) ≠ 0 := by
    rw [ha]; push_cast
    have : (0 : ℚ) < k + 1 + a - (k + 1) + 1 := by
      have : (0 : ℚ) ≤ a := by positivity
      linarith
    exact ne_of_gt this
  have g2 : ((k : ℚ) + 1) ≠ 0 := by positivity
  field_simp
  ring

/-- Coefficients of neighbouring orders. -/
lemma maternCoeff_prev (p j : ℕ) (hj : j ≤ p) :
    maternCoeff (p + 1) (j + 1) * ((2 * p + 1) * (j + 1)) = maternCoeff p j * (2 * p + 1 - j) := by
  unfold maternCoeff
  have e1 : 2 * (p + 1) - (j + 1) = (2 * p - j) + 1 := by omega
  have e2 : p + 1 - (j + 1) = p - j := by omega
  have e3 : 2 * (p + 1) = (2 * p + 1) + 1 := by omega
  rw [e1, e2, e3, Nat.factorial_succ (2 * p - j), Nat.factorial_succ (2 * p + 1), Nat.factorial_succ (2 * p),
    Nat.factorial_succ j, Nat.factorial_succ p]
  have f1 : ((2 * p).factorial : ℚ) ≠ 0 := by exact_mod_cast Nat.factorial_ne_zero _
  have f2 : ((p - j).factorial : ℚ) ≠ 0 := by exact_mod_cast Nat.factorial_ne_zero _
  have f3 : (j.factorial : ℚ) ≠ 0 := by exact_mod_cast Nat.factorial_ne_zero _
  have c1 : ((2 * p - j : ℕ) : ℚ) = 2 * p - j := by
    rw [Nat.cast_sub (by omega)]; push_cast; ring
  push_cast
  rw [c1]
  have g1 : ((2 : ℚ) * p + 1) ≠ 0 := by positivity
  have g2 : ((j : ℚ) + 1) ≠ 0 := by positivity
  have g3 : ((2 : ℚ) * p + 1 + 1) ≠ 0 := by positivity
  field_simp
  ring

lemma coeff_maternPoly (p k : ℕ) : (maternPoly p).toPoly.coeff k = if k ≤ p then maternCoeff p k else 0 := by
  unfold maternPoly
  rw [coeff_ofCoeffs, List.getD_eq_getElem?_getD]
  split_ifs with h
  · rw [List.getElem?_map, List.getElem?_range (by omega)]; rfl
  · rw [List.getElem?_eq_none (by simpa using by omega)]; rfl

/-- The derivative polynomials as polynomials. -/
noncomputable def P (p n : ℕ) : ℚ[X] := (derivPoly p n).toPoly

lemma P_succ (p n : ℕ) : P p (n + 1) = derivative (P p n) - P p n := by
  unfold P
  rw [derivPoly, toPoly_sub, toPoly_differentiate]

/-- `κ_{p+1}' = -r κ_p / (2p+1)`. -/
lemma P_one (p : ℕ) : P (p + 1) 1 = -C (1 / (2 * (p : ℚ) + 1)) * (X * P p 0) := by
  have g1 : ((2 : ℚ) * p + 1) ≠ 0 := by positivity
  rw [P_succ]
  ext k
  show (derivative (maternPoly (p + 1)).toPoly - (maternPoly (p + 1)).toPoly).coeff k =
    (-C (1 / (2 * (p : ℚ) + 1)) * (X * (maternPoly p).toPoly)).coeff k
  rw [coeff_sub, coeff_derivative, coeff_maternPoly, coeff_maternPoly, ← C_neg, coeff_C_mul]
  cases k with
  | zero =>
    rw [mul_coeff_zero, coeff_X_zero, zero_mul, mul_zero, if_pos (by omega), if_pos (by omega)]
    have h := maternCoeff_prev p 0 (by omega)
    rw [maternCoeff_zero] at h ⊢
    push_cast at h ⊢
    have : maternCoeff (p + 1) (0 + 1) = 1 := by
      apply mul_right_cancel₀ g1
      linear_combination h
    rw [this]; ring
  | succ j =>
    rw [coeff_X_mul, coeff_maternPoly]
    by_cases hj : j ≤ p
    · rw [if_pos (show j + 1 ≤ p + 1 by omega), if_pos hj]
      have h := maternCoeff_prev p j hj
      have gj : ((2 : ℚ) * p + 1 - j) ≠ 0 := by
        have : (j : ℚ) ≤ p := by exact_mod_cast hj
        have h2 : (0 : ℚ) ≤ p := by positivity
        have : (0 : ℚ) < 2 * p + 1 - j := by linarith
        exact ne_of_gt this
      by_cases hp : j + 1 + 1 ≤ p + 1
      · rw [if_pos hp]
        have h2 := maternCoeff_succ (p + 1) (j + 1) (by omega)
        push_cast at h2 ⊢
        apply mul_right_cancel₀ gj
        apply mul_right_cancel₀ g1
        linear_combination (2 * (p : ℚ) + 1) * h2 - h + maternCoeff p j * (2 * p + 1 - j) * one_div_mul_cancel g1
      · rw [if_neg hp]
        have : j = p := by omega
        subst this
        push_cast
        apply mul_right_cancel₀ g1
        have gj' : ((j : ℚ) + 1) ≠ 0 := by positivity
        apply mul_right_cancel₀ gj'
        linear_combination -h + maternCoeff j j * (j + 1) * one_div_mul_cancel g1
    · rw [if_neg (by omega), if_neg (by omega), if_neg hj]; ring

/-- Higher derivatives of neighbouring orders. -/
lemma P_step (p : ℕ) : ∀ n, P (p + 1) (n + 2) = -C (1 / (2 * (p : ℚ) + 1)) * (X * P p (n + 1) + C ((n : ℚ) + 1) * P p n)
  | 0 => by
    rw [P_succ, P_one, P_succ p 0]
    simp only [derivative_mul, derivative_neg, derivative_C, derivative_X]
    simp
    ring
  | n + 1 => by
    rw [P_succ, P_step p n, P_succ p (n + 1), P_succ p n]
    simp only [derivative_mul, derivative_neg, derivative_C, derivative_X, derivative_sub, Nat.cast_add,
      Nat.cast_one, map_add, C_1, derivative_one]
    ring

lemma P_zero_order (n : ℕ) : P 0 n = C ((-1) ^ n) := by
  induction n with
  | zero =>
    show (maternPoly 0).toPoly = _
    ext k
    rw [coeff_maternPoly, pow_zero, coeff_C]
    by_cases hk : k = 0
    · rw [if_pos (by omega), if_pos hk, hk, maternCoeff_zero]
    · rw [if_neg (by omega), if_neg hk]
  | succ n ih => rw [P_succ, ih, derivative_C, zero_sub, ← C_neg, pow_succ, mul_neg_one]

/-- Value at zero of the odd derivatives below order `2p`. -/
lemma P_odd_zero : ∀ (p m : ℕ), 2 * m + 1 < 2 * p → (P p (2 * m + 1)).eval 0 = 0
  | 0, m, h => by omega
  | p + 1, 0, _ => by rw [show 2 * 0 + 1 = 1 from rfl, P_one]; simp
  | p + 1, m + 1, h => by
    rw [show 2 * (m + 1) + 1 = (2 * m + 1) + 2 by ring, P_step]
    simp [P_odd_zero p m (by omega)]

/-- Derivatives of higher odd order do not vanish at zero. -/
lemma P_odd_ne : ∀ (p m : ℕ), p ≤ m → (P p (2 * m + 1)).eval 0 ≠ 0
  | 0, m, _ => by rw [P_zero_order]; simp
  | p + 1, 0, h => by omega
  | p + 1, m + 1, h => by
    rw [show 2 * (m + 1) + 1 = (2 * m + 1) + 2 by ring, P_step]
    have := P_odd_ne p m (by omega)
    have g1 : ((2 : ℚ) * p + 1) ≠ 0 := by positivity
    have g2 : ((2 : ℚ) * m + 1 + 1) ≠ 0 := by positivity
    simp [this, g1, g2]

lemma length_derivPoly (p n : ℕ) : (derivPoly p n).coeffs.length = p + 1 := by
  induction n with
  | zero =>
    show (maternPoly p).coeffs.length = _
    unfold maternPoly
    rw [coeffs_ofCoeffs_of_ne]
    · simp
    · intro h; simpa using congrArg List.length h
  | succ n ih =>
    show ((derivPoly p n).differentiate.sub (derivPoly p n)).coeffs.length = _
    have hd : (derivPoly p n).differentiate.coeffs.length ≤ p + 1 := by
      unfold Poly.differentiate
      cases h : (derivPoly p n).coeffs.tail.mapIdx fun k c => c * ((k + 1 : ℕ) : ℚ) with
      | nil => simp [Poly.ofCoeffs]
      | cons a l =>
        have := congrArg List.length h
        simp [ih] at this
        simp [Poly.ofCoeffs]
        omega
    have hz : (zipLongest (· - ·) (derivPoly p n).differentiate.coeffs (derivPoly p n).coeffs).length = p + 1 := by
      rw [zipLongest_length, ih]; omega
    unfold Poly.sub
    rw [coeffs_ofCoeffs_of_ne]
    · exact hz
    · intro h; rw [h] at hz; simp at hz

end LinPDE.Matern
