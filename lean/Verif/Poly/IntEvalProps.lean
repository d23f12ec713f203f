import Verif.Poly.IntEval
import Verif.Poly.Props
import Mathlib.Tactic.NormNum

/-! # C19 at integer arguments -/

namespace LinPDE.Polys

/-- C19 is violated at arrays of integers: no polynomial with more than one coefficient can be evaluated there. -/
theorem evalInt_violated (p : Poly ℝ) (hp : p.degree ≠ 0) (x : ℤ) : p.evalInt x = .error .typeError := if_neg hp

/-- C19 is violated at arrays of integers also for constants: the value is truncated. -/
theorem evalInt_const_violated :
    (Poly.ofCoeffs [3 / 2] : Poly ℝ).evalInt 1 = .ok 1 ∧ (Poly.ofCoeffs [3 / 2] : Poly ℝ).eval 1 = 3 / 2 := by
  constructor
  · have : truncTo (3 / 2) = 1 := by
      unfold truncTo
      rw [if_pos (by norm_num), Int.floor_eq_iff]
      norm_num
    unfold Poly.evalInt
    rw [if_pos (show Poly.degree _ = 0 from rfl)]
    exact congrArg Except.ok this
  · rw [eval_eq_sum]
    simp [Poly.ofCoeffs]

/-- What remains true: a constant with an integer value is evaluated correctly. -/
theorem evalInt_const_partial (z x : ℤ) :
    (Poly.ofCoeffs [(z : ℝ)]).evalInt x = .ok z ∧ (Poly.ofCoeffs [(z : ℝ)]).eval x = z := by
  constructor
  · unfold Poly.evalInt
    rw [if_pos (show Poly.degree _ = 0 from rfl)]
    refine congrArg Except.ok ?_
    show truncTo (z : ℝ) = z
    unfold truncTo
    split_ifs <;> simp
  · rw [eval_eq_sum]
    simp [Poly.ofCoeffs]

/-- Non-vacuity: `1 + x` at the integer 2. -/
example : (Poly.ofCoeffs [1, 1] : Poly ℝ).evalInt 2 = .error .typeError := evalInt_violated _ (by decide) 2

end LinPDE.Polys
