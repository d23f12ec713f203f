import Verif.Poly.Model
import Mathlib.Algebra.Order.Archimedean.Real.Basic

/-!
# Model of polynomial evaluation at arrays of integers

`Polynomial._evaluate` allocates its accumulator with `np.full_like(x, leading)`, so the dtype of the argument decides how
the coefficients are stored.
-/

namespace LinPDE.Polys

/-- Exceptions of the integer evaluation. -/
inductive IntErr
  | typeError
  deriving DecidableEq

open Classical in
/-- Storing a float into an integer array truncates towards zero (numpy contract). -/
noncomputable def truncTo (y : ℝ) : ℤ := if 0 ≤ y then ⌊y⌋ else ⌈y⌉

/-- `functions/_polynomial.py:61-68` for an integer argument: the leading coefficient is truncated by `np.full_like`; the
first `res += coeff` adds a float in place to an integer array, which numpy refuses with a `UFuncTypeError`. -/
noncomputable def Poly.evalInt (p : Poly ℝ) (_x : ℤ) : Except IntErr ℤ :=
  if p.degree = 0 then .ok (truncTo (p.coeffs.getLast p.ne)) else .error .typeError

end LinPDE.Polys
