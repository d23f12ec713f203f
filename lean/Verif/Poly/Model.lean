import Mathlib.Algebra.Field.Basic
import Mathlib.Algebra.BigOperators.Group.Finset.Basic

/-!
# Model of `functions/_polynomial.py`

`Poly K` models both `Polynomial` (`K = ℝ`, floats idealised) and `RationalPolynomial`
(`K = ℚ`, exact `Fraction`s): the two classes run the same code on different coefficient types.
Exceptions are values of `Except Err`.
-/

namespace LinPDE.Polys

/-- Python exception classes raised in `functions/_polynomial.py`. -/
inductive Err where
  | valueError
  | zeroDivisionError
  deriving DecidableEq, Repr

/-- `functions/_polynomial.py:39-48` and `:166-175`: a tuple of coefficients, constant term first,
which the constructor guarantees to be nonempty. -/
structure Poly (K : Type) where
  coeffs : List K
  ne : coeffs ≠ []
  deriving DecidableEq

variable {K : Type}

/-- `functions/_polynomial.py:40-48`, `:167-175` (`__init__`): an empty iterable becomes `(0,)`. -/
def Poly.ofCoeffs [Zero K] (cs : List K) : Poly K :=
  match cs with
  | [] => ⟨[0], by simp⟩
  | c :: cs => ⟨c :: cs, by simp⟩

/-- `functions/_polynomial.py:54-56`: `len(coeffs) - 1` (not the mathematical degree: trailing
zeros count). -/
def Poly.degree (p : Poly K) : Nat := p.coeffs.length - 1

/-- `functions/_polynomial.py:17-33` (`Monomial`): constructor check on the degree. -/
def mkMonomial (degree : Int) : Except Err Nat :=
  if degree < 0 then .error .valueError else .ok degree.toNat

/-- `functions/_polynomial.py:61-68` (`_evaluate`): start with the leading coefficient, then
`res *= x; res += coeffs[k]` for `k = degree-1, …, 0`. -/
def Poly.eval [Add K] [Mul K] (p : Poly K) (x : K) : K :=
  p.coeffs.dropLast.reverse.foldl (fun res c => res * x + c) (p.coeffs.getLast p.ne)

/-- `functions/_polynomial.py:88-91`, `:201-204`: `coeff * k for k, coeff in enumerate(coeffs[1:], 1)`. -/
def Poly.differentiate [Semiring K] (p : Poly K) : Poly K :=
  .ofCoeffs (p.coeffs.tail.mapIdx fun k c => c * ((k + 1 : ℕ) : K))

/-- `functions/_polynomial.py:93-96`, `:206-210`. -/
def Poly.integrate [Field K] (p : Poly K) : Poly K :=
  .ofCoeffs (0 :: p.coeffs.mapIdx fun i c => c / ((i + 1 : ℕ) : K))

/-- `functions/_polynomial.py:98-99`, `:212-213`. -/
def Poly.neg [Ring K] (p : Poly K) : Poly K := .ofCoeffs (p.coeffs.map fun c => -c)

/-- `itertools.zip_longest(a, b, fillvalue=0)` followed by a binary operation. -/
def zipLongest [Zero K] (f : K → K → K) : List K → List K → List K
  | [], bs => bs.map (f 0)
  | a :: as, [] => (a :: as).map (f · 0)
  | a :: as, b :: bs => f a b :: zipLongest f as bs

/-- `functions/_polynomial.py:127-136`, `:240-249`. -/
def Poly.add [Semiring K] (p q : Poly K) : Poly K := .ofCoeffs (zipLongest (· + ·) p.coeffs q.coeffs)

/-- `functions/_polynomial.py:139-148`, `:252-261`. -/
def Poly.sub [Ring K] (p q : Poly K) : Poly K := .ofCoeffs (zipLongest (· - ·) p.coeffs q.coeffs)

/-- `functions/_polynomial.py:105-107`: adding a `Constant`:
`(coeffs[0] + value,) + coeffs[1:]`. -/
def Poly.addConst [Semiring K] (p : Poly K) (v : K) : Poly K :=
  .ofCoeffs ((p.coeffs.head p.ne + v) :: p.coeffs.tail)

/-- `functions/_polynomial.py:113-120`, `:277-282`. -/
def Poly.smul [Semiring K] (a : K) (p : Poly K) : Poly K := .ofCoeffs (p.coeffs.map fun c => a * c)

/-- `functions/_polynomial.py:270`: `range(max(0, k - other.degree), min(k, self.degree) + 1)`; `range(lo, hi)` is modelled by
`List.range' lo (hi - lo)`. -/
def mulRange [Semiring K] (p q : Poly K) (k : Nat) : List Nat :=
  let lo := max 0 (k - q.degree)
  let hi := min k p.degree + 1
  List.range' lo (hi - lo)

/-- `functions/_polynomial.py:264-274`: the convolution
`sum(self[i] * other[k-i] for i in range(max(0, k - other.degree), min(k, self.degree) + 1))`
for `k in range(self.degree + other.degree + 1)`. Python indexing is in range for these `i` (`mul_in_range`);
`getD` is total indexing. -/
def Poly.mul [Semiring K] (p q : Poly K) : Poly K :=
  .ofCoeffs ((List.range (p.degree + q.degree + 1)).map fun k =>
    ((mulRange p q k).map fun i => p.coeffs.getD i 0 * q.coeffs.getD (k - i) 0).sum)

/-- `functions/_polynomial.py:285-293`: `n` zeros are prepended. -/
def Poly.mulMonomial [Semiring K] (p : Poly K) (n : Nat) : Poly K :=
  .ofCoeffs (List.replicate n 0 ++ p.coeffs)

/-- One iteration of the loop in `functions/_polynomial.py:301-306`, with state
`(quot_coeffs, rem)`. `c * other * Monomial(i - other.degree)` associates to the left.
`Fraction` division by zero raises `ZeroDivisionError`. -/
def divStep [Field K] [DecidableEq K] (d : Poly K) (st : Except Err (List K × Poly K)) (i : Nat) :
    Except Err (List K × Poly K) :=
  match st with
  | .error e => .error e
  | .ok (quot, rem) =>
    let lead := d.coeffs.getLast d.ne
    if lead = 0 then .error .zeroDivisionError
    else
      let c := rem.coeffs.getD i 0 / lead
      .ok (quot ++ [c], rem.sub ((Poly.smul c d).mulMonomial (i - d.degree)))

/-- `functions/_polynomial.py:296-308` (`__divmod__`): `for i in reversed(range(other.degree,
self.degree + 1))`. -/
def Poly.divmod [Field K] [DecidableEq K] (p d : Poly K) : Except Err (Poly K × Poly K) :=
  let idx := (List.range' d.degree (p.degree + 1 - d.degree)).reverse
  match idx.foldl (divStep d) (.ok ([], p)) with
  | .error e => .error e
  | .ok (quot, rem) => .ok (.ofCoeffs quot.reverse, rem)

/-- `functions/_polynomial.py:151-163`, `:311-323` (`__floordiv__` by a `Monomial`). -/
def Poly.floordivMonomial [Semiring K] [DecidableEq K] (p : Poly K) (n : Nat) : Except Err (Poly K) :=
  if ¬ (0 ≤ n ∧ n ≤ p.degree) then .error .valueError
  else if (p.coeffs.take n).any (fun c => c ≠ 0) then .error .valueError
  else .ok (.ofCoeffs (p.coeffs.drop n))

end LinPDE.Polys
