import Verif.Poly.Model
import Verif.Coeff.Model
import Verif.Op.Model
import Mathlib.Data.Nat.Digits.Defs
import Mathlib.Data.Rat.Defs

/-!
# Model of the printed forms (`__repr__`) of polynomials, multi-indices and operators

Strings are lists of characters.  `str` of an integer and of a `Fraction` are modelled; the printed form of a float is a
parameter (Python prints different floats differently, without spaces).
-/

namespace LinPDE.Printed
open LinPDE.Polys LinPDE.Coeff LinPDE.Ops LinPDE.Nd

abbrev Str := List Char

/-- `str` of a natural number: decimal digits, most significant first. -/
def natStr (n : ℕ) : Str := if n = 0 then ['0'] else (Nat.digits 10 n).reverse.map Nat.digitChar

/-- `str` of an integer. -/
def intStr (z : ℤ) : Str := if z < 0 then '-' :: natStr z.natAbs else natStr z.natAbs

/-- `str` of a `fractions.Fraction`: `a` or `a/b`. -/
def fracStr (q : ℚ) : Str := if q.den = 1 then intStr q.num else intStr q.num ++ '/' :: natStr q.den

/-- `sep.join(…)`. -/
def join (sep : Str) : List Str → Str
  | [] => []
  | [w] => w
  | w :: ws => w ++ sep ++ join sep ws

/-- `functions/_polynomial.py:186-196`: the term of degree `k` of a `RationalPolynomial`. -/
def termStr (k : ℕ) (c : ℚ) : Str :=
  if k = 0 then fracStr c
  else (if 0 < c then ['+'] else ['-']) ++ (if |c| ≠ 1 then ' ' :: fracStr |c| else []) ++ ([' ', 'x', '^'] ++ natStr k)

/-- `functions/_polynomial.py:181-199` (`RationalPolynomial.__repr__`). -/
def ratStr (p : Poly ℚ) : Str :=
  if p.coeffs.all (· = 0) then ['0']
  else join [' '] ((p.coeffs.zipIdx.filter fun t => t.1 ≠ 0).map fun t => termStr t.2 t.1)

/-- `functions/_polynomial.py:58-59` (`Polynomial.__repr__`); `fs` prints a float. -/
def polyStr {K : Type} (fs : K → Str) (p : Poly K) : Str :=
  join [' ', '+', ' '] (p.coeffs.zipIdx.map fun t => fs t.1 ++ [' ', '*', ' ', 'x', '^'] ++ natStr t.2)

/-- Nested lists of numbers, as returned by `ndarray.tolist`. -/
inductive Nested
  | num (n : ℕ)
  | arr (l : List Nested)

/-- `ndarray.tolist` for an array of the given shape whose entries are `g 0, g 1, …` in C order. -/
def tolist : Shp → (ℕ → ℕ) → Nested
  | [], g => .num (g 0)
  | n :: ns, g => .arr ((List.range n).map fun i => tolist ns fun j => g (i * ns.prod + j))

mutual
/-- `str` of a nested list. -/
def Nested.str : Nested → Str
  | .num n => natStr n
  | .arr [] => ['[', ']']
  | .arr (x :: xs) => '[' :: (x.str ++ restStr xs)
/-- The remaining entries of a list and the closing bracket. -/
def restStr : List Nested → Str
  | [] => [']']
  | x :: xs => ',' :: ' ' :: (x.str ++ restStr xs)
end

/-- `linfuncops/diffops/_coefficients.py:61-62` (`MultiIndex.__repr__`). -/
def miStr (a : MI) : Str :=
  ['M', 'u', 'l', 't', 'i', 'I', 'n', 'd', 'e', 'x', '('] ++ (tolist a.shape fun p => a.data.getD p 0).str ++ [')']

/-- `linfuncops/diffops/_partial_derivative.py:112-113` (`PartialDerivative.__repr__`); `cls` is the name of the class. -/
def pdStr (cls : Str) (a : MI) : Str := cls ++ ['(', 'm', 'u', 'l', 't', 'i', '_', 'i', 'n', 'd', 'e', 'x', '='] ++ miStr a ++ [')']

mutual
/-- `linfuncops/_arithmetic.py:56-57, 108-109, 138-139`, `linfuncops/diffops/_arithmetic.py:61-62`: the printed form of an operator.
`fs` prints a float, `nm` an operator of another class. -/
def opStr {X : Type} (fs : ℝ → Str) (nm : Op X → Str) : Op X → Str
  | .ident s => nm (.ident s)
  | .base i o T d => nm (.base i o T d)
  | .scaled L c => fs c ++ [' ', '*', ' '] ++ opStr fs nm L
  | .scaledDiff L c => fs c ++ [' ', '*', ' '] ++ opStr fs nm L
  | .sum _ _ ops => join [' ', '+', ' '] (opStrs fs nm ops)
  | .comp _ _ ops => join [' ', '@', ' '] (opStrs fs nm ops)
/-- The printed forms of the parts. -/
def opStrs {X : Type} (fs : ℝ → Str) (nm : Op X → Str) : List (Op X) → List Str
  | [] => []
  | L :: Ls => opStr fs nm L :: opStrs fs nm Ls
end

end LinPDE.Printed
