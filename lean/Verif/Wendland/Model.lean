import Verif.Poly.Model
import Mathlib.Analysis.Real.Sqrt
import Mathlib.Algebra.BigOperators.Fin

/-!
# Model of `randprocs/covfuncs/_wendland.py`

Coefficients are exact rationals as in the code (`fractions.Fraction`); evaluation uses their real values (floats
idealised). The smoothness `k` and the dimension `d` are natural numbers.
-/

namespace LinPDE.Wendland
open LinPDE.Polys (Poly)

/-- Exceptions. -/
inductive Err
  | assertionError
  | zeroDivisionError
  deriving DecidableEq

/-- `_wendland.py:237-245`: iterations `k, k+1, …` of the loop of `pascal_row`, with the current entry; `steps` remain. -/
def pascalLoop (n : ℕ) : ℕ → ℕ → ℚ → Except Err (List ℚ)
  | 0, _, _ => .ok []
  | steps + 1, k, c => do
    let c' := c * (((n : ℚ) + 1 - k) / k)
    if c'.den ≠ 1 then .error .assertionError
    else
      let rest ← pascalLoop n steps (k + 1) c'
      .ok (c' :: rest)

/-- `_wendland.py:234-245` (`pascal_row`). -/
def pascalRow (n : ℕ) : Except Err (List ℚ) := do
  let rest ← pascalLoop n n 1 1
  .ok (1 :: rest)

/-- `_wendland.py:163-172` (`phi_l_poly`): alternating binomial coefficients. -/
def phiCoeffs (l : ℕ) : Except Err (List ℚ) := do
  let row ← pascalRow l
  .ok (row.mapIdx fun j c => if j % 2 = 0 then c else -c)

/-- `_wendland.py:129-134`: one integration step on the coefficients. -/
def integrateStep (cs : List ℚ) : List ℚ :=
  (cs.mapIdx fun (j : ℕ) (c : ℚ) => c / ((j : ℚ) + 2)).sum :: 0 ::
    cs.mapIdx fun (j : ℕ) (c : ℚ) => -c / ((j : ℚ) + 2)

/-- `_wendland.py:157-161` (`l`). -/
def ell (d k : ℕ) : ℕ := d / 2 + k + 1

/-- `_wendland.py:136-137`: division of all coefficients by the first. -/
def normalize (cs : List ℚ) : Except Err (List ℚ) :=
  if cs.headD 0 = 0 then .error .zeroDivisionError else .ok (cs.map fun c => c / cs.headD 0)

/-- `_wendland.py:121-141` (`WendlandPolynomial.__init__`): initialise, integrate `k` times, normalise, check the degree. -/
def wendlandPoly (d k : ℕ) : Except Err (Poly ℚ) := do
  let cs ← phiCoeffs (ell d k)
  let cs ← normalize (integrateStep^[k] cs)
  let p := Poly.ofCoeffs cs
  if p.degree = ell d k + 2 * k then .ok p else .error .assertionError

/-- Float coefficients of a rational polynomial, `functions/_polynomial.py:40-44, 175`. -/
noncomputable def realPoly (p : Poly ℚ) : Poly ℝ := .ofCoeffs (p.coeffs.map fun c : ℚ => (c : ℝ))

open Classical in
/-- `_wendland.py:213-216` (`WendlandFunction._evaluate`). -/
noncomputable def wendlandFun (p : Poly ℚ) (r : ℝ) : ℝ := if r ≤ 1 then (realPoly p).eval r else 0

/-- `_wendland.py:43-60`: the covariance function, with one lengthscale per dimension. -/
structure WendlandCov (d : ℕ) where
  poly : Poly ℚ
  lengthscales : Fin d → ℝ

/-- `_wendland.py:43-60` (`WendlandCovarianceFunction.__init__`). -/
def mkWendland (d k : ℕ) (lengthscales : Fin d → ℝ) : Except Err (WendlandCov d) := do
  let p ← wendlandPoly d k
  .ok ⟨p, lengthscales⟩

/-- `_wendland.py:70-81` (`_scale_factors`, `_evaluate`); `_euclidean_distances` is
`sqrt(sum(((x0 - x1) * scale_factors)^2))`. -/
noncomputable def WendlandCov.eval {d : ℕ} (k : WendlandCov d) (x0 x1 : Fin d → ℝ) : ℝ :=
  wendlandFun k.poly (Real.sqrt (∑ i, ((x0 i - x1 i) * (1 / k.lengthscales i)) ^ 2))

/-- The same with `x1 = None`, where `_euclidean_distances` is zero. -/
noncomputable def WendlandCov.evalNone {d : ℕ} (k : WendlandCov d) : ℝ := wendlandFun k.poly 0

end LinPDE.Wendland
