import Verif.Fem.Model
import Verif.Rounding.Model

/-!
# Model of the finite element basis in floating point

`functions/bases/_fem.py`, the mass matrix and the moments of constants of `linfunctls/projections/l2/_fem.py`, and the coefficients of
`linfunctls/weak_forms/_laplacian.py`, with every operation rounded. Comparisons, `np.maximum` and `np.where` are exact. The attributes of a basis are
kept in the structure of the exact model. Divisions by zero occur only if a sentinel is rounded to the neighbouring grid point; the hypothesis
`Spaced` of the theorems excludes this.
-/

namespace LinPDE.Rounding.FemFl
open Fem

/-- `functions/bases/_fem.py:8-36` (`__init__`): the sentinels are computed in floating point. -/
noncomputable def mkBasisFl (F : Fmt) (grid : List ℝ) (zeroBoundary : Bool) : Except Fem.Err Basis :=
  if grid.length < 3 then .error .valueError
  else if !zeroBoundary then
    .ok ⟨[F.rd (grid.getD 0 0 - F.rd (grid.getD 1 0 - grid.getD 0 0))] ++ grid ++
      [F.rd (grid.getD (grid.length - 1) 0 + F.rd (grid.getD (grid.length - 1) 0 - grid.getD (grid.length - 2) 0))], false⟩
  else .ok ⟨grid, true⟩

/-- `functions/bases/_fem.py:30`: `1.0 / (x_i - x_im1)`. -/
noncomputable def leftFactorsFl (F : Fmt) (b : Basis) : List ℝ := List.zipWith (fun u v => F.rd (1 / F.rd (u - v))) b.xi b.xim1

/-- `functions/bases/_fem.py:31`: `1.0 / (x_ip1 - x_i)`. -/
noncomputable def rightFactorsFl (F : Fmt) (b : Basis) : List ℝ := List.zipWith (fun u v => F.rd (1 / F.rd (u - v))) b.xip1 b.xi

open Classical in
/-- The common subexpression `functions/bases/_fem.py:59-66` and `:77-84`. -/
noncomputable def hatFl (F : Fmt) (b : Basis) (i : ℕ) (x : ℝ) : ℝ :=
  max 0 (if x < b.xi.getD i 0 then F.rd (F.rd (x - b.xim1.getD i 0) * (leftFactorsFl F b).getD i 0)
    else F.rd (F.rd (b.xip1.getD i 0 - x) * (rightFactorsFl F b).getD i 0))

open Classical in
/-- `functions/bases/_fem.py:58-72` (`_evaluate`). -/
noncomputable def evaluateFl (F : Fmt) (b : Basis) (x : ℝ) : List ℝ :=
  let res := (List.range b.len).map fun i => hatFl F b i x
  if !b.zeroBoundary then
    let res := if x < b.grid.getD 1 0 then res.set 0 0 else res
    if x > b.grid.getD (b.grid.length - 2) 0 then res.set (res.length - 1) 0 else res
  else res

open Classical in
/-- `functions/bases/_fem.py:74-92` (`eval_elem`). -/
noncomputable def evalElemFl (F : Fmt) (b : Basis) (idx : ℤ) (x : ℝ) : Except Fem.Err ℝ := do
  let i ← Basis.pyIndex b.len idx
  let res := hatFl F b i x
  if !b.zeroBoundary then
    let res := if x < b.grid.getD 1 0 then 0 else res
    let res := if x > b.grid.getD (b.grid.length - 2) 0 then 0 else res
    .ok res
  else .ok res

/-- `projections/l2/_fem.py:45`: `diag`, before the boundary correction. -/
noncomputable def massDiag0Fl (F : Fmt) (b : Basis) : List ℝ := List.zipWith (fun u v => F.rd (F.rd (u - v) / 3)) b.xip1 b.xim1

/-- `projections/l2/_fem.py:45-50`: `diag`. -/
noncomputable def massDiagFl (F : Fmt) (b : Basis) : List ℝ :=
  if !b.zeroBoundary then
    ((massDiag0Fl F b).set 0 (F.rd (F.rd (b.xip1.getD 0 0 - b.xi.getD 0 0) / 3))).set (b.len - 1)
      (F.rd (F.rd (b.xi.getD (b.len - 1) 0 - b.xim1.getD (b.len - 1) 0) / 3))
  else massDiag0Fl F b

/-- `projections/l2/_fem.py:46`: `offdiag`. -/
noncomputable def massOffdiagFl (F : Fmt) (b : Basis) : List ℝ :=
  List.zipWith (fun u v => F.rd (F.rd (u - v) / 6)) (b.xip1.take (b.len - 1)) (b.xi.take (b.len - 1))

/-- `projections/l2/_fem.py:52-57`: the matrix inverted in `normalizer`. -/
noncomputable def massMatrixFl (F : Fmt) (b : Basis) : Matrix (Fin b.len) (Fin b.len) ℝ :=
  tridiag b.len (massOffdiagFl F b) (massDiagFl F b) (massOffdiagFl F b)

/-- `projections/l2/_fem.py:80-86`: the moments of a constant, before the normaliser. -/
noncomputable def momentsFl (F : Fmt) (b : Basis) (value : ℝ) : List ℝ :=
  let res := List.zipWith (fun u v => F.rd (F.rd (value / 2) * F.rd (u - v))) b.xip1 b.xim1
  if !b.zeroBoundary then
    (res.set 0 (F.rd (F.rd (value / 2) * F.rd (b.xip1.getD 0 0 - b.xi.getD 0 0)))).set (b.len - 1)
      (F.rd (F.rd (value / 2) * F.rd (b.xi.getD (b.len - 1) 0 - b.xim1.getD (b.len - 1) 0)))
  else res

/-- `weak_forms/_laplacian.py:37`: `dist_normalizer`. -/
noncomputable def distNormalizerFl (F : Fmt) (grid : List ℝ) : List ℝ :=
  List.zipWith (fun u v => F.rd (1 / F.rd (u - v))) (grid.drop 1) (grid.take (grid.length - 1))

/-- `weak_forms/_laplacian.py:39`: `diag`. -/
noncomputable def lapDiagFl (F : Fmt) (dn : List ℝ) : List ℝ :=
  List.zipWith (fun u v => F.rd (-u - v)) (dn.take (dn.length - 1)) (dn.drop 1)

open Classical in
/-- `weak_forms/_laplacian.py:13-16, 28-52`. -/
noncomputable def weakLaplacianFl (F : Fmt) (test trial : Basis) : Except Fem.Err (Matrix (Fin test.len) (Fin trial.len) ℝ) :=
  if !test.zeroBoundary then .error .assertionError
  else if trial.zeroBoundary then .error .notImplementedError
  else if trial.len = test.len + 2 ∧ (trial.grid.take (trial.grid.length - 1)).drop 1 = test.grid then
    let dn := distNormalizerFl F trial.grid
    .ok (upperDiags test.len trial.len (dn.take (dn.length - 1)) (lapDiagFl F dn) (dn.drop 1))
  else .error .notImplementedError

end LinPDE.Rounding.FemFl
