import Mathlib.MeasureTheory.Integral.IntervalIntegral.Basic
import Mathlib.LinearAlgebra.Matrix.NonsingularInverse
import Mathlib.Analysis.SpecialFunctions.Exp

/-! # Finite element basis, its L2 projection and the weak Laplacian

Model of `/repo/src/linpde_gp/functions/bases/_fem.py`, `linfunctls/projections/l2/_fem.py`,
`linfunctls/weak_forms/_laplacian.py` and of the projections of covariance functions in
`randprocs/crosscov/linfunctls/projections.py`.  Floats are real numbers; `scipy.integrate.quad`/`dblquad` are the exact
integrals; evaluation is pointwise (numpy broadcasts over the batch); grids are one-dimensional arrays. -/

namespace LinPDE.Fem

/-- Exceptions raised by the modelled functions. -/
inductive Err
  | valueError
  | indexError
  | assertionError
  | notImplementedError
deriving DecidableEq, Repr

/-- `_fem.py:7-36`: the attributes `_grid` (with sentinels) and `_zero_boundary`. -/
structure Basis where
  grid : List ℝ
  zeroBoundary : Bool

/-- `_fem.py:8-36` (`__init__`). -/
noncomputable def mkBasis (grid : List ℝ) (zeroBoundary : Bool) : Except Err Basis :=
  if grid.length < 3 then .error .valueError
  else if !zeroBoundary then
    .ok ⟨[grid.getD 0 0 - (grid.getD 1 0 - grid.getD 0 0)] ++ grid ++
      [grid.getD (grid.length - 1) 0 + (grid.getD (grid.length - 1) 0 - grid.getD (grid.length - 2) 0)], false⟩
  else .ok ⟨grid, true⟩

namespace Basis

/-- `_fem.py:33-36, 106-107` (`output_shape`, `__len__`). -/
def len (b : Basis) : ℕ := b.grid.length - 2

/-- `_fem.py:42-44` (`x_im1`): `grid[:-2]`. -/
def xim1 (b : Basis) : List ℝ := b.grid.take (b.grid.length - 2)

/-- `_fem.py:46-48` (`x_i`): `grid[1:-1]`. -/
def xi (b : Basis) : List ℝ := (b.grid.take (b.grid.length - 1)).drop 1

/-- `_fem.py:50-52` (`x_ip1`): `grid[2:]`. -/
def xip1 (b : Basis) : List ℝ := b.grid.drop 2

/-- `_fem.py:30`: `1.0 / (x_i - x_im1)`. -/
noncomputable def leftFactors (b : Basis) : List ℝ := List.zipWith (fun u v => 1 / (u - v)) b.xi b.xim1

/-- `_fem.py:31`: `1.0 / (x_ip1 - x_i)`. -/
noncomputable def rightFactors (b : Basis) : List ℝ := List.zipWith (fun u v => 1 / (u - v)) b.xip1 b.xi

open Classical in
/-- The common subexpression `_fem.py:59-66` and `:77-84`. -/
noncomputable def hatAt (b : Basis) (i : ℕ) (x : ℝ) : ℝ :=
  max 0 (if x < b.xi.getD i 0 then (x - b.xim1.getD i 0) * b.leftFactors.getD i 0
    else (b.xip1.getD i 0 - x) * b.rightFactors.getD i 0)

open Classical in
/-- `_fem.py:58-72` (`_evaluate`). -/
noncomputable def evaluate (b : Basis) (x : ℝ) : List ℝ :=
  let res := (List.range b.len).map fun i => b.hatAt i x
  if !b.zeroBoundary then
    let res := if x < b.grid.getD 1 0 then res.set 0 0 else res
    if x > b.grid.getD (b.grid.length - 2) 0 then res.set (res.length - 1) 0 else res
  else res

/-- Index into an axis of length `n`, with python's negative indices. -/
def pyIndex (n : ℕ) (idx : ℤ) : Except Err ℕ :=
  if 0 ≤ idx ∧ idx < n then .ok idx.toNat
  else if -(n : ℤ) ≤ idx ∧ idx < 0 then .ok (idx + n).toNat
  else .error .indexError

open Classical in
/-- `_fem.py:74-92` (`eval_elem`). -/
noncomputable def evalElem (b : Basis) (idx : ℤ) (x : ℝ) : Except Err ℝ := do
  let i ← pyIndex b.len idx
  let res := b.hatAt i x
  if !b.zeroBoundary then
    let res := if x < b.grid.getD 1 0 then 0 else res
    let res := if x > b.grid.getD (b.grid.length - 2) 0 then 0 else res
    .ok res
  else .ok res

/-- `_fem.py:94-104` (`support_bounds`). -/
noncomputable def supportBounds (b : Basis) (idx : ℤ) : Except Err (ℝ × ℝ) := do
  if ¬ (-(b.len : ℤ) ≤ idx ∧ idx < b.len) then .error .assertionError
  else if !b.zeroBoundary ∧ (idx = 0 ∨ idx = -(b.len : ℤ)) then .ok (b.xi.getD 0 0, b.xip1.getD 0 0)
  else if !b.zeroBoundary ∧ (idx = (b.len : ℤ) - 1 ∨ idx = -1) then
    .ok (b.xim1.getD (b.len - 1) 0, b.xi.getD (b.len - 1) 0)
  else do
    let i ← pyIndex b.len idx
    .ok (b.xim1.getD i 0, b.xip1.getD i 0)

end Basis

/-! ## L2 projection -/

/-- `scipy.sparse.diags((lower, diag, upper), (-1, 0, 1)).toarray()`. -/
def tridiag (n : ℕ) (lower diag upper : List ℝ) : Matrix (Fin n) (Fin n) ℝ := fun i j =>
  if i.val = j.val then diag.getD i.val 0
  else if i.val = j.val + 1 then lower.getD j.val 0
  else if i.val + 1 = j.val then upper.getD i.val 0
  else 0

/-- `projections/l2/_fem.py:41-46`: `diag`, before the boundary correction. -/
noncomputable def massDiag0 (b : Basis) : List ℝ := List.zipWith (fun u v => (u - v) / 3) b.xip1 b.xim1

/-- `projections/l2/_fem.py:45-50`: `diag`. -/
noncomputable def massDiag (b : Basis) : List ℝ :=
  if !b.zeroBoundary then
    ((massDiag0 b).set 0 ((b.xip1.getD 0 0 - b.xi.getD 0 0) / 3)).set (b.len - 1)
      ((b.xi.getD (b.len - 1) 0 - b.xim1.getD (b.len - 1) 0) / 3)
  else massDiag0 b

/-- `projections/l2/_fem.py:46`: `offdiag`. -/
noncomputable def massOffdiag (b : Basis) : List ℝ :=
  List.zipWith (fun u v => (u - v) / 6) (b.xip1.take (b.len - 1)) (b.xi.take (b.len - 1))

/-- `projections/l2/_fem.py:52-57`: the matrix inverted in `normalizer`. -/
noncomputable def massMatrix (b : Basis) : Matrix (Fin b.len) (Fin b.len) ℝ :=
  tridiag b.len (massOffdiag b) (massDiag b) (massOffdiag b)

/-- `projections/l2/_fem.py:35-57` (`normalizer`). -/
noncomputable def normalizer (b : Basis) (normalized : Bool) : Matrix (Fin b.len) (Fin b.len) ℝ :=
  if !normalized then 1 else (massMatrix b)⁻¹

/-- `projections/l2/_fem.py:65-76`: the `idx`-th integral, `quad` over the support. -/
noncomputable def quadElem (b : Basis) (f : ℝ → ℝ) (idx : ℤ) : Except Err ℝ := do
  let (lo, hi) ← b.supportBounds idx
  let _ ← b.evalElem idx lo
  .ok (∫ x in lo..hi, (match b.evalElem idx x with | .ok v => v | .error _ => 0) * f x)

/-- `projections/l2/_fem.py:63-78` (`__call__` on a function). -/
noncomputable def projectFunction (b : Basis) (normalized : Bool) (f : ℝ → ℝ) : Except Err (Fin b.len → ℝ) := do
  let res ← (List.range b.len).mapM fun (idx : ℕ) => quadElem b f idx
  .ok ((normalizer b normalized).mulVec fun i => res.getD i.val 0)

/-- `projections/l2/_fem.py:80-88` (`__call__` on a constant function). -/
noncomputable def projectConstant (b : Basis) (normalized : Bool) (value : ℝ) : Fin b.len → ℝ :=
  let res := List.zipWith (fun u v => (value / 2) * (u - v)) b.xip1 b.xim1
  let res := if !b.zeroBoundary then
      (res.set 0 ((value / 2) * (b.xip1.getD 0 0 - b.xi.getD 0 0))).set (b.len - 1)
        ((value / 2) * (b.xi.getD (b.len - 1) 0 - b.xim1.getD (b.len - 1) 0))
    else res
  (normalizer b normalized).mulVec fun i => res.getD i.val 0

/-! ## Weak Laplacian -/

/-- `scipy.sparse.diags((d0, d1, d2), offsets=(0, 1, 2), shape=(m, n))`: entry `(i, i + k)` is `dk[i]`. -/
def upperDiags (m n : ℕ) (d0 d1 d2 : List ℝ) : Matrix (Fin m) (Fin n) ℝ := fun i j =>
  if j.val = i.val then d0.getD i.val 0
  else if j.val = i.val + 1 then d1.getD i.val 0
  else if j.val = i.val + 2 then d2.getD i.val 0
  else 0

/-- `_laplacian.py:37`: `dist_normalizer = 1 / (grid[1:] - grid[:-1])`. -/
noncomputable def distNormalizer (grid : List ℝ) : List ℝ :=
  List.zipWith (fun u v => 1 / (u - v)) (grid.drop 1) (grid.take (grid.length - 1))

/-- `_laplacian.py:39`: `diag`. -/
noncomputable def lapDiag (dn : List ℝ) : List ℝ :=
  List.zipWith (fun u v => -u - v) (dn.take (dn.length - 1)) (dn.drop 1)

open Classical in
/-- `_laplacian.py:13-16, 28-52`: `WeakForm_Laplacian(test)(trial)`; the constructor asserts that the test basis vanishes
at the boundary, and the final fallback raises `NotImplementedError`. -/
noncomputable def weakLaplacian (test trial : Basis) : Except Err (Matrix (Fin test.len) (Fin trial.len) ℝ) :=
  if !test.zeroBoundary then .error .assertionError
  else if trial.zeroBoundary then .error .notImplementedError
  else if trial.len = test.len + 2 ∧ (trial.grid.take (trial.grid.length - 1)).drop 1 = test.grid then
    let dn := distNormalizer trial.grid
    .ok (upperDiags test.len trial.len (dn.take (dn.length - 1)) (lapDiag dn) (dn.drop 1))
  else .error .notImplementedError

/-! ## Projections of covariance functions -/

/-- `crosscov/linfunctls/projections.py:46-71`: the cross-covariance between the process and its projection, at `x`. -/
noncomputable def crosscovProjection (b : Basis) (normalized : Bool) (k : ℝ → ℝ → ℝ) (x : ℝ) :
    Except Err (Fin b.len → ℝ) := do
  let res ← (List.range b.len).mapM fun (idx : ℕ) => quadElem b (k x) idx
  .ok ((normalizer b normalized).mulVec fun i => res.getD i.val 0)

/-- `crosscov/linfunctls/projections.py:92-103` (`kernel_variance`). -/
noncomputable def kernelVariance (b0 b1 : Basis) (k : ℝ → ℝ → ℝ) (i0 i1 : ℤ) : Except Err ℝ := do
  let (l0, h0) ← b0.supportBounds i0
  let (l1, h1) ← b1.supportBounds i1
  let _ ← b0.evalElem i0 l0
  let _ ← b1.evalElem i1 l1
  .ok (∫ x0 in l0..h0, ∫ x1 in l1..h1,
    (match b0.evalElem i0 x0 with | .ok v => v | .error _ => 0) * k x0 x1 *
      (match b1.evalElem i1 x1 with | .ok v => v | .error _ => 0))

/-- `crosscov/linfunctls/projections.py:76-115`: covariance of two projections. -/
noncomputable def projectionCov (b0 b1 : Basis) (norm0 norm1 : Bool) (k : ℝ → ℝ → ℝ) :
    Except Err (Matrix (Fin b0.len) (Fin b1.len) ℝ) := do
  let res ← (List.range b0.len).mapM fun (i0 : ℕ) => (List.range b1.len).mapM fun (i1 : ℕ) => kernelVariance b0 b1 k i0 i1
  let r : Matrix (Fin b0.len) (Fin b1.len) ℝ := Matrix.of fun i j => (res.getD i.val []).getD j.val 0
  -- `normalizer(res, axis=-1)`, then `normalizer(res, axis=0)`
  let r : Matrix (Fin b0.len) (Fin b1.len) ℝ := Matrix.of fun i => (normalizer b1 norm1).mulVec (r i)
  .ok fun i j => (normalizer b0 norm0).mulVec (fun i => r i j) i

/-- `crosscov/linfunctls/projections.py:137-143` (`_antideriv`, `_aux_int`). -/
noncomputable def auxAntideriv (x t0 alpha t : ℝ) : ℝ :=
  -((t - x + 2 / alpha) * (t - t0 + 1 / alpha) + 1 / alpha ^ 2) * Real.exp (-alpha * (t - x))

/-- `crosscov/linfunctls/projections.py:137-143` (`_aux_int`). -/
noncomputable def auxInt (x a b t0 alpha : ℝ) : ℝ := auxAntideriv x t0 alpha b - auxAntideriv x t0 alpha a

/-- `crosscov/linfunctls/projections.py:149-154` (`int_im1_i`), component `i`. -/
noncomputable def intLeft (b : Basis) (alpha x : ℝ) (i : ℕ) : ℝ :=
  (auxInt x (max (b.xim1.getD i 0) x) (max (b.xi.getD i 0) x) (b.xim1.getD i 0) alpha +
    auxInt x (min (b.xim1.getD i 0) x) (min (b.xi.getD i 0) x) (b.xim1.getD i 0) (-alpha)) /
      (b.xi.getD i 0 - b.xim1.getD i 0)

/-- `crosscov/linfunctls/projections.py:156-159` (`int_i_ip1`), component `i`. -/
noncomputable def intRight (b : Basis) (alpha x : ℝ) (i : ℕ) : ℝ :=
  -(auxInt x (max (b.xi.getD i 0) x) (max (b.xip1.getD i 0) x) (b.xip1.getD i 0) alpha +
    auxInt x (min (b.xi.getD i 0) x) (min (b.xip1.getD i 0) x) (b.xip1.getD i 0) (-alpha)) /
      (b.xip1.getD i 0 - b.xi.getD i 0)

/-- `crosscov/linfunctls/projections.py:134-172` (`Matern32_L2Projection...._evaluate`). -/
noncomputable def matern32Projection (b : Basis) (normalized : Bool) (lengthscale x : ℝ) : Fin b.len → ℝ :=
  let alpha := Real.sqrt 3 / lengthscale
  let res := (List.range b.len).map fun i => intLeft b alpha x i + intRight b alpha x i
  let res := if !b.zeroBoundary then
      (res.set 0 (intRight b alpha x 0)).set (b.len - 1) (intLeft b alpha x (b.len - 1))
    else res
  (normalizer b normalized).mulVec fun i => res.getD i.val 0

end LinPDE.Fem
