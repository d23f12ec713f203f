import Verif.Coeff.Model
import Verif.Nd.Basic
import Mathlib.Data.Real.Basic
import Mathlib.Algebra.BigOperators.Group.Finset.Basic

/-!
# Parametric Gaussian processes

Model of `randprocs/_gaussian_process/_parametric.py` and `randprocs/covfuncs/_parametric.py`.

A point of the input space is an element of `X`; an input array is a batch shape and a point for every multi-index.

Outside contracts: ProbNum's `Function.__call__` asserts that the result of `_evaluate` has shape `batch + output_shape`,
`CovarianceFunction.__call__` broadcasts the two batch shapes (`ValueError` if they do not broadcast) and asserts the shape of
the result; `linop(a, axis=-1)` multiplies along the last axis; a feature function that returns linear operators returns one
of shape `(N, n)`, so its batch has one axis.
-/

namespace LinPDE.Param
open LinPDE.Nd

/-- Exceptions; `other` stands for an exception whose class is not fixed by the contracts above. -/
inductive Err
  | assertionError
  | valueError
  | other
deriving DecidableEq, Repr

/-- An array of points. -/
structure Pts (X : Type) where
  batch : Shp
  pt : List ℕ → X

/-- A feature function with output shape `()` or `(n,)`; `linop` tells whether it returns a linear operator. -/
inductive Feat (X : Type)
  | scalar (f : X → ℝ)
  | vector (n : ℕ) (linop : Bool) (f : X → ℕ → ℝ)

/-- The weights, a Normal of shape `()` or `(n,)`. -/
inductive Wts
  | scalar (m v : ℝ)
  | vector (n : ℕ) (m : ℕ → ℝ) (c : ℕ → ℕ → ℝ)

variable {X : Type}

/-- Index into an array of shape `b` that was broadcast: drop leading axes, clamp axes of length one. -/
def bidx (b : Shp) (i : List ℕ) : List ℕ :=
  List.zipWith (fun n j => if n = 1 then 0 else j) b (i.drop (i.length - b.length))

/-- The shape assertion of `Function.__call__` and `CovarianceFunction.__call__`. -/
def checkShape (s : Shp) (a : Arr ℝ) : Except Err (Arr ℝ) := if a.shape = s then .ok a else .error .assertionError

/-- `feature_fn(x)` for vector features: the array of features. -/
def featCall (n : ℕ) (linop : Bool) (f : X → ℕ → ℝ) (x : Pts X) : Except Err (Arr ℝ) :=
  if linop ∧ x.batch.length ≠ 1 then .error .assertionError
  else .ok ⟨x.batch ++ [n], fun i => f (x.pt (i.take x.batch.length)) (i.getD x.batch.length 0)⟩

/-- `a @ v` for a vector `v` of length `m` (NumPy or a linear operator). -/
def matVec (a : Arr ℝ) (m : ℕ) (v : ℕ → ℝ) : Except Err (Arr ℝ) :=
  if a.shape.getLast? ≠ some m then .error .valueError
  else .ok ⟨a.shape.dropLast, fun i => ∑ j ∈ Finset.range m, a.get (i ++ [j]) * v j⟩

/-- `_parametric.py:44-48` (`Mean._evaluate`). -/
def meanEval (w : Wts) (φ : Feat X) (x : Pts X) : Except Err (Arr ℝ) :=
  match φ, w with
  | .scalar f, .scalar m _ => .ok ⟨x.batch, fun i => f (x.pt i) * m⟩
  | .scalar f, .vector n m _ =>
    match Coeff.bcast x.batch [n] with
    | none => .error .valueError
    | some s => .ok ⟨s, fun i => f (x.pt (bidx x.batch i)) * m (if n = 1 then 0 else i.getLastD 0)⟩
  | .vector n l f, .vector m μ _ => do
    let a ← featCall n l f x
    matVec a m μ
  | .vector n l f, .scalar _ _ => do
    let _ ← featCall n l f x
    .error .valueError

/-- `mean(x)`: `_evaluate` with the shape assertion (`output_shape=()`, line 42). -/
def meanCall (w : Wts) (φ : Feat X) (x : Pts X) : Except Err (Arr ℝ) := do
  let a ← meanEval w φ x
  checkShape x.batch a

/-- `linop(a, axis=-1)` and `a @ S` for a square matrix of size `m`: `right = true` is `a @ S`. -/
def mulLast (right : Bool) (a : Arr ℝ) (m : ℕ) (c : ℕ → ℕ → ℝ) : Except Err (Arr ℝ) :=
  if a.shape.getLast? ≠ some m then .error .valueError
  else .ok ⟨a.shape, fun i => ∑ k ∈ Finset.range m,
    a.get (i.dropLast ++ [k]) * (if right then c k (i.getLastD 0) else c (i.getLastD 0) k)⟩

/-- `(a[..., None, :] @ b[..., :, None])[..., 0, 0]`, the batch axes broadcast. -/
def rowDot (a b : Arr ℝ) : Except Err (Arr ℝ) :=
  if a.shape.getLast? ≠ b.shape.getLast? then .error .valueError
  else match Coeff.bcast a.shape.dropLast b.shape.dropLast with
    | none => .error .valueError
    | some s => .ok ⟨s, fun i => ∑ k ∈ Finset.range (a.shape.getLastD 0),
        a.get (bidx a.shape.dropLast i ++ [k]) * b.get (bidx b.shape.dropLast i ++ [k])⟩

/-- `_parametric.py:66-67` (scalar features): `phi_x0 if x1 is None else feature_fn(x1)[..., None]`. -/
def scalarSecond (f : X → ℝ) (p0 : Arr ℝ) : Option (Pts X) → Arr ℝ
  | none => p0
  | some x1 => ⟨x1.batch ++ [1], fun i => f (x1.pt i.dropLast)⟩

/-- `_parametric.py:70-71` and `covfuncs/_parametric.py:22`: `phi_x0 if x1 is None else feature_fn(x1)`. -/
def featSecond (n : ℕ) (l : Bool) (f : X → ℕ → ℝ) (p0 : Arr ℝ) : Option (Pts X) → Except Err (Arr ℝ)
  | none => .ok p0
  | some x1 => featCall n l f x1

/-- `_parametric.py:64-97` (`CovarianceFunction._evaluate`).  Both feature arrays come from the same feature function, so
that they are both linear operators or both arrays. -/
def covEval (w : Wts) (φ : Feat X) (x0 : Pts X) (x1 : Option (Pts X)) : Except Err (Arr ℝ) :=
  match φ, w with
  | .scalar f, .scalar _ v => do
    let p0 : Arr ℝ := ⟨x0.batch ++ [1], fun i => f (x0.pt i.dropLast)⟩
    let s1 ← mulLast false (scalarSecond f p0 x1) 1 fun _ _ => v
    rowDot p0 s1
  -- `self._weights.cov[None, None]` has four axes: `aslinop` raises
  | .scalar _, .vector _ _ _ => .error .other
  | .vector n l f, .vector m _ c => do
    let p0 ← featCall n l f x0
    let p1 ← featSecond n l f p0 x1
    if l then
      let s0 ← mulLast true p0 m c
      rowDot s0 p1
    else
      let s1 ← mulLast false p1 m c
      rowDot p0 s1
  -- a product with, or `aslinop` of, a scalar
  | .vector _ _ _, .scalar _ _ => .error .other

/-- `cov(x0, x1)`: broadcasting and shape assertion of `CovarianceFunction.__call__`. -/
def covCall (w : Wts) (φ : Feat X) (x0 : Pts X) (x1 : Option (Pts X)) : Except Err (Arr ℝ) :=
  match Coeff.bcast x0.batch ((x1.getD x0).batch) with
  | none => .error .valueError
  | some s => do
    let a ← covEval w φ x0 x1
    checkShape s a

/-- A parametric Gaussian process: `_parametric.py:9-30`. -/
structure GP (X : Type) where
  w : Wts
  φ : Feat X
  mean : Option (X → ℝ)

/-- `_parametric.py:10-30` (`__init__`): nothing is checked. -/
def mkGP (w : Wts) (φ : Feat X) (mean : Option (X → ℝ)) : GP X := ⟨w, φ, mean⟩

/-- `gp.mean(x)`. -/
def GP.meanAt (g : GP X) (x : Pts X) : Except Err (Arr ℝ) :=
  match g.mean with
  | some m => .ok ⟨x.batch, fun i => m (x.pt i)⟩
  | none => meanCall g.w g.φ x

/-- `gp.cov(x0, x1)`. -/
def GP.covAt (g : GP X) (x0 : Pts X) (x1 : Option (Pts X)) : Except Err (Arr ℝ) := covCall g.w g.φ x0 x1

/-- A `ParametricCovarianceFunction`: `covfuncs/_parametric.py:7-18`; the covariance is given by its shapes and matrix. -/
structure PCov (X : Type) where
  n : ℕ
  f : X → ℕ → ℝ
  shape0 : Shp
  c : ℕ → ℕ → ℝ

/-- `covfuncs/_parametric.py:8-18` (`__init__`) for a basis with output shape `(n,)`; only `shape1` is checked. -/
def mkPCov (n : ℕ) (f : X → ℕ → ℝ) (shape0 shape1 : Shp) (c : ℕ → ℕ → ℝ) : Except Err (PCov X) :=
  if shape1 ≠ [n] then .error .valueError else .ok ⟨n, f, shape0, c⟩

/-- `linop(a, axis=-1)` for a linear operator with `r` rows and `m` columns. -/
def linopLast (a : Arr ℝ) (r m : ℕ) (c : ℕ → ℕ → ℝ) : Except Err (Arr ℝ) :=
  if a.shape.getLast? ≠ some m then .error .valueError
  else .ok ⟨a.shape.dropLast ++ [r], fun i => ∑ k ∈ Finset.range m, a.get (i.dropLast ++ [k]) * c (i.getLastD 0) k⟩

/-- `covfuncs/_parametric.py:20-26` (`_evaluate`) with the broadcasting and the shape assertion of `__call__`. -/
def PCov.call (k : PCov X) (x0 : Pts X) (x1 : Option (Pts X)) : Except Err (Arr ℝ) :=
  match Coeff.bcast x0.batch ((x1.getD x0).batch) with
  | none => .error .valueError
  | some s => do
    let p0 ← featCall k.n false k.f x0
    let p1 ← featSecond k.n false k.f p0 x1
    let s1 ← linopLast p1 k.shape0.prod k.n k.c
    let a ← rowDot p0 s1
    checkShape s a

end LinPDE.Param
