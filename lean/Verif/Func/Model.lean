import Verif.Nd.Basic
import Verif.Coeff.Model
import Mathlib.Algebra.Ring.Defs
import Mathlib.Algebra.BigOperators.Group.Finset.Basic

/-!
# Evaluation of functions on arrays

Model of `functions/_jax.py`, `_jax_arithmetic.py`, `_constant.py`, `_affine.py`, `_stack.py` at the level of arrays: which
shapes are accepted and where every entry of the result comes from.  Also `linfunctls/_dirac.py:43-45`,
`_evaluation.py:52-64` and `functions/linfuncops/_registry.py`.

Outside contracts: ProbNum's `Function.__call__` raises `ValueError` unless the last axes of the argument equal
`input_shape`, and asserts that the result has shape `batch + output_shape`; `np.stack` raises `ValueError` for arrays of
different shapes and `AxisError` for an axis out of range; `jnp.vectorize` with a signature maps the function over the
leading axes and raises `ValueError` for too few axes or a result with another number of axes.
-/

namespace LinPDE.Func
open LinPDE.Nd

/-- Exceptions; `axisError` is NumPy's `AxisError`. -/
inductive Err
  | assertionError
  | valueError
  | typeError
  | indexError
  | axisError
  | notImplemented
  | recursionError
deriving DecidableEq, Repr

/-- Index into an array of shape `b` that was broadcast: drop leading axes, clamp axes of length one. -/
def bidx (b : Shp) (i : List ℕ) : List ℕ :=
  List.zipWith (fun n j => if n = 1 then 0 else j) b (i.drop (i.length - b.length))

/-- Python's `s[: len(s) - k]`, where `len(s) - k` may be negative. -/
def headTo (s : Shp) (k : ℕ) : Shp :=
  if k ≤ s.length then s.take (s.length - k) else s.take (s.length - (k - s.length))

/-- Python's `s[len(s) - k :]`, where `len(s) - k` may be negative. -/
def tailFrom (s : Shp) (k : ℕ) : Shp :=
  if k ≤ s.length then s.drop (s.length - k) else s.drop (s.length - (k - s.length))

/-- Whether an array of shape `s` can be broadcast to the shape `t` (`np.broadcast_to`, `jnp.broadcast_to`). -/
def castsTo (s t : Shp) : Bool :=
  decide (s.length ≤ t.length) &&
    (List.zipWith (fun a b => decide (a = 1 ∨ a = b)) s (t.drop (t.length - s.length))).all id

/-- Python's `range check` for an axis: `normalize_axis_index(axis, ndim)`. -/
def normAxis (axis : ℤ) (ndim : ℕ) : Except Err ℕ :=
  if 0 ≤ axis ∧ axis < ndim then .ok axis.toNat
  else if axis < 0 ∧ 0 ≤ axis + ndim then .ok (axis + ndim).toNat
  else .error .axisError

variable {K : Type} [Ring K]

/-- Elementwise binary operation with broadcasting. -/
def zipB (f : K → K → K) (a b : Arr K) : Except Err (Arr K) :=
  match Coeff.bcast a.shape b.shape with
  | none => .error .valueError
  | some s => .ok ⟨s, fun i => f (a.get (bidx a.shape i)) (b.get (bidx b.shape i))⟩

/-- `np.broadcast_to(a, shape)`. -/
def broadcastTo (a : Arr K) (t : Shp) : Except Err (Arr K) :=
  if castsTo a.shape t then .ok ⟨t, fun i => a.get (bidx a.shape i)⟩ else .error .valueError

/-- `np.stack(arrays, axis)` for the arrays `a :: as`. -/
def npStack (as : List (Arr K)) (axis : ℤ) : Except Err (Arr K) :=
  match as with
  | [] => .error .valueError
  | a :: rest =>
    if (a :: rest).all fun b => decide (b.shape = a.shape) then
      match normAxis axis (a.shape.length + 1) with
      | .error e => .error e
      | .ok k => .ok ⟨a.shape.insertIdx k (a :: rest).length,
          fun i => ((a :: rest).getD (i.getD k 0) a).get (i.eraseIdx k)⟩
    else .error .valueError

/-- `x[..., None]`. -/
def newAxis (x : Arr K) : Arr K := ⟨x.shape ++ [1], fun i => x.get i.dropLast⟩

/-- `x[..., 0]`. -/
def firstLast (x : Arr K) : Except Err (Arr K) :=
  match x.shape.getLast? with
  | none => .error .indexError
  | some 0 => .error .indexError
  | some _ => .ok ⟨x.shape.dropLast, fun i => x.get (i ++ [0])⟩

/-- `A @ x` for a matrix `A` of shape `(m, n)`: a vector, or a batch of matrices. -/
def matmul (A : Arr K) (m n : ℕ) (x : Arr K) : Except Err (Arr K) :=
  match x.shape.reverse with
  | [] => .error .valueError
  | [k] => if k = n then .ok ⟨[m], fun i => ∑ j ∈ Finset.range n, A.get [i.getD 0 0, j] * x.get [j]⟩ else .error .valueError
  | c :: k :: b =>
    if k = n then .ok ⟨b.reverse ++ [m, c], fun i => ∑ j ∈ Finset.range n,
      A.get [i.getD b.length 0, j] * x.get (i.take b.length ++ [j, i.getD (b.length + 1) 0])⟩
    else .error .valueError

/-- Functions: `Affine`, `Constant`, `Zero`, `JaxLambdaFunction` (`vectorize=True`; `osh` is the shape of the result of the
callable, `val` its entries), `StackedFunction`, `JaxScaledFunction`, `JaxSumFunction`. -/
inductive FE (K : Type)
  | affine (A b : Arr K)
  | const (inS : Shp) (v : Arr K)
  | zero (inS outS : Shp)
  | lam (inS outS : Shp) (osh : Shp → Shp) (val : Arr K → List ℕ → K)
  | stack (inS outS : Shp) (fs : List (FE K)) (axis : ℤ)
  | scaled (f : FE K) (c : K)
  | sum (inS outS : Shp) (fs : List (FE K))

/-- `input_shape`: `_affine.py:15-25`, `_constant.py:16`, `_jax.py:71`, `_stack.py:15`, `_jax_arithmetic.py:21-24, 61`. -/
def FE.inS : FE K → Shp
  | .affine A _ => match A.shape with
    | [_, n] => [n]
    | _ => []
  | .const i _ => i
  | .zero i _ => i
  | .lam i _ _ _ => i
  | .stack i _ _ _ => i
  | .scaled f _ => f.inS
  | .sum i _ _ => i

/-- `output_shape`: `_affine.py:15-25`, `_constant.py:16, 54`, `_stack.py:19-22`, `_jax_arithmetic.py:21-24, 61`. -/
def FE.outS : FE K → Shp
  | .affine A _ => match A.shape with
    | [m, _] => [m]
    | s => s
  | .const _ v => v.shape
  | .zero _ o => o
  | .lam _ o _ _ => o
  | .stack _ o _ _ => o
  | .scaled f _ => f.outS
  | .sum _ o _ => o

/-- `_affine.py:10-33`. -/
def mkAffine (A b : Arr K) : Except Err (FE K) :=
  if 2 < A.shape.length then .error .valueError
  else if b.shape ≠ (FE.affine A b).outS then .error .valueError
  else .ok (.affine A b)

/-- `_stack.py:11-24`: `self._fns[0]` of no function, the assertion on input shapes, `np.stack` of empty arrays. -/
def mkStack (fs : List (FE K)) (axis : ℤ) : Except Err (FE K) :=
  match fs with
  | [] => .error .indexError
  | f :: rest =>
    if (f :: rest).all fun g => decide (g.inS = f.inS) then
      match npStack ((f :: rest).map fun g => (⟨g.outS, fun _ => (0 : K)⟩ : Arr K)) axis with
      | .error e => .error e
      | .ok s => .ok (.stack f.inS s.shape (f :: rest) axis)
    else .error .assertionError

/-- `_jax_arithmetic.py:52-61` and `77-87`. -/
def mkSum (fs : List (FE K)) : Except Err (FE K) :=
  match fs with
  | [] => .error .indexError
  | f :: rest =>
    if (f :: rest).all fun g => decide (g.inS = f.inS) then
      if (f :: rest).all fun g => decide (g.outS = f.outS) then
        .ok (.sum f.inS f.outS ((f :: rest).flatMap fun g => match g with
          | .sum _ _ hs => hs
          | g => [g]))
      else .error .assertionError
    else .error .assertionError

/-- `_affine.py:43-47` and `49-53` (the same expression for NumPy and JAX). -/
def affineEval (A b x : Arr K) : Except Err (Arr K) :=
  match A.shape with
  | [m, n] => do
    let y ← matmul A m n (newAxis x)
    let z ← firstLast y
    zipB (· + ·) z b
  | _ => do
    let y ← zipB (· * ·) A x
    zipB (· + ·) y b

/-- `jnp.vectorize(fn, signature)(x)` (`_jax.py:77-90`). -/
def lamEval (k o : ℕ) (osh : Shp → Shp) (val : Arr K → List ℕ → K) (x : Arr K) : Except Err (Arr K) :=
  if x.shape.length < k then .error .valueError
  else if (osh (x.shape.drop (x.shape.length - k))).length ≠ o then .error .valueError
  else .ok ⟨x.shape.take (x.shape.length - k) ++ osh (x.shape.drop (x.shape.length - k)),
    fun i => val ⟨x.shape.drop (x.shape.length - k), fun p => x.get (i.take (x.shape.length - k) ++ p)⟩
      (i.drop (x.shape.length - k))⟩

/-- Evaluate a partial function on every element, stopping at the first exception. -/
def mapE {α β ε : Type} (f : α → Except ε β) : List α → Except ε (List β)
  | [] => .ok []
  | a :: as => do
    let b ← f a
    let bs ← mapE f as
    .ok (b :: bs)

/-- `functools.reduce(operator.add, arrays)`. -/
def reduceAdd : List (Arr K) → Except Err (Arr K)
  | [] => .error .typeError
  | a :: as => as.foldlM (fun acc b => zipB (· + ·) acc b) a

/-- The shape assertion at the end of `Function.__call__` and `JaxFunction.jax` (`_jax.py:31-33`). -/
def checkOut (s : Shp) (a : Arr K) : Except Err (Arr K) := if a.shape = s then .ok a else .error .assertionError

/-- The argument check: ProbNum's `Function.__call__` (`jx = false`) and `_jax.py:16-29` (`jx = true`). -/
def checkIn (jx : Bool) (inS s : Shp) : Bool :=
  if jx then castsTo s (headTo s inS.length ++ inS) else decide (tailFrom s inS.length = inS)

mutual
/-- `f(x)` (`jx = false`) and `f.jax(x)` (`jx = true`), `_jax.py:13-35`. -/
def FE.call (jx : Bool) (f : FE K) (x : Arr K) : Except Err (Arr K) :=
  if checkIn jx f.inS x.shape then
    match FE.eval jx f x with
    | .error e => .error e
    | .ok a => checkOut (headTo x.shape f.inS.length ++ f.outS) a
  else .error .valueError
  termination_by (sizeOf f, 1)
/-- `_evaluate` and `_evaluate_jax`: `_affine.py:43-53`, `_constant.py:22-32`, `_jax.py:92-96`, `_stack.py:34-44`,
`_jax_arithmetic.py:34-38` (scaled), `67-75` (sum). -/
def FE.eval (jx : Bool) (f : FE K) (x : Arr K) : Except Err (Arr K) :=
  match f with
  | .affine A b => affineEval A b x
  | .const i v => broadcastTo v (headTo x.shape i.length ++ v.shape)
  | .zero i o => broadcastTo ⟨o, fun _ => 0⟩ (headTo x.shape i.length ++ o)
  | .lam i o osh val => lamEval i.length o.length osh val x
  | .stack _ _ fs axis => do
    let as ← FE.callAll jx fs x
    npStack as axis
  | .scaled f c => do
    let a ← FE.call jx f x
    .ok ⟨a.shape, fun i => c * a.get i⟩
  | .sum _ _ fs => do
    let as ← FE.callAll jx fs x
    reduceAdd as
  termination_by (sizeOf f, 0)
/-- The generators `f(x) for f in fns`. -/
def FE.callAll (jx : Bool) (fs : List (FE K)) (x : Arr K) : Except Err (List (Arr K)) :=
  match fs with
  | [] => .ok []
  | f :: fs => do
    let a ← FE.call jx f x
    let as ← FE.callAll jx fs x
    .ok (a :: as)
  termination_by (sizeOf fs, 0)
end

/-! ## Functionals and operators -/

/-- A point-evaluation functional: `DiracFunctional` (`dirac`) or `_EvaluationFunctional`, with its declared shapes. -/
structure PointF (K : Type) where
  dirac : Bool
  dom : Shp
  cod : Shp
  X : Arr K

/-- `_dirac.py:12-25`, `_evaluation.py:22-35`: the constructor's assertion. -/
def mkPointF (dirac : Bool) (dom cod : Shp) (X : Arr K) : Except Err (PointF K) :=
  if X.shape = headTo X.shape dom.length ++ dom then .ok ⟨dirac, dom, cod, X⟩ else .error .assertionError

/-- `X_batch_shape`: `_dirac.py:19`, `_evaluation.py:29`. -/
def PointF.batch (L : PointF K) : Shp := headTo L.X.shape L.dom.length

/-- `output_shape`: `_dirac.py:24`, `_evaluation.py:34`. -/
def PointF.outS (L : PointF K) : Shp := if L.dirac then L.batch ++ L.cod else L.cod ++ L.batch

/-- `_dirac.py:43-45`, `_evaluation.py:52-64`. -/
def PointF.call (L : PointF K) (f : FE K) : Except Err (Arr K) :=
  match FE.call false f L.X with
  | .error e => .error e
  | .ok a =>
    if L.dirac then .ok a
    else if a.shape = L.batch ++ f.outS then
      if f.outS.length > 0 then .ok (a.lastToFront f.outS.length) else .ok a
    else .error .assertionError

/-- Python's `fns[idx]` for an integer. -/
def pyGet (fs : List (FE K)) (idx : ℤ) : Except Err (FE K) :=
  match (if 0 ≤ idx then fs[idx.toNat]? else if 0 ≤ idx + fs.length then fs[(idx + fs.length).toNat]? else none) with
  | some f => .ok f
  | none => .error .indexError

/-- `SelectOutput` with an integer index (`none`: a tuple) applied to a `StackedFunction`:
`functions/linfuncops/_registry.py:8-13`. -/
def selectStack (idx : Option ℤ) (f : FE K) : Except Err (FE K) :=
  match f, idx with
  | .stack _ _ fs _, some i => if f.outS.length = 1 then pyGet fs i else .error .assertionError
  | .stack _ _ _ _, none => .error .assertionError
  | _, _ => .error .notImplemented

end LinPDE.Func
