import Verif.CovAlg.Violations
import Verif.Covar.Props

/-!
# Cross-covariances between a process and a random vector

Model of `randprocs/crosscov/`: the classes with their array view `__call__`, their JAX view `jax` and their linear-operator
view `evaluate_linop`.

A point of the input space is an element of `X`; an input array is a batch shape and a point for every multi-index.  The
numbers inside a point (the trailing axes of the input array) are not represented, only their shape.

Outside contracts: a ProbNum covariance function called with arrays of broadcastable batch shapes returns an array of shape
`batch + output_shape_0 + output_shape_1`; its `linop(x0, x1)` is the matrix with the output axes before the batch axes, both
in C order (documented in `linfunctls/_evaluation.py:11-14`); `linop(a, axis)` multiplies along an axis; SciPy's `quad` is
the integral.
-/

namespace LinPDE.XCov
open LinPDE.Nd LinPDE.Ops LinPDE.CovAlg LinPDE.Covar

/-- Exceptions. -/
inductive Err
  | assertionError
  | typeError
  | valueError
  | indexError
  | notImplemented
  | notAKernel
deriving DecidableEq, Repr

/-- The exceptions of the kernel algebra. -/
def liftErr : CovAlg.Err → Err
  | .assertionError => .assertionError
  | .typeError => .typeError
  | .valueError => .valueError
  | .indexError => .indexError
  | .notImplemented => .notImplemented
  | .notAKernel => .notAKernel

/-- An array of points. -/
structure Pts (X : Type) where
  inS : Shp
  batch : Shp
  pt : List ℕ → X

/-- A matrix (dense view of a linear operator). -/
structure LMat where
  rows : ℕ
  cols : ℕ
  a : ℕ → ℕ → ℝ

/-! ## NumPy -/

/-- `np.transpose(a, axes)`: axis `t` of the result is axis `axes[t]` of `a`. -/
def permute (a : Arr ℝ) (axes : List ℕ) : Arr ℝ where
  shape := axes.map fun ax => a.shape.getD ax 0
  get i := a.get ((List.range a.shape.length).map fun ax => i.getD (axes.idxOf ax) 0)

/-- `range(off, off + len)`. -/
abbrev rng (off len : ℕ) : List ℕ := List.range' off len

/-- `A(a, axis=0)`. -/
noncomputable def mulFirst (A : LMat) (a : Arr ℝ) : Arr ℝ where
  shape := A.rows :: a.shape.tail
  get i := ∑ j ∈ Finset.range A.cols, A.a (i.getD 0 0) j * a.get (j :: i.tail)

/-- `A(a, axis=-1)`. -/
noncomputable def mulLast (A : LMat) (a : Arr ℝ) : Arr ℝ where
  shape := a.shape.dropLast ++ [A.rows]
  get i := ∑ j ∈ Finset.range A.cols, A.a (i.getD (i.length - 1) 0) j * a.get (i.dropLast ++ [j])

/-- `np.moveaxis(a, -1, 0)`. -/
def lastFirst (a : Arr ℝ) : Arr ℝ := permute a (rng (a.shape.length - 1) 1 ++ rng 0 (a.shape.length - 1))

/-- `A @ B` for two-dimensional arrays. -/
noncomputable def matMul (A : LMat) (B : Arr ℝ) : Except Err (Arr ℝ) :=
  if B.shape.getD 0 0 = A.cols then
    .ok ⟨[A.rows, B.shape.getD 1 0], fun i => ∑ j ∈ Finset.range A.cols, A.a (i.getD 0 0) j * B.get [j, i.getD 1 0]⟩
  else .error .valueError

/-- `A + B` for matrices. -/
noncomputable def matAdd (A B : Arr ℝ) : Except Err (Arr ℝ) :=
  if A.shape = B.shape then .ok (addArr A B) else .error .valueError

/-- `functools.reduce(operator.add, ms)`. -/
noncomputable def matSum : List (Arr ℝ) → Except Err (Arr ℝ)
  | [] => .error .typeError
  | m :: ms => ms.foldlM matAdd m

/-- Python's `sum` over arrays; it starts from the integer 0. -/
noncomputable def arrSum : List (Arr ℝ) → Except Err (Arr ℝ)
  | [] => .error .typeError
  | m :: ms => ms.foldlM matAdd m

/-! ## Functionals with values on kernels -/

/-- A linear map from functions to vectors. -/
abbrev Fl (X : Type) := Val X →ₗ[ℝ] (ℕ → ℝ)

/-- A point-evaluation functional: `linfunctls/_dirac.py` (`dirac`) or `linfunctls/_evaluation.py`. -/
structure Point (X : Type) where
  dirac : Bool
  i : Shapes
  xs : Pts X

/-- `output_shape`: `_dirac.py:22-25`, `_evaluation.py:32-35`. -/
def Point.out {X : Type} (f : Point X) : Shp := if f.dirac then f.xs.batch ++ f.i.2 else f.i.2 ++ f.xs.batch

/-- Point evaluation as a linear map on functions: batch axes first for `DiracFunctional`, output axes first for
`_EvaluationFunctional`. -/
def Point.T {X : Type} (f : Point X) : Fl X where
  toFun g := fun r => let m := unravel f.out r
    if f.dirac then g (f.xs.pt (m.take f.xs.batch.length)) (ravel f.i.2 (m.drop f.xs.batch.length))
    else g (f.xs.pt (m.drop f.i.2.length)) (ravel f.i.2 (m.take f.i.2.length))
  map_add' g h := by funext r; dsimp only; split_ifs <;> rfl
  map_smul' c g := by funext r; dsimp only; split_ifs <;> rfl

/-! ## The classes -/

/-- Process-vector cross-covariances.  `base`: a class with closed formulas and no operator view.  `point`:
`linfunctls/_dirac.py`, `linfunctls/_evaluation.py`; `rev` is `reverse`, true when the functional acts on argument 0.
`quad`: quadrature over one argument (`linfunctls/integrals/_covfunc_lebesgue.py:23`, `linfunctls/projections.py:18`) for
the functional `T` with output shape `o`.  `scaled`, `sum`, `linop`: `_arithmetic.py`.  `stack`: `_stack.py`, parts in C
order.  `zero`: `_zero.py`.  `param`: `_parametric.py`, with the matrix of `crosscov` and the basis functions. -/
inductive PV (X : Type)
  | base (inS outS rv : Shp) (rev : Bool) (ev : X → ℕ → ℕ → ℝ)
  | point (k : K X) (f : Point X) (rev : Bool)
  | quad (k : K X) (o : Shp) (T : Fl X) (rev : Bool)
  | scaled (c : PV X) (s : ℝ)
  | sum (inS outS rv : Shp) (rev : Bool) (cs : List (PV X))
  | linop (A : LMat) (c : PV X)
  | stack (inS rv : Shp) (rev : Bool) (shape : Shp) (cs : List (PV X))
  | zero (inS outS rv : Shp) (rev : Bool)
  | param (inS : Shp) (C : LMat) (basis : X → ℕ → ℝ) (nbasis : ℕ) (rev : Bool)

variable {X : Type}

/-- `randproc_input_shape`. -/
def PV.inS : PV X → Shp
  | .base i _ _ _ _ => i
  | .point k _ _ => k.sh.in0
  | .quad k _ _ rev => k.sh.inA rev
  | .scaled c _ => c.inS
  | .sum i _ _ _ _ => i
  | .linop _ c => c.inS
  | .stack i _ _ _ _ => i
  | .zero i _ _ _ => i
  | .param i _ _ _ _ => i

/-- `randproc_output_shape`. -/
def PV.outS : PV X → Shp
  | .base _ o _ _ _ => o
  | .point k _ rev => k.sh.outA rev
  | .quad k _ _ rev => k.sh.outA rev
  | .scaled c _ => c.outS
  | .sum _ o _ _ _ => o
  | .linop _ c => c.outS
  | .stack _ _ _ s _ => s
  | .zero _ o _ _ => o
  | .param .. => []

/-- `randvar_shape`. -/
def PV.rv : PV X → Shp
  | .base _ _ r _ _ => r
  | .point _ f _ => f.out
  | .quad _ o _ _ => o
  | .scaled c _ => c.rv
  | .sum _ _ r _ _ => r
  | .linop A _ => [A.rows]
  | .stack _ r _ _ _ => r
  | .zero _ _ r _ => r
  | .param _ C _ _ rev => if rev then [C.rows] else [C.cols]

/-- `reverse`. -/
def PV.rev : PV X → Bool
  | .base _ _ _ r _ => r
  | .point _ _ r => r
  | .quad _ _ _ r => r
  | .scaled c _ => c.rev
  | .sum _ _ _ r _ => r
  | .linop _ c => c.rev
  | .stack _ _ r _ _ => r
  | .zero _ _ _ r => r
  | .param _ _ _ _ r => r

/-! ## Array view -/

/-- The documented layout: `_pv_crosscov.py:77-84`. -/
def layout (rev : Bool) (rv b out : Shp) : Shp := if rev then rv ++ b ++ out else b ++ out ++ rv

/-- The array of that layout with given entries. -/
def layArr (rev : Bool) (rv b out : Shp) (g : List ℕ → List ℕ → List ℕ → ℝ) : Arr ℝ where
  shape := layout rev rv b out
  get i := if rev then g (i.take rv.length) ((i.drop rv.length).take b.length) (i.drop (rv.length + b.length))
    else g (i.drop (b.length + out.length)) (i.take b.length) ((i.drop b.length).take out.length)

/-- `covfunc(x0, x1)` for points given on a common batch shape. -/
noncomputable def kCall (k : K X) (bs : Shp) (x0 x1 : List ℕ → X) : Arr ℝ where
  shape := bs ++ k.sh.out0 ++ k.sh.out1
  get i := k.eval (x0 (i.take bs.length)) (x1 (i.take bs.length)) (ravel k.sh.out0 ((i.drop bs.length).take k.sh.out0.length))
    (ravel k.sh.out1 (i.drop (bs.length + k.sh.out0.length)))

/-- `linfunctls/_dirac.py:45-98` and `_evaluation.py:45-98`: the functional acts on argument 1. -/
noncomputable def pointEval1 (k : K X) (f : Point X) (x : Pts X) : Except Err (Arr ℝ) :=
  if k.sh.in1 ≠ k.sh.in0 then .error .valueError
  else if x.inS ≠ k.sh.in0 ∨ f.xs.inS ≠ k.sh.in0 then .error .assertionError
  else
    let xb := x.batch.length
    let Xb := f.xs.batch.length
    let xo := k.sh.out0.length
    let Xo := f.i.2.length
    let kxX := kCall k (x.batch ++ f.xs.batch) (fun i => x.pt (i.take xb)) (fun i => f.xs.pt (i.drop xb))
    if kxX.shape ≠ x.batch ++ f.xs.batch ++ k.sh.out0 ++ f.i.2 then .error .assertionError
    else
      let res := permute kxX (if f.dirac then rng 0 xb ++ rng (xb + Xb) xo ++ rng xb Xb ++ rng (xb + Xb + xo) Xo
        else rng 0 xb ++ rng (xb + Xb) xo ++ rng (xb + Xb + xo) Xo ++ rng xb Xb)
      if res.shape = x.batch ++ k.sh.out0 ++ f.out then .ok res else .error .assertionError

/-- `linfunctls/_dirac.py:183-232` and `_evaluation.py:204-258`: the functional acts on argument 0, but the kernel is called
with the evaluation point first (`self._covfunc(x, X)`, line 213 and 236). -/
noncomputable def pointEval0 (k : K X) (f : Point X) (x : Pts X) : Except Err (Arr ℝ) :=
  if k.sh.in1 ≠ k.sh.in0 then .error .valueError
  else if x.inS ≠ k.sh.in0 ∨ f.xs.inS ≠ k.sh.in0 then .error .assertionError
  else
    let xb := x.batch.length
    let Xb := f.xs.batch.length
    let xo := k.sh.out1.length
    let Xo := f.i.2.length
    let kxX := kCall k (f.xs.batch ++ x.batch) (fun i => x.pt (i.drop Xb)) (fun i => f.xs.pt (i.take Xb))
    if kxX.shape ≠ f.xs.batch ++ x.batch ++ f.i.2 ++ k.sh.out1 then .error .assertionError
    else
      let res := permute kxX (if f.dirac then rng 0 Xb ++ rng (Xb + xb) Xo ++ rng Xb xb ++ rng (Xb + xb + Xo) xo
        else rng (Xb + xb) Xo ++ rng 0 Xb ++ rng Xb xb ++ rng (Xb + xb + Xo) xo)
      if res.shape = f.out ++ x.batch ++ k.sh.out1 then .ok res else .error .assertionError

/-- Quadrature: `integrals/_covfunc_lebesgue.py:45-51`, `projections.py:45-69`.  The kernel is called as `covfunc(x, t)`
whatever the value of `reverse`. -/
noncomputable def quadEval (k : K X) (o : Shp) (T : Fl X) (rev : Bool) (x : Pts X) : Except Err (Arr ℝ) :=
  if k.sh.out0 ≠ [] ∨ k.sh.out1 ≠ [] then .error .typeError
  else .ok (layArr rev o x.batch [] fun r n _ => T (fun y _ => k.eval (x.pt n) y 0 0) (ravel o r))

/-- `_parametric.py:35-41`: the same product for both orders. -/
noncomputable def paramEval (C : LMat) (basis : X → ℕ → ℝ) (nbasis : ℕ) (rev : Bool) (x : Pts X) : Except Err (Arr ℝ) :=
  if C.cols ≠ nbasis then .error .valueError
  else
    let res := mulLast C ⟨x.batch ++ [nbasis], fun i => basis (x.pt (i.take x.batch.length)) (i.getD x.batch.length 0)⟩
    .ok (if rev then lastFirst res else res)

/-- `_stack.py:50-75` once the parts are evaluated. -/
noncomputable def stackEval (jax : Bool) (rv : Shp) (rev : Bool) (shape : Shp) (as : List (Arr ℝ)) : Except Err (Arr ℝ) :=
  match as with
  | [] => .error .typeError
  | a :: _ =>
    if rev then
      let bs := a.shape.drop rv.length
      .ok ⟨rv ++ bs ++ shape, fun i => if jax then 0 else
        ((as[ravel shape (i.drop (rv.length + bs.length))]?).map fun e => e.get (i.take (rv.length + bs.length))).getD 0⟩
    else
      let bs := a.shape.take (a.shape.length - rv.length)
      let res : Arr ℝ := ⟨shape ++ bs ++ rv, fun i => if jax then 0 else
        ((as[ravel shape (i.take shape.length)]?).map fun e => e.get (i.drop shape.length)).getD 0⟩
      .ok (permute res (rng shape.length bs.length ++ rng 0 shape.length ++ rng (shape.length + bs.length) rv.length))

/-- The checks around `_evaluate`: `_pv_crosscov.py:60-86` (`jax`: 92-117). -/
noncomputable def PV.checked (c : PV X) (x : Pts X) (e : Except Err (Arr ℝ)) : Except Err (Arr ℝ) :=
  if x.inS ≠ c.inS then .error .valueError
  else do
    let a ← e
    if a.shape = layout c.rev c.rv x.batch c.outS then .ok a else .error .assertionError

mutual
/-- `c(x)` and `c.jax(x)`: `_pv_crosscov.py`, `_arithmetic.py:37-41, 75-79, 118-125`, `_stack.py:50-102`, `_zero.py:8-30`,
`_parametric.py:35-44`.  The JAX view of point evaluations calls the NumPy kernel with JAX arrays (`_dirac.py:134, 264`). -/
noncomputable def PV.callG (jax : Bool) : PV X → Pts X → Except Err (Arr ℝ)
  | .base i o r rev ev, x => (PV.base i o r rev ev).checked x
      (.ok (layArr rev r x.batch o fun rr n p => ev (x.pt n) (ravel o p) (ravel r rr)))
  | .point k f rev, x => (PV.point k f rev).checked x (if rev then pointEval0 k f x else pointEval1 k f x)
  | .quad k o T rev, x => (PV.quad k o T rev).checked x (if jax then .error .notImplemented else quadEval k o T rev x)
  | .scaled c s, x => (PV.scaled c s).checked x do
      let a ← PV.callG jax c x
      .ok (smulArr s a)
  | .sum i o r rev cs, x => (PV.sum i o r rev cs).checked x do
      let as ← callAllG jax cs x
      arrSum as
  | .linop A c, x => (PV.linop A c).checked x (if jax then .error .notImplemented else do
      let a ← PV.callG jax c x
      .ok (if c.rev then mulFirst A a else mulLast A a))
  | .stack i r rev s cs, x => (PV.stack i r rev s cs).checked x do
      let as ← callAllG jax cs x
      stackEval jax r rev s as
  | .zero i o r rev, x => (PV.zero i o r rev : PV X).checked x (.ok (layArr rev r x.batch o fun _ _ _ => 0))
  | .param i C b n rev, x => (PV.param i C b n rev).checked x (if jax then .error .notImplemented else paramEval C b n rev x)
/-- Every part. -/
noncomputable def callAllG (jax : Bool) : List (PV X) → Pts X → Except Err (List (Arr ℝ))
  | [], _ => .ok []
  | c :: cs, x => do
    let a ← PV.callG jax c x
    let as ← callAllG jax cs x
    .ok (a :: as)
end

/-- `c(x)`. -/
noncomputable abbrev PV.call (c : PV X) (x : Pts X) : Except Err (Arr ℝ) := c.callG false x

/-! ## Operator view -/

/-- `covfunc.linop(x0, x1)` (outside contract): rows run over outputs, then points. -/
noncomputable def kLinop (k : K X) (x0 x1 : Pts X) : Except Err (Arr ℝ) :=
  if x0.inS ≠ k.sh.in0 ∨ x1.inS ≠ k.sh.in1 then .error .valueError
  else .ok ⟨[(k.sh.out0 ++ x0.batch).prod, (k.sh.out1 ++ x1.batch).prod], fun i =>
    let a := unravel (k.sh.out0 ++ x0.batch) (i.getD 0 0)
    let b := unravel (k.sh.out1 ++ x1.batch) (i.getD 1 0)
    k.eval (x0.pt (a.drop k.sh.out0.length)) (x1.pt (b.drop k.sh.out1.length)) (ravel k.sh.out0 (a.take k.sh.out0.length))
      (ravel k.sh.out1 (b.take k.sh.out1.length))⟩

/-- `BlockMatrix([ms])` or `BlockMatrix([[m] for m in ms])`, dense, for blocks of equal shape (other blocks do not occur
here; see `Verif.Block` for the general class). -/
noncomputable def blockRowCol (row : Bool) (ms : List (Arr ℝ)) : Except Err (Arr ℝ) :=
  match ms with
  | [] => .error .indexError
  | m :: _ =>
    if ms.all fun n => n.shape = m.shape then
      let h := m.shape.getD 0 0
      let w := m.shape.getD 1 0
      .ok (if row then ⟨[h, ms.length * w], fun i => ((ms[i.getD 1 0 / w]?).map fun n => n.get [i.getD 0 0, i.getD 1 0 % w]).getD 0⟩
        else ⟨[ms.length * h, w], fun i => ((ms[i.getD 0 0 / h]?).map fun n => n.get [i.getD 0 0 % h, i.getD 1 0]).getD 0⟩)
    else .error .valueError

/-- The fallback of `evaluate_linop`: `_pv_crosscov.py:141-161` with `_move_shape_blocks` (190-199). -/
noncomputable def linopFallback (rev : Bool) (rv b out : Shp) (a : Arr ℝ) : Except Err (Arr ℝ) :=
  let res := if rev then permute a (rng 0 rv.length ++ rng (rv.length + b.length) out.length ++ rng rv.length b.length)
    else permute a (rng b.length out.length ++ rng 0 b.length ++ rng (b.length + out.length) rv.length)
  match res.reshape (if rev then [rv.prod, out.prod * b.prod] else [out.prod * b.prod, rv.prod]) with
  | some m => .ok m
  | none => .error .valueError

/-- `evaluate_linop` around `_evaluate_linop`: `_pv_crosscov.py:126-161`. -/
noncomputable def PV.linopOf (c : PV X) (x : Pts X) (priv : Except Err (Arr ℝ)) : Except Err (Arr ℝ) :=
  if x.inS ≠ c.inS then .error .valueError
  else match priv with
    | .error .notImplemented => do
      let a ← c.call x
      linopFallback c.rev c.rv x.batch c.outS a
    | r => r

mutual
/-- `_evaluate_linop`: `_pv_crosscov.py:123`, `_dirac.py:155, 285`, `_evaluation.py`, `_arithmetic.py:43-46, 81-88,
127-130` (the operator stands on the left in both orders), `_stack.py:104-119`. -/
noncomputable def PV.linopPriv : PV X → Pts X → Except Err (Arr ℝ)
  | .base .., _ => .error .notImplemented
  | .point k f rev, x => if rev then kLinop k f.xs x else kLinop k x f.xs
  | .quad .., _ => .error .notImplemented
  | .scaled c s, x => do
    let m ← PV.linopPriv c x
    .ok (smulArr s m)
  | .sum _ _ _ _ cs, x => do
    let ms ← linopPrivAll cs x
    matSum ms
  | .linop A c, x => do
    let m ← PV.linopPriv c x
    matMul A m
  | .stack _ _ rev _ cs, x => do
    let ms ← linopAll cs x
    blockRowCol rev ms
  | .zero .., _ => .error .notImplemented
  | .param .., _ => .error .notImplemented
/-- `_evaluate_linop` of every summand. -/
noncomputable def linopPrivAll : List (PV X) → Pts X → Except Err (List (Arr ℝ))
  | [], _ => .ok []
  | c :: cs, x => do
    let m ← PV.linopPriv c x
    let ms ← linopPrivAll cs x
    .ok (m :: ms)
/-- `evaluate_linop` of every part. -/
noncomputable def linopAll : List (PV X) → Pts X → Except Err (List (Arr ℝ))
  | [], _ => .ok []
  | c :: cs, x => do
    let m ← c.linopOf x (PV.linopPriv c x)
    let ms ← linopAll cs x
    .ok (m :: ms)
end

/-- `c.evaluate_linop(x)`. -/
noncomputable def PV.linopView (c : PV X) (x : Pts X) : Except Err (Arr ℝ) := c.linopOf x (c.linopPriv x)

end LinPDE.XCov
