import Verif.Grid.Model
import Verif.Coeff.Model

/-!
# Model of tensor-product covariance functions

`randprocs/covfuncs/_tensor_product.py`, `randprocs/covfuncs/linfuncops/diffops/_tensor_product.py` and the dispatch of
differential operators on them in `randprocs/covfuncs/linfuncops/diffops/_registry.py:31-72`.

A factor is a covariance function on the real line given by its shapes and its values; evaluation is pointwise (batches
broadcast).  `PartialDerivative(n)` on a factor is dispatched on the class of the factor (Matérn, exponentiated
quadratic, JAX fallback, modelled elsewhere), so it is a parameter here.  Linear operators are given by the dense matrix
they denote.
-/

namespace LinPDE.Tensor
open LinPDE.Nd LinPDE.Grid LinPDE.Coeff

/-- Exceptions; `notImplemented` stands for a returned `NotImplemented` object. -/
inductive Err
  | valueError
  | typeError
  | indexError
  | keyError
  | attributeError
  | notImplemented
deriving DecidableEq, Repr

/-- A factor: input shape, output shapes and values; the last argument is a multi-index into `out0 + out1`. -/
structure Fac where
  inS : Shp
  out0 : Shp
  out1 : Shp
  ev : ℝ → ℝ → List ℕ → ℝ

/-- `_tensor_product.py:15-45`: a tensor product (it has a first factor, see `mkTP`). -/
structure TP where
  head : Fac
  tail : List Fac

/-- `_tensor_product.py:43-45` (`factors`). -/
def TP.factors (t : TP) : List Fac := t.head :: t.tail

/-- `_tensor_product.py:18-41` (`__init__`).  The check `len(factors) < 0` never fires, so without factors the
construction fails at `self._factors[0]`. -/
def mkTP (factors : List Fac) : Except Err TP :=
  if factors.length < 0 then .error .valueError
  else if !(factors.all fun k => k.inS == []) then .error .valueError
  else if !(factors.all fun k =>
      (factors.head?.any fun f => k.out0 == f.out0) && (factors.head?.any fun f => k.out1 == f.out1))
  then .error .valueError
  else match factors with
    | [] => .error .indexError
    | f :: fs => .ok ⟨f, fs⟩

/-- `_tensor_product.py:90-100` (`evaluate_dimensionwise`). -/
noncomputable def evaluateDimensionwise (ks : List Fac) (x0 : List ℝ) (x1 : Option (List ℝ)) (o : List ℕ) : List ℝ :=
  ks.mapIdx fun i k => k.ev (x0.getD i 0) ((x1.getD x0).getD i 0) o

/-- `functools.reduce(op, a :: l)`. -/
def reduce {α : Type} (op : α → α → α) (a : α) (l : List α) : α := l.foldl op a

/-- `_tensor_product.py:47-51` (`_evaluate`); with `x1 = None` factors are evaluated at `x0` twice. -/
noncomputable def TP.evaluate (t : TP) (x0 : List ℝ) (x1 : Option (List ℝ)) (o : List ℕ) : ℝ :=
  match evaluateDimensionwise t.factors x0 x1 o with
  | [] => 0
  | a :: l => reduce (· * ·) a l

/-- `probnum` `CovarianceFunction.__call__`: the trailing axes of the arguments must be the input shape. -/
noncomputable def TP.call (t : TP) (x0 : List ℝ) (x1 : Option (List ℝ)) (o : List ℕ) : Except Err ℝ :=
  if x0.length ≠ t.factors.length ∨ (x1.getD x0).length ≠ t.factors.length then .error .valueError
  else .ok (t.evaluate x0 x1 o)

/-! ## Grids -/

/-- `_tensor_product.py:139-156`: a tensor-product grid, with the `indexing` argument of `np.meshgrid`. -/
structure TPGrid where
  factors : List (List ℝ)
  xy : Bool

/-- `_tensor_product.py:140-156` (`__new__`): `np.stack` refuses an empty list. -/
def mkGrid (factors : List (List ℝ)) (indexing : String) : Except Err TPGrid :=
  if indexing = "ij" then (if factors.isEmpty then .error .valueError else .ok ⟨factors, false⟩)
  else if indexing = "xy" then (if factors.isEmpty then .error .valueError else .ok ⟨factors, true⟩)
  else .error .valueError

/-- `np.meshgrid(..., indexing="xy")` exchanges the first two axes. -/
def swap01 {α : Type} : List α → List α
  | a :: b :: l => b :: a :: l
  | l => l

/-- Batch shape of the grid. -/
def TPGrid.shape (g : TPGrid) : Shp :=
  let s := g.factors.map List.length
  if g.xy then swap01 s else s

/-- Point of the grid at a multi-index of the batch. -/
def TPGrid.point (g : TPGrid) (idx : List ℕ) : List ℝ :=
  List.zipWith (fun (f : List ℝ) i => f.getD i 0) g.factors (if g.xy then swap01 idx else idx)

/-- The points in C order of the batch: `grid.reshape(-1, d)`. -/
def TPGrid.points (g : TPGrid) : List (List ℝ) := (List.range g.shape.prod).map fun n => g.point (unravel g.shape n)

/-- An argument of `linop`: a grid, or any other array of points (flattened in C order). -/
inductive Pts
  | grid (g : TPGrid)
  | plain (pts : List (List ℝ))

/-- Points of an argument. -/
def Pts.points : Pts → List (List ℝ)
  | .grid g => g.points
  | .plain p => p

/-! ## Linear operators -/

/-- Dense matrix of a covariance function: rows are `(output, point)` in C order, outputs first
(`probnum` `CovarianceFunction.linop`, fork used by the project). -/
def dense {P : Type} (out0 out1 : Shp) (ev : P → P → List ℕ → ℝ) (dflt : P) (X Y : List P) : Mat ℝ :=
  ⟨out0.prod * X.length, out1.prod * Y.length, fun r c =>
    ev (X.getD (r % X.length) dflt) (Y.getD (c % Y.length) dflt)
      (unravel out0 (r / X.length) ++ unravel out1 (c / Y.length))⟩

/-- `factor.linop(x0, x1)` on arrays of real numbers. -/
def Fac.linop (k : Fac) (x0 : List ℝ) (x1 : Option (List ℝ)) : Mat ℝ := dense k.out0 k.out1 k.ev 0 x0 (x1.getD x0)

/-- `pn.linops.Kronecker(A, B)`. -/
def kron (A B : Mat ℝ) : Mat ℝ :=
  ⟨A.rows * B.rows, A.cols * B.cols, fun i j => A.entry (i / B.rows) (j / B.cols) * B.entry (i % B.rows) (j % B.cols)⟩

/-- `super().linop(x0, x1)` of `TensorProduct`: arguments are validated, then the dense matrix of `_evaluate`. -/
noncomputable def TP.linopDense (t : TP) (x0 : List (List ℝ)) (x1 : Option (List (List ℝ))) : Except Err (Mat ℝ) :=
  if !(x0.all fun p => p.length == t.factors.length) || !((x1.getD x0).all fun p => p.length == t.factors.length)
  then .error .valueError
  else .ok (dense t.head.out0 t.head.out1 (fun p q o => t.evaluate p (some q) o) [] x0 (x1.getD x0))

/-- `_tensor_product.py:80-85`: `self._factors[idx].linop(x0_factor, x1_factor)` for `enumerate(zip(...))`. -/
def kronFactors (fs : List Fac) : List (List ℝ × Option (List ℝ)) → Except Err (List (Mat ℝ))
  | [] => .ok []
  | (a, b) :: r =>
    match fs with
    | [] => .error .indexError
    | k :: ks => do
      let ms ← kronFactors ks r
      .ok (k.linop a b :: ms)

/-- `functools.reduce(op, l)`: a `TypeError` on an empty list. -/
def reduceE {α : Type} (op : α → α → α) : List α → Except Err α
  | [] => .error .typeError
  | a :: l => .ok (reduce op a l)

/-- `_tensor_product.py:75-86`: the Kronecker branch of `linop`. -/
def TP.linopKron (t : TP) (g0 : TPGrid) (g1 : Option TPGrid) : Except Err (Mat ℝ) :=
  let x1Factors : List (Option (List ℝ)) := match g1 with
    | some g => g.factors.map some
    | none => g0.factors.map fun _ => none
  do
    let ms ← kronFactors t.factors (g0.factors.zip x1Factors)
    reduceE kron ms

/-- `_tensor_product.py:69-87` (`linop`). -/
noncomputable def TP.linop (t : TP) (x0 : Pts) (x1 : Option Pts) : Except Err (Mat ℝ) :=
  match x0, x1 with
  | .grid g0, none => t.linopKron g0 none
  | .grid g0, some (.grid g1) => t.linopKron g0 (some g1)
  | _, _ => t.linopDense x0.points (x1.map Pts.points)

/-! ## Differential operators on tensor products -/

/-- A differential operator and, for `PartialDerivative`s, its attribute `order` (no other class has one). -/
structure DOp where
  op : DiffOp
  order? : Option ℕ

/-- `diffops.PartialDerivative(diffops.MultiIndex(np.zeros(shape)))`. -/
def zeroOrder (shape : Shp) : DOp :=
  let m : MI := ⟨shape, List.replicate shape.prod 0⟩
  ⟨⟨⟨[([], [(m, 1)])], shape, []⟩, shape, []⟩, some 0⟩

/-- `L.coefficients[()]`. -/
def coeffRow (L : DOp) : Except Err Row :=
  match L.op.coeffs.dict.find? fun kv => kv.1 == [] with
  | some kv => .ok kv.2
  | none => .error .keyError

/-- `covfuncs/_utils.py:6-41` (`validate_covfunc_transformation`) for a covariance function on inputs of shape `inS`. -/
def validate (L : DOp) (inS out0 out1 : Shp) (argnum : ℤ) : Except Err Unit :=
  if argnum ≠ 0 ∧ argnum ≠ 1 then .error .valueError
  else if inS ≠ L.op.domShape then .error .valueError
  else if (if argnum = 0 then out0 else out1) ≠ L.op.codShape then .error .valueError
  else .ok ()

/-- Class-dependent application of a partial derivative of given order to a factor, in argument 0 (`false`) or 1
(`true`); order zero returns the factor (`linfuncops/diffops/_partial_derivative.py:56-60`). -/
abbrev PDFac := Bool → ℕ → Fac → Except Err Fac

/-- `PartialDerivative.__call__` on a factor: order zero is the identity. -/
def applyPD (pd : PDFac) (arg : Bool) (n : ℕ) (k : Fac) : Except Err Fac := if n = 0 then .ok k else pd arg n k

/-- A dictionary from pairs of orders. -/
abbrev OrdDict (α : Type) := List ((ℕ × ℕ) × α)

/-- `d[key] = v`. -/
def OrdDict.put {α : Type} (d : OrdDict α) (key : ℕ × ℕ) (v : α) : OrdDict α :=
  match d with
  | [] => [(key, v)]
  | (k', v') :: r => if k' = key then (key, v) :: r else (k', v') :: OrdDict.put r key v

/-- `d[key]`. -/
def OrdDict.get? {α : Type} (d : OrdDict α) (key : ℕ × ℕ) : Option α :=
  (d.find? fun kv => kv.1 == key).map Prod.snd

/-- One array of dictionaries per input dimension. -/
abbrev Cache (α : Type) := List (OrdDict α)

/-- Entry at dimension `i`. -/
def Cache.look {α : Type} (c : Cache α) (i : ℕ) (key : ℕ × ℕ) : Option α := (c.getD i []).get? key

/-- `c[i][key] = v`. -/
def Cache.put {α : Type} (c : Cache α) (i : ℕ) (key : ℕ × ℕ) (v : α) : Cache α := c.set i ((c.getD i []).put key v)

/-- `diffops/_tensor_product.py:44-67`: inner loop over the dimensions `i, i+1, …`. -/
def innerLoop (pd : PDFac) (fs : List Fac) (a b : MI) : List ℕ → Cache Fac → Except Err (List Fac × Cache Fac)
  | [], c => .ok ([], c)
  | i :: is, c =>
    match fs[i]? with
    | none => .error .indexError
    | some k => do
      let k1 ← applyPD pd true (b.data.getD i 0) k
      let k01 ← applyPD pd false (a.data.getD i 0) k1
      let (r, c') ← innerLoop pd fs a b is (c.put i (a.data.getD i 0, b.data.getD i 0) k01)
      .ok (k01 :: r, c')

/-- `diffops/_tensor_product.py:41-69`: both loops over the coefficients, flattened; a summand is a coefficient and a
tensor product. -/
noncomputable def outerLoop (pd : PDFac) (fs : List Fac) :
    List ((MI × ℝ) × (MI × ℝ)) → Cache Fac → Except Err (List (ℝ × TP) × Cache Fac)
  | [], c => .ok ([], c)
  | ((a, ca), (b, cb)) :: r, c => do
    let (ks, c') ← innerLoop pd fs a b (List.range a.data.length) c
    let t ← mkTP ks
    let (ss, c'') ← outerLoop pd fs r c'
    .ok ((ca * cb, t) :: ss, c'')

/-- `diffops/_tensor_product.py:21-71`: the transformed covariance function. -/
structure TPLL where
  k : TP
  L0 : DOp
  L1 : DOp
  summands : List (ℝ × TP)
  cache : Cache Fac

/-- Pairs of coefficients in loop order. -/
def pairs (r0 r1 : Row) : List ((MI × ℝ) × (MI × ℝ)) := r0.flatMap fun a => r1.map fun b => (a, b)

/-- `diffops/_tensor_product.py:22-71` (`__init__`); a sum needs a summand. -/
noncomputable def mkTPLL (pd : PDFac) (k : TP) (L0 L1 : DOp) : Except Err TPLL := do
  let r0 ← coeffRow L0
  let r1 ← coeffRow L1
  let (ss, c) ← outerLoop pd k.factors (pairs r0 r1) (List.replicate k.factors.length [])
  if ss.isEmpty then .error .indexError else .ok ⟨k, L0, L1, ss, c⟩

/-- `_registry.py:31-51`: a differential operator applied to a tensor product. -/
noncomputable def applyTP (pd : PDFac) (L : DOp) (k : TP) (argnum : ℤ) : Except Err TPLL := do
  validate L [k.factors.length] k.head.out0 k.head.out1 argnum
  let D0 := if argnum = 0 then L else zeroOrder [k.factors.length]
  let D1 := if argnum = 1 then L else zeroOrder [k.factors.length]
  mkTPLL pd k D0 D1

/-- Output shapes of the sum (those of its first summand). -/
def TPLL.outs (k : TPLL) : Shp × Shp :=
  match k.summands with
  | [] => ([], [])
  | s :: _ => (s.2.head.out0, s.2.head.out1)

/-- `_registry.py:54-72`: a differential operator applied to a transformed tensor product. -/
noncomputable def applyTPLL (pd : PDFac) (L : DOp) (k : TPLL) (argnum : ℤ) : Except Err TPLL := do
  validate L [k.k.factors.length] k.outs.1 k.outs.2 argnum
  if argnum = 0 then
    match k.L0.order? with
    | none => .error .attributeError
    | some n => if n = 0 then mkTPLL pd k.k L k.L1 else .error .notImplemented
  else
    match k.L1.order? with
    | none => .error .attributeError
    | some n => if n = 0 then mkTPLL pd k.k k.L0 L else .error .notImplemented

/-- `diffops/_tensor_product.py:97-110`: one term of `_compute_res` — collect the factors, using and filling the
dictionary of results. -/
def termLoop {α : Type} (f : Fac → ℕ → Except Err α) (facs : Cache Fac) (a b : MI) :
    List ℕ → Cache α → Except Err (List α × Cache α)
  | [], c => .ok ([], c)
  | i :: is, c =>
    let key := (a.data.getD i 0, b.data.getD i 0)
    match c.look i key with
    | some v => do
      let (r, c') ← termLoop f facs a b is c
      .ok (v :: r, c')
    | none =>
      match facs.look i key with
      | none => .error .keyError
      | some k => do
        let v ← f k i
        let (r, c') ← termLoop f facs a b is (c.put i key v)
        .ok (v :: r, c')

/-- `diffops/_tensor_product.py:95-114`: the loops of `_compute_res`; `add c v res` is `res + c * v`. -/
noncomputable def resLoop {α : Type} (f : Fac → ℕ → Except Err α) (op : α → α → α) (add : ℝ → α → α → α)
    (facs : Cache Fac) (d : ℕ) : List ((MI × ℝ) × (MI × ℝ)) → α → Cache α → Except Err α
  | [], res, _ => .ok res
  | ((a, ca), (b, cb)) :: r, res, c => do
    let (vs, c') ← termLoop f facs a b (List.range d) c
    let v ← reduceE op vs
    resLoop f op add facs d r (add (ca * cb) v res) c'

/-- `diffops/_tensor_product.py:82-114` (`_compute_res`). -/
noncomputable def TPLL.computeRes {α : Type} (k : TPLL) (f : Fac → ℕ → Except Err α) (op : α → α → α) (add : ℝ → α → α → α)
    (zero : α) : Except Err α := do
  let r0 ← coeffRow k.L0
  let r1 ← coeffRow k.L1
  resLoop f op add k.cache k.k.factors.length (pairs r0 r1) zero (List.replicate k.k.factors.length [])

/-- `diffops/_tensor_product.py:116-121` (`_evaluate`), one pair of points and one output entry. -/
noncomputable def TPLL.evaluate (k : TPLL) (x0 : List ℝ) (x1 : Option (List ℝ)) (o : List ℕ) : Except Err ℝ :=
  k.computeRes (fun f i => .ok (f.ev (x0.getD i 0) ((x1.getD x0).getD i 0) o)) (· * ·) (fun c v res => res + c * v) 0

/-- Evaluation as a plain sum (`_jax_arithmetic.py:47-68`, the base class): sum of the scaled summands. -/
noncomputable def TPLL.sumEvaluate (k : TPLL) (x0 : List ℝ) (x1 : Option (List ℝ)) (o : List ℕ) : ℝ :=
  (k.summands.map fun s => s.1 * s.2.evaluate x0 x1 o).sum

/-- `res + c * A` on linear operators; `0 + c * A` is `c * A` (`none` is the initial `0`). -/
noncomputable def addScaled (c : ℝ) (A : Option (Mat ℝ)) (res : Option (Mat ℝ)) : Option (Mat ℝ) :=
  match A, res with
  | some A, none => some ⟨A.rows, A.cols, fun i j => c * A.entry i j⟩
  | some A, some R => some ⟨R.rows, R.cols, fun i j => R.entry i j + c * A.entry i j⟩
  | none, r => r

/-- Kronecker product of two results. -/
def kronO (A B : Option (Mat ℝ)) : Option (Mat ℝ) :=
  match A, B with
  | some A, some B => some (kron A B)
  | _, _ => none

/-- `diffops/_tensor_product.py:142-157`: the Kronecker branch of `linop`; line 148 takes the factors of `x0` also
for the second grid. -/
noncomputable def TPLL.linopKron (k : TPLL) (g0 : TPGrid) (g1 : Option TPGrid) : Except Err (Option (Mat ℝ)) :=
  let x1Factors : List (Option (List ℝ)) := match g1 with
    | some _ => g0.factors.map some
    | none => g0.factors.map fun _ => none
  k.computeRes (fun f i =>
    match g0.factors[i]?, x1Factors[i]? with
    | some a, some b => .ok (some (f.linop a b))
    | _, _ => .error .indexError) kronO addScaled none

end LinPDE.Tensor
