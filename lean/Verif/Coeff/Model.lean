import Verif.Nd.Basic
import Mathlib.Data.Real.Basic
import Mathlib.Algebra.Module.Basic
import Mathlib.Algebra.Module.Defs

/-!
# Model of `linfuncops/diffops/_coefficients.py` and of the operator classes defined by coefficient tables

`_coefficients.py`, `_lindiffop.py`, `_partial_derivative.py`, `_laplacian.py`, `_heat.py`,
`_directional_derivative.py`, `_derivative.py`.  Arrays are stored as shape and C-order data.
-/

namespace LinPDE.Coeff
open LinPDE.Nd

/-- Exceptions. -/
inductive Err
  | valueError
  | indexError
  | assertionError
deriving DecidableEq, Repr

/-! ## `MultiIndex` -/

/-- `_coefficients.py:9-48`: a multi-index, an array of non-negative integers. -/
structure MI where
  shape : Shp
  data : List ℕ
deriving DecidableEq, Repr

/-- `_coefficients.py:20-24` (`__init__`): arrays with negative entries are refused. -/
def MI.mk' (shape : Shp) (data : List ℤ) : Except Err MI :=
  if data.any (· < 0) then .error .valueError else .ok ⟨shape, data.map Int.toNat⟩

/-- `_coefficients.py:26-32` (`from_index`), with the position of the index in C order. -/
def MI.fromPos (p : ℕ) (shape : Shp) (order : ℕ) : MI := ⟨shape, (List.replicate shape.prod 0).set p order⟩

/-- `_coefficients.py:34-36`. -/
def MI.order (a : MI) : ℕ := a.data.sum

/-- `_coefficients.py:38-40`. -/
def MI.isMixed (a : MI) : Bool := 1 < (a.data.filter (· ≠ 0)).length

/-- NumPy broadcasting of reversed shapes. -/
def bcastRev : Shp → Shp → Option Shp
  | [], t => some t
  | s, [] => some s
  | a :: s, b :: t =>
    (if a = b then some a else if a = 1 then some b else if b = 1 then some a else none).bind fun c =>
      (bcastRev s t).map fun r => c :: r

/-- NumPy broadcasting of shapes. -/
def bcast (s t : Shp) : Option Shp := (bcastRev s.reverse t.reverse).map List.reverse

/-- Entry of a broadcast array: drop leading axes, clamp axes of length one. -/
def MI.bget (a : MI) (idx : List ℕ) : ℕ :=
  let own := idx.drop (idx.length - a.shape.length)
  a.data.getD (ravel a.shape (List.zipWith (fun n i => if n = 1 then 0 else i) a.shape own)) 0

/-- `_coefficients.py:56-59` (`__eq__`): `np.all(self.array == other.array)`; arrays that do not broadcast
compare unequal or raise, depending on the NumPy version (`none`). -/
def MI.eq (a b : MI) : Option Bool :=
  match bcast a.shape b.shape with
  | none => none
  | some s => some ((List.range s.prod).all fun p => a.bget (unravel s p) == b.bget (unravel s p))

/-- `_coefficients.py:53-54` (`__hash__`): the bytes that are hashed. -/
def MI.hashInput (a : MI) : List ℕ := a.data

/-! ## `PartialDerivativeCoefficients` -/

/-- One row of the table: multi-indices and coefficients (a dictionary in insertion order). -/
abbrev Row := List (MI × ℝ)

/-- `_coefficients.py:65-120`: the coefficient table. -/
structure Table where
  dict : List (List ℤ × Row)
  domShape : Shp
  codShape : Shp

/-- `_coefficients.py:103-105`: validity of a codomain index. -/
def codIdxOK (idx : List ℤ) (shape : Shp) : Bool :=
  idx.length == shape.length && (idx.zip shape).all fun p => p.1 < (p.2 : ℤ)

/-- `_coefficients.py:95-120` (`__init__`). -/
def Table.mk' (dict : List (List ℤ × Row)) (domShape codShape : Shp) : Except Err Table :=
  if dict.all fun kv => codIdxOK kv.1 codShape && kv.2.all fun mc => mc.1.shape == domShape
  then .ok ⟨dict, domShape, codShape⟩ else .error .valueError

/-- `_coefficients.py:122-124`. -/
def Table.numEntries (t : Table) : ℕ := (t.dict.map fun kv => kv.2.length).sum

/-- `_coefficients.py:126-132`. -/
def Table.hasMixed (t : Table) : Bool := t.dict.any fun kv => kv.2.any fun mc => mc.1.isMixed

/-- `_coefficients.py:171-178`: add one coefficient to a row. -/
noncomputable def rowInsert : Row → MI → ℝ → Row
  | [], m, c => [(m, c)]
  | (m', c') :: r, m, c => if m = m' then (m', c' + c) :: r else (m', c') :: rowInsert r m c

/-- `_coefficients.py:170-178`: merge a row. -/
noncomputable def rowMerge (r s : Row) : Row := s.foldl (fun acc mc => rowInsert acc mc.1 mc.2) r

/-- `_coefficients.py:168-180`: one pass of the outer loop. -/
noncomputable def dictInsert : List (List ℤ × Row) → List ℤ → Row → List (List ℤ × Row)
  | [], k, s => [(k, s)]
  | (k', r) :: d, k, s => if k = k' then (k', rowMerge r s) :: d else (k', r) :: dictInsert d k s

/-- `_coefficients.py:154-184` (`__add__`). -/
noncomputable def Table.add (s t : Table) : Except Err Table :=
  if s.domShape ≠ t.domShape then .error .valueError
  else if s.codShape ≠ t.codShape then .error .valueError
  else Table.mk' (t.dict.foldl (fun acc kv => dictInsert acc kv.1 kv.2) s.dict) s.domShape s.codShape

/-- `_coefficients.py:189-198` (`__rmul__` with a scalar). -/
noncomputable def Table.smul (c : ℝ) (t : Table) : Except Err Table :=
  Table.mk' (t.dict.map fun kv => (kv.1, kv.2.map fun mc => (mc.1, mc.2 * c))) t.domShape t.codShape

/-- `_coefficients.py:151-152` (`__neg__`). -/
noncomputable def Table.neg (t : Table) : Except Err Table := t.smul (-1)

/-- `_coefficients.py:186-187` (`__sub__`). -/
noncomputable def Table.sub (s t : Table) : Except Err Table := do
  let n ← t.neg
  s.add n

/-! ## Operators given by tables -/

/-- `_lindiffop.py:27-42`: a differential operator. -/
structure DiffOp where
  coeffs : Table
  domShape : Shp
  codShape : Shp

/-- `_lindiffop.py:27-42` (`__init__`). -/
def DiffOp.mk' (coeffs : Table) (domShape codShape : Shp) : Except Err DiffOp :=
  if coeffs.domShape ≠ domShape then .error .valueError
  else if coeffs.codShape ≠ codShape then .error .valueError
  else .ok ⟨coeffs, domShape, codShape⟩

/-- Summand `c * PartialDerivative(m) @ SelectOutput(k)`. -/
structure Summand where
  coef : ℝ
  mi : MI
  out : List ℤ

/-- `SumLinearFunctionOperator(*xs)`: needs at least one summand (`linfuncops/_arithmetic.py:67`). -/
def mkSum {α : Type} (xs : List α) : Except Err (List α) := if xs.isEmpty then .error .indexError else .ok xs

/-- `_lindiffop.py:67-76`: inner loop. -/
def innerSum (kv : List ℤ × Row) : Except Err (List Summand) := mkSum (kv.2.map fun mc => ⟨mc.2, mc.1, kv.1⟩)

/-- All inner sums in order. -/
def innerSums : List (List ℤ × Row) → Except Err (List (List Summand))
  | [] => .ok []
  | kv :: d => do
    let s ← innerSum kv
    let r ← innerSums d
    .ok (s :: r)

/-- `_lindiffop.py:55-77` (`to_sum`), also `_to_sum_no_jax` (79-101). -/
def DiffOp.toSum (L : DiffOp) : Except Err (List (List Summand)) := do
  let ss ← innerSums L.coeffs.dict
  mkSum ss

/-- `_partial_derivative.py:17-29` (`PartialDerivative.__init__`). -/
def partialDerivative (m : MI) : Except Err DiffOp := do
  let t ← Table.mk' [([], [(m, 1)])] m.shape []
  DiffOp.mk' t m.shape []

open Classical in
/-- `np.ndenumerate(weights)` with a filter on non-zero entries, and `from_index(…, order)`. -/
noncomputable def weightRow (shape : Shp) (order : ℕ) (w : List ℝ) : Row :=
  ((List.range w.length).filter fun p => decide (w.getD p 0 ≠ 0)).map fun p => (MI.fromPos p shape order, w.getD p 0)

/-- `_laplacian.py:30-47` (`WeightedLaplacian.__init__`). -/
noncomputable def weightedLaplacian (shape : Shp) (w : List ℝ) : Except Err DiffOp := do
  let t ← Table.mk' [([], weightRow shape 2 w)] shape []
  DiffOp.mk' t shape []

/-- `_laplacian.py:77-79` (`Laplacian.__init__`). -/
noncomputable def laplacian (shape : Shp) : Except Err DiffOp := weightedLaplacian shape (List.replicate shape.prod 1)

/-- `_laplacian.py:102-114` (`SpatialLaplacian.__init__`). -/
noncomputable def spatialLaplacian (shape : Shp) : Except Err DiffOp :=
  match shape with
  | [d] => if d < 2 then .error .valueError else weightedLaplacian [d] (0 :: List.replicate (d - 1) 1)
  | _ => .error .valueError

/-- `_directional_derivative.py:16-35` (`DirectionalDerivative.__init__`). -/
noncomputable def directionalDerivative (shape : Shp) (v : List ℝ) : Except Err DiffOp := do
  let t ← Table.mk' [([], weightRow shape 1 v)] shape []
  DiffOp.mk' t shape []

/-- `_partial_derivative.py:131-144` (`TimeDerivative.__init__`).  For a domain of shape `(0,)` the tuple
`(1,) + (0,) * -1` is `(1,)`. -/
def timeDerivative (shape : Shp) : Except Err DiffOp :=
  match shape with
  | [] => partialDerivative ⟨[], [1]⟩
  | [d] => partialDerivative ⟨[1 + (d - 1)], 1 :: List.replicate (d - 1) 0⟩
  | _ => .error .valueError

/-- `_heat.py:14-31` (`HeatOperator.__init__`): the two summands; sums require equal shapes
(`linfuncops/_arithmetic.py:72-87`). -/
noncomputable def heatOperator (shape : Shp) (alpha : ℝ) : Except Err (DiffOp × DiffOp) :=
  match shape with
  | [d] => do
    let t ← timeDerivative [d]
    let l ← weightedLaplacian [d] ((List.range d).map fun i => if i = 0 then 0 else -alpha)
    if t.domShape = l.domShape ∧ t.codShape = l.codShape then .ok (t, l) else .error .assertionError
  | _ => .error .valueError

/-- `_partial_derivative.py:67-80` (`factorize_first_order`): the factors; a composition needs at least one
factor (`linfuncops/_arithmetic.py:121-124`). -/
def factorizeFirstOrder (m : MI) : Except Err (List MI) :=
  let fs := (List.range m.data.length).flatMap fun p => List.replicate (m.data.getD p 0) (MI.fromPos p m.shape 1)
  if fs.isEmpty then .error .indexError else .ok fs

/-- `_partial_derivative.py:82-93` (`factorize_dimwise`). -/
def factorizeDimwise (m : MI) : Except Err (List MI) :=
  let fs := ((List.range m.data.length).filter fun p => 0 < m.data.getD p 0).map fun p =>
    MI.fromPos p m.shape (m.data.getD p 0)
  if fs.isEmpty then .error .indexError else .ok fs

/-! ## Specification -/

/-- A table applied to given derivatives: `D k m` is the derivative `∂^m` of output `k`. -/
noncomputable def rowApply {V : Type*} [AddCommGroup V] [Module ℝ V] (D : MI → V) (r : Row) : V :=
  (r.map fun mc => mc.2 • D mc.1).sum

/-- `Σ_k Σ_m c_{k,m} ∂^m f_k`. -/
noncomputable def Table.apply {V : Type*} [AddCommGroup V] [Module ℝ V] (t : Table) (D : List ℤ → MI → V) : V :=
  (t.dict.map fun kv => rowApply (D kv.1) kv.2).sum

open Classical in
/-- Coefficient of `∂^m f_k` (zero if absent). -/
noncomputable def Table.coef (t : Table) (k : List ℤ) (m : MI) : ℝ :=
  t.apply fun k' m' => if k' = k ∧ m' = m then (1 : ℝ) else 0

/-- Keys of a dictionary are distinct. -/
structure Table.WF (t : Table) : Prop where
  outer : (t.dict.map Prod.fst).Nodup
  inner : ∀ kv ∈ t.dict, (kv.2.map Prod.fst).Nodup
  cod : ∀ kv ∈ t.dict, codIdxOK kv.1 t.codShape = true
  dom : ∀ kv ∈ t.dict, ∀ mc ∈ kv.2, mc.1.shape = t.domShape

/-- Entries of the table (pairs of output and multi-index). -/
def Table.keys (t : Table) : List (List ℤ × MI) := t.dict.flatMap fun kv => kv.2.map fun mc => (kv.1, mc.1)

end LinPDE.Coeff
