import Verif.Poly.IntEval
import Verif.Domain.Model
import Mathlib.MeasureTheory.Integral.IntervalIntegral.Basic

/-!
# Model of `functions/_piecewise.py` and of the Lebesgue integral of piecewise functions (`functions/_linfunctls.py`)

Scalars are real numbers. Evaluation at arrays of integers is modelled separately (`PW.evaluateInt`), because
`numpy.piecewise` allocates its result with the dtype of the argument. The JAX variants run the same formulas.
-/

namespace LinPDE.Piecewise
open LinPDE.Polys (Poly)

/-- Exceptions. -/
inductive Err
  | valueError
  | indexError
  | typeError
  deriving DecidableEq

/-- The pieces: a `Polynomial`, a `Constant`, any other scalar function. -/
inductive Piece
  | poly (p : Poly ℝ)
  | const (c : ℝ)
  | fn (f : ℝ → ℝ)

/-- Evaluation of a piece. -/
noncomputable def Piece.ev : Piece → ℝ → ℝ
  | .poly p, x => p.eval x
  | .const c, _ => c
  | .fn f, x => f x

/-- The classes `Piecewise`, `PiecewiseLinear`, `PiecewiseConstant`. -/
inductive Kind
  | general
  | linear
  | constant
  deriving DecidableEq

/-- A piecewise function. -/
structure PW where
  kind : Kind
  xs : List ℝ
  fns : List Piece

/-- `_piecewise.py:17-39` (`Piecewise.__init__`): one piece fewer than breakpoints; `xs` is neither sorted nor checked. -/
def mkPW (kind : Kind) (xs : List ℝ) (fns : List Piece) : Except Err PW :=
  if fns.length + 1 ≠ xs.length then .error .valueError else .ok ⟨kind, xs, fns⟩

/-- `_piecewise.py:144-157` (`PiecewiseConstant.__init__`). -/
def mkConstant (xs ys : List ℝ) : Except Err PW := mkPW .constant xs (ys.map .const)

open Classical in
/-- `numpy.piecewise` at one point: zeros, overwritten by every piece whose condition holds, in order. -/
noncomputable def npPiecewise (cf : List (Prop × (ℝ → ℝ))) (x : ℝ) : ℝ :=
  cf.foldl (fun y cf => if cf.1 then cf.2 x else y) 0

/-- The conditions of `_piecewise.py:56-61` (`Piecewise._evaluate`) and of `:166-168` (`PiecewiseConstant._evaluate`). -/
def PW.conds (f : PW) (x : ℝ) : List (Prop × Piece) :=
  let X := fun i => f.xs.getD i 0
  match f.kind with
  | .constant => f.fns.mapIdx fun i p => ((X i < x ∧ x ≤ X (i + 1)), p)
  | _ => f.fns.mapIdx fun i p => ((if i = 0 then X 0 ≤ x ∧ x ≤ X 1 else X i < x ∧ x ≤ X (i + 1)), p)

/-- Building the conditions indexes `xs[0]` and `xs[1]` (`_piecewise.py:57`), except for constants. -/
def PW.indexable (f : PW) : Prop := f.kind = .constant ∨ ¬f.xs.length < 2

open Classical in
/-- `_piecewise.py:53-64` (`Piecewise._evaluate`) and `:163-170` (`PiecewiseConstant._evaluate`) at a float. -/
noncomputable def PW.evaluate (f : PW) (x : ℝ) : Except Err ℝ :=
  if f.indexable then .ok (npPiecewise ((f.conds x).map fun c => (c.1, c.2.ev)) x) else .error .indexError

/-- Evaluation of a piece at an integer. -/
noncomputable def Piece.evInt : Piece → ℤ → Except Err ℝ
  | .poly p, x => match p.evalInt x with
    | .ok z => .ok z
    | .error _ => .error .typeError
  | .const c, _ => .ok c
  | .fn f, x => .ok (f x)

open Classical in
/-- The same at an integer: `numpy.piecewise` evaluates the pieces at integers and stores the results in an integer array. -/
noncomputable def PW.evaluateInt (f : PW) (x : ℤ) : Except Err ℤ :=
  if f.indexable then
    (f.conds x).foldlM (fun y c => if c.1 then (match c.2.evInt x with
      | .ok v => .ok (LinPDE.Polys.truncTo v)
      | .error e => .error e) else .ok y) 0
  else .error .indexError

/-- `_piecewise.py:90-103` (`PiecewiseLinear.from_points`). -/
noncomputable def fromPoints (xs ys : List ℝ) : Except Err PW :=
  mkPW .linear xs (((xs.zip xs.tail).zip (ys.zip ys.tail)).map fun ⟨⟨l, r⟩, ⟨yl, yr⟩⟩ =>
    let slope := (yr - yl) / (r - l)
    let offset := yl - slope * l
    .poly (.ofCoeffs [offset, slope]))

/-- Multiplication of a piece by a number (`Polynomial.__rmul__`, `Constant.__rmul__`, `JaxFunction.__rmul__`). -/
noncomputable def Piece.smul (c : ℝ) : Piece → Piece
  | .poly p => .poly (p.smul c)
  | .const v => .const (c * v)
  | .fn f => .fn fun x => c * f x

/-- Sum of a piece and a `Polynomial` (`Polynomial.__add__`, `Constant` + `Polynomial`, `JaxFunction.__add__`). -/
noncomputable def Piece.addPoly (q : Poly ℝ) : Piece → Piece
  | .poly p => .poly (p.add q)
  | .const v => .poly (q.addConst v)
  | .fn f => .fn fun x => f x + q.eval x

/-- Sum of a piece and a `Constant`. -/
noncomputable def Piece.addConst (v : ℝ) : Piece → Piece
  | .poly p => .poly (p.addConst v)
  | .const w => .const (w + v)
  | .fn f => .fn fun x => f x + v

/-- `_piecewise.py:79-86, 133-141` (`__rmul__`): a linear function stays linear, anything else becomes a `Piecewise`. -/
noncomputable def PW.smul (c : ℝ) (f : PW) : Except Err PW :=
  mkPW (if f.kind = .linear then .linear else .general) f.xs (f.fns.map (Piece.smul c))

/-- `_piecewise.py:105-124` (`PiecewiseLinear.__add__` with a `Polynomial`). -/
noncomputable def PW.addPoly (f : PW) (q : Poly ℝ) : Except Err PW :=
  mkPW (if q.degree = 1 then .linear else .general) f.xs (f.fns.map (Piece.addPoly q))

/-- `_piecewise.py:126-131` (`PiecewiseLinear.__add__` with a `Constant`). -/
noncomputable def PW.addConst (f : PW) (v : ℝ) : Except Err PW := mkPW .linear f.xs (f.fns.map (Piece.addConst v))

/-- `_linfunctls.py:9-13`, `linfunctls/_integrals.py:37-62`: integral of a piece over `[l, r]`; `scipy.integrate.quad` is
taken to be exact. -/
noncomputable def Piece.integral (l r : ℝ) : Piece → ℝ
  | .poly p => p.integrate.eval r - p.integrate.eval l
  | .const c => c * (r - l)
  | .fn f => ∫ x in l..r, f x

/-- `LebesgueIntegral((l, r))(piece)`: the domain is converted by `asdomain`, which rejects reversed intervals. -/
noncomputable def integratePiece (l r : ℝ) (p : Piece) : Except Err ℝ :=
  match LinPDE.Domains.asdomain (.scalars l r) with
  | .ok _ => .ok (p.integral l r)
  | .error _ => .error .valueError

/-- Python slice `l[i:j]` with nonnegative bounds. -/
def slice {α : Type} (l : List α) (i j : ℕ) : List α := (l.take j).drop i

open Classical in
/-- `np.searchsorted(xs, v, side="right")` for a sorted list: the number of entries that are at most `v`. -/
noncomputable def searchsortedRight (xs : List ℝ) (v : ℝ) : ℕ := (xs.filter fun x => decide (x ≤ v)).length

/-- `_linfunctls.py:16-34`: integral of a piecewise function over `[a, b]`. -/
noncomputable def PW.integral (f : PW) (a b : ℝ) : Except Err ℝ :=
  let start := searchsortedRight f.xs a
  let stop := searchsortedRight f.xs b
  if start = 0 then .error .valueError
  else
    let idxStart := start - 1
    let xs := a :: slice f.xs (idxStart + 1) (stop - 1) ++ [b]
    let fs := slice f.fns idxStart (stop - 1)
    (fs.zip (xs.zip xs.tail)).foldlM (fun s t => do
      let v ← integratePiece t.2.1 t.2.2 t.1
      .ok (s + v)) 0

end LinPDE.Piecewise
