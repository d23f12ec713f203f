import Mathlib.Algebra.BigOperators.Group.Finset.Basic
import Mathlib.Algebra.Ring.Defs
import Mathlib.Algebra.Order.Group.Nat
import Mathlib.Data.List.TakeDrop

/-!
# Model of `BlockMatrix` (`linops/_block.py:17-80`) and `ConcatenatedLinearOperator`
(`linops/_concatenated.py:8-68`)

Matrices are entry functions together with their shape.  The leaf operators are given by the dense
matrix they denote; the list handling, splitting and stacking code is modelled line by line.
-/

namespace LinPDE.Grid

/-- Exceptions. -/
inductive Err where
  | assertionError
  | valueError
  deriving DecidableEq, Repr

/-- A dense matrix: shape and entries (entries outside the shape are junk). -/
structure Mat (K : Type) where
  rows : ℕ
  cols : ℕ
  entry : ℕ → ℕ → K

variable {K : Type} [CommRing K]

/-- Equality of shape and of all entries within the shape. -/
def Mat.Eqv (A B : Mat K) : Prop :=
  A.rows = B.rows ∧ A.cols = B.cols ∧ ∀ i < A.rows, ∀ j < A.cols, A.entry i j = B.entry i j

/-- The mathematical matrix product (specification). -/
def Mat.mulSpec (A x : Mat K) : Mat K :=
  ⟨A.rows, x.cols, fun i j => ∑ k ∈ Finset.range A.cols, A.entry i k * x.entry k j⟩

/-- `A @ x` of numpy / probnum: refuses incompatible shapes. -/
def Mat.matmul (A x : Mat K) : Except Err (Mat K) :=
  if A.cols = x.rows then .ok (A.mulSpec x) else .error .valueError

/-- `A.T`. -/
def Mat.T (A : Mat K) : Mat K := ⟨A.cols, A.rows, fun i j => A.entry j i⟩

/-- `x[a:b, :]` (numpy clamps slice bounds). -/
def Mat.slice (x : Mat K) (a b : ℕ) : Mat K :=
  ⟨min b x.rows - min a x.rows, x.cols, fun i j => x.entry (a + i) j⟩

/-- `np.split(x, indices, axis=-2)`, started at row `a`. -/
def npSplit (x : Mat K) (a : ℕ) : List ℕ → List (Mat K)
  | [] => [x.slice a x.rows]
  | i :: is => x.slice a i :: npSplit x i is

/-- `np.array(ws).cumsum()`, started at `a`. -/
def cumsum (a : ℕ) : List ℕ → List ℕ
  | [] => []
  | w :: ws => (a + w) :: cumsum (a + w) ws

/-- Stack two matrices vertically. -/
def vcat (A B : Mat K) : Mat K :=
  ⟨A.rows + B.rows, A.cols, fun i j => if i < A.rows then A.entry i j else B.entry (i - A.rows) j⟩

/-- Glue two matrices horizontally. -/
def hcat (A B : Mat K) : Mat K :=
  ⟨A.rows, A.cols + B.cols, fun i j => if j < A.cols then A.entry i j else B.entry i (j - A.cols)⟩

def vcatL : List (Mat K) → Mat K
  | [] => ⟨0, 0, fun _ _ => 0⟩
  | A :: l => vcat A (vcatL l)

def hcatL : List (Mat K) → Mat K
  | [] => ⟨0, 0, fun _ _ => 0⟩
  | A :: l => hcat A (hcatL l)

/-- `np.concatenate(l, axis=-2)`: needs at least one array and equal widths. -/
def concatRows : List (Mat K) → Except Err (Mat K)
  | [] => .error .valueError
  | A :: l => if l.all (fun B => B.cols == A.cols) then .ok (vcatL (A :: l)) else .error .valueError

/-- `np.concatenate(l, axis=-1)`: needs at least one array and equal heights. -/
def concatCols : List (Mat K) → Except Err (Mat K)
  | [] => .error .valueError
  | A :: l => if l.all (fun B => B.rows == A.rows) then .ok (hcatL (A :: l)) else .error .valueError

/-- Entrywise sum of a list of matrices of the given shape. -/
def sumL (h w : ℕ) : List (Mat K) → Mat K
  | [] => ⟨h, w, fun _ _ => 0⟩
  | A :: l => ⟨h, w, fun i j => A.entry i j + (sumL h w l).entry i j⟩

/-- `np.sum(tuple_of_arrays, axis=0)`: the arrays must have one common shape. -/
def npSum : List (Mat K) → Except Err (Mat K)
  | [] => .error .valueError
  | A :: l =>
    if l.all (fun B => B.rows == A.rows && B.cols == A.cols) then .ok (sumL A.rows A.cols (A :: l))
    else .error .valueError

/-! ## BlockMatrix -/

/-- A grid of blocks (`self._blocks`). -/
structure BM (K : Type) where
  blocks : List (List (Mat K))

/-- The width list `tuple(block.shape[1] for block in self._blocks[0, :])`. -/
def BM.widths (b : BM K) : List ℕ := (b.blocks.headD []).map Mat.cols

/-- The height list: `block.shape[0] for block in self._blocks[:, 0]`. -/
def BM.heights (b : BM K) : List ℕ := b.blocks.map fun row => (row.headD ⟨0, 0, fun _ _ => 0⟩).rows

/-- `linops/_block.py:28-47` (`__init__`).  `np.block` refuses empty and ragged nested lists; then
every block is compared with the first block of its row and the first block of its column. -/
def BM.mk' (blocks : List (List (Mat K))) : Except Err (BM K) :=
  match blocks with
  | [] => .error .valueError
  | row0 :: rows =>
    if row0.isEmpty || !(rows.all fun r => r.length == row0.length) then .error .valueError
    else if (row0 :: rows).all (fun row =>
        (row.zip row0).all fun p => (p.1.rows == (row.headD p.1).rows) && (p.1.cols == p.2.cols)) then
      .ok ⟨row0 :: rows⟩
    else .error .valueError

/-- `linops/_block.py:42-44`: the shape handed to `super().__init__`. -/
def BM.shape (b : BM K) : ℕ × ℕ := (b.heights.sum, b.widths.sum)

/-- `linops/_block.py:52-53` with lines 45-47: `np.split(x, cumsum(widths)[:-1], axis=-2)`. -/
def BM.splitInput (b : BM K) (x : Mat K) : List (Mat K) :=
  npSplit x 0 (cumsum 0 b.widths).dropLast

/-- One row of `linops/_block.py:58-68`. -/
def rowResult (row : List (Mat K)) (xs : List (Mat K)) : Except Err (Mat K) := do
  let parts ← (row.zip xs).mapM fun p => p.1.matmul p.2
  npSum parts

/-- `linops/_block.py:55-69` (`_matmul`), behind probnum's shape check in `__matmul__`. -/
def BM.matmul (b : BM K) (x : Mat K) : Except Err (Mat K) :=
  if b.shape.2 = x.rows then do
    let rs ← b.blocks.mapM fun row => rowResult row (b.splitInput x)
    concatRows rs
  else .error .valueError

/-- `linops/_block.py:71-75` (`_transpose`): transpose the grid and each block, then construct
again. -/
def BM.transpose (b : BM K) : Except Err (BM K) :=
  BM.mk' ((List.range (b.blocks.headD []).length).map fun j =>
    b.blocks.map fun row => (row.getD j ⟨0, 0, fun _ _ => 0⟩).T)

/-- `linops/_block.py:77-81` (`_todense`): `np.block` of the dense blocks. -/
def BM.todense (b : BM K) : Except Err (Mat K) := do
  let rows ← b.blocks.mapM concatCols
  concatRows rows

/-! ## ConcatenatedLinearOperator -/

/-- A concatenation; `axis` is already normalised to `0` or `1`. -/
structure Cat (K : Type) where
  linops : List (Mat K)
  vertical : Bool

/-- `linops/_concatenated.py:9-34` (`__init__`). -/
def Cat.mk' (linops : List (Mat K)) (axis : ℤ) : Except Err (Cat K) :=
  match linops with
  | [] => .error .valueError
  | A :: l =>
    if ¬ (axis = 0 ∨ axis = 1 ∨ axis = -1 ∨ axis = -2) then .error .valueError
    else
      let axis := if axis < 0 then axis + 2 else axis
      if axis = 0 then
        if (A :: l).all (fun B => B.cols == A.cols) then .ok ⟨A :: l, true⟩ else .error .assertionError
      else if (A :: l).all (fun B => B.rows == A.rows) then .ok ⟨A :: l, false⟩
      else .error .assertionError

/-- Shape computed in lines 18-30. -/
def Cat.shape (c : Cat K) : ℕ × ℕ :=
  let first : Mat K := c.linops.headD ⟨0, 0, fun _ _ => 0⟩
  if c.vertical then ((c.linops.map Mat.rows).sum, first.cols)
  else (first.rows, (c.linops.map Mat.cols).sum)

/-- `linops/_concatenated.py:45-50` with lines 27-29. -/
def Cat.splitInput (c : Cat K) (x : Mat K) : List (Mat K) :=
  npSplit x 0 (cumsum 0 (c.linops.map Mat.cols)).dropLast

/-- `linops/_concatenated.py:52-61` (`_matmul`), behind probnum's shape check. -/
def Cat.matmul (c : Cat K) (x : Mat K) : Except Err (Mat K) :=
  if c.shape.2 = x.rows then
    if c.vertical then do
      let parts ← c.linops.mapM fun A => A.matmul x
      concatRows parts
    else rowResult c.linops (c.splitInput x)
  else .error .valueError

/-- `linops/_concatenated.py:63-66` (`_transpose`): `1 - axis`. -/
def Cat.transpose (c : Cat K) : Except Err (Cat K) :=
  Cat.mk' (c.linops.map Mat.T) (1 - if c.vertical then 0 else 1)

/-- `linops/_concatenated.py:68-71` (`_todense`). -/
def Cat.todense (c : Cat K) : Except Err (Mat K) :=
  if c.vertical then concatRows c.linops else concatCols c.linops

end LinPDE.Grid
