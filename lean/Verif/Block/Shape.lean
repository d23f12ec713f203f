import Mathlib.Data.Fintype.Sum
import Mathlib.Data.Real.Basic
import Mathlib.LinearAlgebra.Matrix.PosDef
import Mathlib.LinearAlgebra.Matrix.SchurComplement

/-!
# Index shapes of nested 2×2 block operators

A `Shape` records how a square operator of `linops/_block.py` is nested: a plain operator of size
`n`, or a `BlockMatrix2x2` built from an operator of shape `a` (block `A`) and one of shape `b`
(block `D`).  `Shape.Idx` is the set of row (and column) indices, `Shape.pos` the position of an
index in the flat vector (`np.concatenate` of the two parts).
-/

namespace LinPDE.Block

inductive Shape where
  | leaf (n : ℕ)
  | node (a b : Shape)
  deriving DecidableEq

def Shape.Idx : Shape → Type
  | .leaf n => Fin n
  | .node a b => a.Idx ⊕ b.Idx

instance Shape.instFintype : ∀ s : Shape, Fintype s.Idx
  | .leaf n => inferInstanceAs (Fintype (Fin n))
  | .node a b =>
    haveI := Shape.instFintype a
    haveI := Shape.instFintype b
    inferInstanceAs (Fintype (a.Idx ⊕ b.Idx))

instance Shape.instDecEq : ∀ s : Shape, DecidableEq s.Idx
  | .leaf n => inferInstanceAs (DecidableEq (Fin n))
  | .node a b =>
    haveI := Shape.instDecEq a
    haveI := Shape.instDecEq b
    inferInstanceAs (DecidableEq (a.Idx ⊕ b.Idx))

/-- Number of rows (`shape[0]`). -/
def Shape.size : Shape → ℕ
  | .leaf n => n
  | .node a b => a.size + b.size

/-- Position of an index in the flat vector. -/
def Shape.pos : (s : Shape) → s.Idx → ℕ
  | .leaf _, i => Fin.val i
  | .node a _, .inl i => a.pos i
  | .node a b, .inr j => a.size + b.pos j

/-- A matrix is lower triangular with respect to the flat positions. -/
def IsLower {s : Shape} (M : Matrix s.Idx s.Idx ℝ) : Prop :=
  ∀ i j, s.pos i < s.pos j → M i j = 0

/-- A matrix is upper triangular with respect to the flat positions. -/
def IsUpper {s : Shape} (M : Matrix s.Idx s.Idx ℝ) : Prop :=
  ∀ i j, s.pos j < s.pos i → M i j = 0

end LinPDE.Block
