import Verif.Rounding.Model
import Verif.GP.Model

/-!
# Model of repeated conditioning in floating point

`BlockMatrix2x2.schur_update` (`linops/_block.py:226-231`) and `condition_on_observations`
(`_gaussian_process/_conditional.py:253-294`) with rounded products, sums and differences. What the libraries return as solutions of the two
linear systems is arbitrary (`Solver`): it enters the bounds through its residual.
-/

namespace LinPDE.Rounding
open Finset Matrix LinPDE.GP LinPDE.Block

section
variable {α β : Type} [Fintype α] [Fintype β]

/-- The sum in floating point in some order; an empty sum has none. -/
def sumFl (F : Fmt) (f : α → ℝ) : Option (Tree α) → ℝ
  | none => 0
  | some t => t.fl F f

/-- Every summand occurs exactly once. -/
def FullOpt : Option (Tree α) → Prop
  | none => IsEmpty α
  | some t => t.Full

/-- `v - self.C @ A_inv_u`, in floating point (`linops/_block.py:229`). -/
def updRhs (F : Fmt) (tC : Option (Tree α)) (C : Matrix β α ℝ) (w : α → ℝ) (v : β → ℝ) : β → ℝ :=
  fun i => F.rd (v i - sumFl F (fun j => F.rd (C i j * w j)) tC)

/-- `self.B @ y`, in floating point (`linops/_block.py:230`). -/
def updBy (F : Fmt) (tB : Option (Tree β)) (B : Matrix α β ℝ) (y : β → ℝ) : α → ℝ := fun i => sumFl F (fun j => F.rd (B i j * y j)) tB

/-- `linops/_block.py:226-231` (`schur_update`) for operators that are not block diagonal, in floating point; `solveS` and `solveA` stand for
`self.schur.inv() @ …` and `self.A.inv() @ …`. -/
def updateFl (F : Fmt) (tC : Option (Tree α)) (tB : Option (Tree β)) (B : Matrix α β ℝ) (C : Matrix β α ℝ) (solveS : (β → ℝ) → β → ℝ) (solveA : (α → ℝ) → α → ℝ)
    (w : α → ℝ) (v : β → ℝ) : α ⊕ β → ℝ :=
  let y := solveS (updRhs F tC C w v)
  let z := solveA (updBy F tB B y)
  Sum.elim (fun i => F.rd (w i - z i)) y

/-- Specification: the error added by an update. `S` is the Schur complement, `K = C A⁻¹`. The terms are the residuals of the two solves, the
rounding errors of the two products (the second ones are also propagated by `K`) and of the subtraction. -/
noncomputable def stepErr [DecidableEq α] (F : Fmt) (tC : Option (Tree α)) (tB : Option (Tree β)) (A : Matrix α α ℝ) (B : Matrix α β ℝ) (C : Matrix β α ℝ) (D : Matrix β β ℝ)
    (solveS : (β → ℝ) → β → ℝ) (solveA : (α → ℝ) → α → ℝ) (w : α → ℝ) (v : β → ℝ) : ℝ :=
  let r := updRhs F tC C w v
  let y := solveS r
  let t := updBy F tB B y
  let z := solveA t
  (∑ i, (|((D - C * A⁻¹ * B) *ᵥ y) i - r i| + ((1 + F.u) ^ (Fintype.card α + 1) - 1) * (|v i| + ∑ j, |C i j| * |w j|))) +
    (∑ j, (1 + ∑ i, |(C * A⁻¹) i j|) * (|(A *ᵥ z) j - t j| + ((1 + F.u) ^ Fintype.card β - 1) * ∑ i, |B j i| * |y i|)) +
    ∑ j, (∑ i, |A i j| + ∑ i, |C i j|) * (F.u * |w j - z j|)

end

/-- What the libraries return for a linear system: anything. -/
abbrev Solver := ∀ s : Shape, Matrix s.Idx s.Idx ℝ → (s.Idx → ℝ) → s.Idx → ℝ

variable {X : Type}

/-- A conditional process with the representer weights computed in floating point and the bound on their residual. -/
structure FlCond (P : Prior X) extends Cond P where
  wf : s.Idx → ℝ
  err : ℝ

/-- `_conditional.py:26-54` (`from_observations`), in floating point. The error of the first solve is measured by its residual. -/
noncomputable def FlCond.fromObservations (F : Fmt) (slv : Solver) (e : Env) {P : Prior X} (b : Batch P) : Except Err (FlCond P) := do
  let w ← b.gramOp.solve e (col fun i => b.Y i - b.predMean i)
  let wf := slv (.leaf b.n) b.gramOp.toMat fun i : Fin b.n => F.rd (b.Y i - b.predMean i)
  return { s := .leaf b.n, kLas := fun i => P.cross (b.L i), gram := b.gramOp, w := w, Ls := b.L, Ys := b.Y, bs := b.bMean,
           wf := wf, err := ∑ i : Fin b.n, |(b.gramOp.toMat *ᵥ wf) i - (b.Y i - b.predMean i)| }

/-- `_conditional.py:253-294` (`condition_on_observations`), in floating point: the new weights are those of `schur_update`. `tr` are the orders of
summation. The last summand of the bound is the rounding of `Y - pred_mean`. -/
noncomputable def FlCond.condition (F : Fmt) (slv : Solver) (tr : ∀ s : Shape, Option (Tree s.Idx)) (e : Env) {P : Prior X} (c : FlCond P) (b : Batch P) :
    Except Err (FlCond P) := do
  let lower : Matrix (Fin b.n) c.s.Idx ℝ := Matrix.of fun i j => (b.L i).1 (c.kLas j)
  let gram ← mk2x2 c.gram (some lowerᵀ) none b.gramOp true
  let w ← gram.schurUpdate e c.w (col fun i => b.Y i - b.predMean i)
  let A := c.gram.toMat
  let D : Matrix (Fin b.n) (Fin b.n) ℝ := b.gramOp.toMat
  let v : Fin b.n → ℝ := fun i => F.rd (b.Y i - b.predMean i)
  let solveS : (Fin b.n → ℝ) → Fin b.n → ℝ := slv (.leaf b.n) (D - lower * A⁻¹ * lowerᵀ)
  let solveA := slv c.s A
  let tB : Option (Tree (Fin b.n)) := tr (.leaf b.n)
  return { s := .node c.s (.leaf b.n), kLas := Sum.elim c.kLas fun i => P.cross (b.L i), gram := gram, w := w,
           Ls := Sum.elim c.Ls b.L, Ys := Sum.elim c.Ys b.Y, bs := Sum.elim c.bs b.bMean,
           wf := updateFl F (tr c.s) tB lowerᵀ lower solveS solveA c.wf v,
           err := c.err + (stepErr F (tr c.s) tB A lowerᵀ lower D solveS solveA c.wf v + ∑ i, F.u * |b.Y i - b.predMean i|) }

/-- A whole history, in floating point. -/
noncomputable def flRun (F : Fmt) (slv : Solver) (tr : ∀ s : Shape, Option (Tree s.Idx)) (e : Env) {P : Prior X} (b : Batch P) (l : List (Batch P)) :
    Except Err (FlCond P) := do
  let c ← FlCond.fromObservations F slv e b
  l.foldlM (fun c b => c.condition F slv tr e b) c

end LinPDE.Rounding
