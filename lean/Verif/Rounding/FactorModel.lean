import Verif.Rounding.UpdateModel

/-!
# Model of block factorisations and block solves in floating point

`BlockMatrix2x2._cholesky`, `.L_A_inv_B`, `.schur` and `._solve` (`linops/_block.py:191-268`) with rounded products and differences. The dense
factorisation and the dense solves (SciPy) are arbitrary functions (`Lib`); they enter the bounds through their residuals.
Right-hand sides are vectors; matrices are solved column by column.
-/

namespace LinPDE.Rounding
open Finset Matrix LinPDE.GP LinPDE.Block

/-- What SciPy returns for dense matrices: anything. -/
structure Lib where
  chol : (s : Shape) → Matrix s.Idx s.Idx ℝ → Matrix s.Idx s.Idx ℝ
  solve : (s : Shape) → Matrix s.Idx s.Idx ℝ → Flags → (s.Idx → ℝ) → s.Idx → ℝ

/-- The order of summation of products over an index set. -/
abbrev Orders := ∀ s : Shape, Option (Tree s.Idx)

/-- Relative error of `n` roundings. -/
noncomputable def gam (F : Fmt) (n : ℕ) : ℝ := (1 + F.u) ^ n - 1

/-- `linops/_block.py:244-268` (`_solve`) outside of the `is_symmetric` branch, in floating point (`Op.solveNS` is the exact one). -/
noncomputable def nsFl (F : Fmt) (lib : Lib) (tr : Orders) (e : Env) : {s : Shape} → Op s → (s.Idx → ℝ) → s.Idx → ℝ
  | s, .dense M f, b => lib.solve s M f b
  | _, .block (.blockDiag _) A _ _ D, b => Sum.elim (nsFl F lib tr e A fun i => b (.inl i)) (nsFl F lib tr e D fun i => b (.inr i))
  | .node a c, .block .lower A B C D, b =>
    if e.blockTriangularSolves then
      let y0 := nsFl F lib tr e A fun i => b (.inl i)
      let y1 := nsFl F lib tr e D (updRhs F (tr a) C y0 fun i => b (.inr i))
      Sum.elim y0 y1
    else lib.solve (.node a c) (fromBlocks A.toMat B C D.toMat) { lower := true } b
  | .node a c, .block .upper A B C D, b =>
    if e.blockTriangularSolves then
      let y1 := nsFl F lib tr e D fun i => b (.inr i)
      let y0 := nsFl F lib tr e A (updRhs F (tr c) B y1 fun i => b (.inl i))
      Sum.elim y0 y1
    else lib.solve (.node a c) (fromBlocks A.toMat B C D.toMat) { upper := true } b
  | .node a c, .block .spd A B C D, b => lib.solve (.node a c) (fromBlocks A.toMat B C D.toMat) {} b
  | .node a c, .block .general A B C D, b => lib.solve (.node a c) (fromBlocks A.toMat B C D.toMat) {} b

/-- Specification: a bound on the residual of `nsFl`, entry by entry: residuals of the dense solves and rounding errors of the right-hand sides. -/
noncomputable def nsErr (F : Fmt) (lib : Lib) (tr : Orders) (e : Env) : {s : Shape} → Op s → (s.Idx → ℝ) → s.Idx → ℝ
  | s, .dense M f, b => fun i => |(M *ᵥ lib.solve s M f b) i - b i|
  | _, .block (.blockDiag _) A _ _ D, b => Sum.elim (nsErr F lib tr e A fun i => b (.inl i)) (nsErr F lib tr e D fun i => b (.inr i))
  | .node a c, .block .lower A B C D, b =>
    if e.blockTriangularSolves then
      let y0 := nsFl F lib tr e A fun i => b (.inl i)
      Sum.elim (nsErr F lib tr e A fun i => b (.inl i)) fun i => nsErr F lib tr e D (updRhs F (tr a) C y0 fun i => b (.inr i)) i +
        gam F (Fintype.card a.Idx + 1) * (|b (.inr i)| + ∑ j, |C i j| * |y0 j|)
    else fun i => |(fromBlocks A.toMat B C D.toMat *ᵥ lib.solve (.node a c) (fromBlocks A.toMat B C D.toMat) { lower := true } b) i - b i|
  | .node a c, .block .upper A B C D, b =>
    if e.blockTriangularSolves then
      let y1 := nsFl F lib tr e D fun i => b (.inr i)
      Sum.elim (fun i => nsErr F lib tr e A (updRhs F (tr c) B y1 fun i => b (.inl i)) i +
        gam F (Fintype.card c.Idx + 1) * (|b (.inl i)| + ∑ j, |B i j| * |y1 j|)) (nsErr F lib tr e D fun i => b (.inr i))
    else fun i => |(fromBlocks A.toMat B C D.toMat *ᵥ lib.solve (.node a c) (fromBlocks A.toMat B C D.toMat) { upper := true } b) i - b i|
  | .node a c, .block .spd A B C D, b => fun i => |(fromBlocks A.toMat B C D.toMat *ᵥ lib.solve (.node a c) (fromBlocks A.toMat B C D.toMat) {} b) i - b i|
  | .node a c, .block .general A B C D, b => fun i => |(fromBlocks A.toMat B C D.toMat *ᵥ lib.solve (.node a c) (fromBlocks A.toMat B C D.toMat) {} b) i - b i|

/-- `linops/_block.py:203-207` (`L_A_inv_B`) in floating point, column by column. -/
noncomputable def labFl (F : Fmt) (lib : Lib) (tr : Orders) (e : Env) {a : Shape} {κ : Type} (L : Op a) (B : Matrix a.Idx κ ℝ) : Matrix a.Idx κ ℝ :=
  Matrix.of fun i k => nsFl F lib tr e L (fun i => B i k) i

/-- `linops/_block.py:196`: `self.D - L_A_inv_B.T @ L_A_inv_B` in floating point. -/
noncomputable def schurFl (F : Fmt) (tr : Orders) {a : Shape} {κ : Type} (D : Matrix κ κ ℝ) (X : Matrix a.Idx κ ℝ) : Matrix κ κ ℝ :=
  Matrix.of fun i k => F.rd (D i k - sumFl F (fun j => F.rd (X j i * X j k)) (tr a))

/-- `linops/_block.py:233-242` (`_cholesky(lower=True)`) in floating point (`Op.cholesky` is the exact one). -/
noncomputable def cholFl (F : Fmt) (lib : Lib) (tr : Orders) (e : Env) : {s : Shape} → Op s → Except Err (Op s)
  | s, .dense M _ => .ok (.dense (lib.chol s M) { lower := true })
  | .node _ c, .block .spd A B _ D =>
    match cholFl F lib tr e A with
    | .error err => .error err
    | .ok L =>
      let X := labFl F lib tr e L B
      mk2x2 L none (some Xᵀ) (.dense (lib.chol c (schurFl F tr D.toMat X)) { lower := true }) false
  | _, .block _ _ _ _ _ => .error .valueError

/-- Specification: a bound on `L Lᵀ - M` for the factor `L` of `cholFl`, entry by entry: errors of the dense factorisations, residuals of the
triangular solves and rounding errors of the Schur complements. -/
noncomputable def cholErr (F : Fmt) (lib : Lib) (tr : Orders) (e : Env) : {s : Shape} → Op s → Matrix s.Idx s.Idx ℝ
  | s, .dense M _ => Matrix.of fun i j => |(lib.chol s M * (lib.chol s M)ᵀ) i j - M i j|
  | .node a c, .block .spd A B _ D =>
    match cholFl F lib tr e A with
    | .error _ => 0
    | .ok L =>
      let X := labFl F lib tr e L B
      let S := schurFl F tr D.toMat X
      let R : Matrix a.Idx c.Idx ℝ := Matrix.of fun i k => nsErr F lib tr e L (fun i => B i k) i
      fromBlocks (cholErr F lib tr e A) R Rᵀ (Matrix.of fun i k => |(lib.chol c S * (lib.chol c S)ᵀ) i k - S i k| +
        gam F (Fintype.card a.Idx + 1) * (|D.toMat i k| + ∑ j, |X j i| * |X j k|))
  | _, .block _ _ _ _ _ => 0

/-- `linops/_block.py:244-268` (`_solve`) in floating point (`Op.solve` is the exact one). -/
noncomputable def solveFl (F : Fmt) (lib : Lib) (tr : Orders) (e : Env) : {s : Shape} → Op s → (s.Idx → ℝ) → Except Err (s.Idx → ℝ)
  | s, .dense M f, b => .ok (lib.solve s M f b)
  | _, .block (.blockDiag _) A _ _ D, b => do
    let y0 ← solveFl F lib tr e A fun i => b (.inl i)
    let y1 ← solveFl F lib tr e D fun i => b (.inr i)
    return Sum.elim y0 y1
  | _, .block .spd A B C D, b => do
    let L ← cholFl F lib tr e (.block .spd A B C D)
    return nsFl F lib tr e (L.transpose e) (nsFl F lib tr e L b)
  | .node a c, .block .lower A B C D, b =>
    if e.blockTriangularSolves then do
      let y0 ← solveFl F lib tr e A fun i => b (.inl i)
      let y1 ← solveFl F lib tr e D (updRhs F (tr a) C y0 fun i => b (.inr i))
      return Sum.elim y0 y1
    else .ok (lib.solve (.node a c) (fromBlocks A.toMat B C D.toMat) { lower := true } b)
  | .node a c, .block .upper A B C D, b =>
    if e.blockTriangularSolves then do
      let y1 ← solveFl F lib tr e D fun i => b (.inr i)
      let y0 ← solveFl F lib tr e A (updRhs F (tr c) B y1 fun i => b (.inl i))
      return Sum.elim y0 y1
    else .ok (lib.solve (.node a c) (fromBlocks A.toMat B C D.toMat) { upper := true } b)
  | .node a c, .block .general A B C D, b => .ok (lib.solve (.node a c) (fromBlocks A.toMat B C D.toMat) {} b)

/-- Specification: the residual of `L.T.inv() @ (L.inv() @ b)` (`linops/_block.py:249-251`): factorisation, second and first triangular solve. -/
noncomputable def spdErr (F : Fmt) (lib : Lib) (tr : Orders) (e : Env) {s : Shape} (op L : Op s) (b : s.Idx → ℝ) : s.Idx → ℝ :=
  let y := nsFl F lib tr e L b
  let x := nsFl F lib tr e (L.transpose e) y
  fun i => ∑ j, cholErr F lib tr e op i j * |x j| + ∑ j, |L.toMat i j| * nsErr F lib tr e (L.transpose e) y j + nsErr F lib tr e L b i

/-- Specification: a bound on the residual of `solveFl`, entry by entry. -/
noncomputable def solveErr (F : Fmt) (lib : Lib) (tr : Orders) (e : Env) : {s : Shape} → Op s → (s.Idx → ℝ) → s.Idx → ℝ
  | s, .dense M f, b => fun i => |(M *ᵥ lib.solve s M f b) i - b i|
  | _, .block (.blockDiag _) A _ _ D, b => Sum.elim (solveErr F lib tr e A fun i => b (.inl i)) (solveErr F lib tr e D fun i => b (.inr i))
  | _, .block .spd A B C D, b =>
    match cholFl F lib tr e (.block .spd A B C D) with
    | .error _ => 0
    | .ok L => spdErr F lib tr e (.block .spd A B C D) L b
  | .node a c, .block .lower A B C D, b =>
    if e.blockTriangularSolves then
      match solveFl F lib tr e A fun i => b (.inl i) with
      | .error _ => 0
      | .ok y0 => Sum.elim (solveErr F lib tr e A fun i => b (.inl i)) fun i => solveErr F lib tr e D (updRhs F (tr a) C y0 fun i => b (.inr i)) i +
        gam F (Fintype.card a.Idx + 1) * (|b (.inr i)| + ∑ j, |C i j| * |y0 j|)
    else fun i => |(fromBlocks A.toMat B C D.toMat *ᵥ lib.solve (.node a c) (fromBlocks A.toMat B C D.toMat) { lower := true } b) i - b i|
  | .node a c, .block .upper A B C D, b =>
    if e.blockTriangularSolves then
      match solveFl F lib tr e D fun i => b (.inr i) with
      | .error _ => 0
      | .ok y1 => Sum.elim (fun i => solveErr F lib tr e A (updRhs F (tr c) B y1 fun i => b (.inl i)) i +
        gam F (Fintype.card c.Idx + 1) * (|b (.inl i)| + ∑ j, |B i j| * |y1 j|)) (solveErr F lib tr e D fun i => b (.inr i))
    else fun i => |(fromBlocks A.toMat B C D.toMat *ᵥ lib.solve (.node a c) (fromBlocks A.toMat B C D.toMat) { upper := true } b) i - b i|
  | .node a c, .block .general A B C D, b =>
    fun i => |(fromBlocks A.toMat B C D.toMat *ᵥ lib.solve (.node a c) (fromBlocks A.toMat B C D.toMat) {} b) i - b i|

/-- SciPy without errors. -/
noncomputable def Lib.exact (e : Env) : Lib where
  chol _ M := e.chol M
  solve _ M f b i := denseSolve M f (col b) i ()

/-- `_conditional.py:97-107`: the right-hand side `Y - L(prior.mean) - b.mean` in floating point, with computed values `p` of `L(prior.mean)`. -/
noncomputable def lazyRhs (F : Fmt) {X : Type} {P : Prior X} (c : Cond P) (p : c.s.Idx → ℝ) : c.s.Idx → ℝ :=
  fun i => F.rd (F.rd (c.Ys i - p i) - c.bs i)

/-- `_conditional.py:95-110` (`representer_weights`) in floating point: `gram.solve(y)` with the computed Gram operator `G`. -/
noncomputable def lazyFl (F : Fmt) (lib : Lib) (tr : Orders) (e : Env) {X : Type} {P : Prior X} (c : Cond P) (G : Op c.s) (p : c.s.Idx → ℝ) :
    Except Err (c.s.Idx → ℝ) := solveFl F lib tr e G (lazyRhs F c p)

/-- Specification: residual of the computed weights for the exact Gram matrix and right-hand side: residual of the solve, error of the Gram matrix,
roundings of the right-hand side and errors of `L(prior.mean)`. -/
noncomputable def lazyErr (F : Fmt) (lib : Lib) (tr : Orders) (e : Env) {X : Type} {P : Prior X} (c : Cond P) (G : Op c.s) (p w : c.s.Idx → ℝ) : c.s.Idx → ℝ :=
  fun i => solveErr F lib tr e G (lazyRhs F c p) i + ∑ j, |c.gram.toMat i j - G.toMat i j| * |w j| + gam F 2 * (|c.Ys i - p i| + |c.bs i|) + |p i - (c.Ls i).1 P.m|

end LinPDE.Rounding
