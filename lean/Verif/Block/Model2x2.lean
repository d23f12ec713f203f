import Verif.Block.Shape

/-!
# Model of `BlockMatrix2x2` (`linops/_block.py:83-292`)

Right-hand sides are matrices with columns indexed by `κ` (numpy arrays of shape `(N, k)`).
External operators are represented by the matrix they denote together with the structural flags
probnum attaches to them.  Exceptions are values of `Except Err`.
-/

namespace LinPDE.Block
open Matrix

/-- Exceptions raised by `linops/_block.py`. -/
inductive Err where
  | assertionError
  | valueError
  deriving DecidableEq, Repr

/-- probnum's structural flags (`is_symmetric`, `is_positive_definite`, `is_lower_triangular`,
`is_upper_triangular`).  They are `Optional[bool]` in probnum; the code only uses truthiness. -/
structure Flags where
  symm : Bool := false
  pd : Bool := false
  lower : Bool := false
  upper : Bool := false
  deriving DecidableEq

/-- Which branch of `BlockMatrix2x2.__init__` (`linops/_block.py:130-171`) built the operator.
`blockDiag s` records whether `is_symmetric` was set (line 136-137). -/
inductive Kind where
  | blockDiag (symm : Bool)
  | spd
  | lower
  | upper
  | general
  deriving DecidableEq

/-- Square operators: plain (dense) ones and `BlockMatrix2x2` with blocks `A`, `B`, `C`, `D`
(`linops/_block.py:175-189`).  Off-diagonal blocks are only ever multiplied with, so they are
given by the matrix they denote. -/
inductive Op : Shape → Type where
  | dense {s : Shape} (M : Matrix s.Idx s.Idx ℝ) (f : Flags) : Op s
  | block {a b : Shape} (k : Kind) (A : Op a) (B : Matrix a.Idx b.Idx ℝ) (C : Matrix b.Idx a.Idx ℝ)
      (D : Op b) : Op (.node a b)

/-- `linops/_block.py:270-276` (`_todense`): `np.block([[A, B], [C, D]])`. -/
def Op.toMat : {s : Shape} → Op s → Matrix s.Idx s.Idx ℝ
  | _, .dense M _ => M
  | _, .block _ A B C D => Matrix.fromBlocks A.toMat B C D.toMat

/-- Flags after construction (`linops/_block.py:130-171`). -/
def Op.flags : {s : Shape} → Op s → Flags
  | _, .dense _ f => f
  | _, .block (.blockDiag sy) _ _ _ _ => { symm := sy }
  | _, .block .spd _ _ _ _ => { symm := true, pd := true }
  | _, .block .lower _ _ _ _ => { lower := true }
  | _, .block .upper _ _ _ _ => { upper := true }
  | _, .block .general _ _ _ _ => {}

/-- `linops/_block.py:110-173` (`__init__`).  `None` blocks are `none`.  dtype promotion is not
modelled. -/
def mk2x2 {a b : Shape} (A : Op a) (B : Option (Matrix a.Idx b.Idx ℝ))
    (C : Option (Matrix b.Idx a.Idx ℝ)) (D : Op b) (isSpd : Bool) : Except Err (Op (.node a b)) :=
  if B.isNone && C.isNone then
    .ok (.block (.blockDiag (A.flags.symm && D.flags.symm)) A 0 0 D)
  else if isSpd then
    if !(xor B.isNone C.isNone) then .error .assertionError
    else if !(A.flags.symm && D.flags.symm) then .error .assertionError
    else if !A.flags.pd then .error .assertionError
    else match C with
      | none => .ok (.block .spd A (B.getD 0) (B.getD 0)ᵀ D)
      | some C => .ok (.block .spd A Cᵀ C D)
  else if A.flags.lower && D.flags.lower && B.isNone then
    .ok (.block .lower A 0 (C.getD 0) D)
  else if A.flags.upper && D.flags.upper && C.isNone then
    .ok (.block .upper A (B.getD 0) 0 D)
  else if B.isNone || C.isNone then .error .assertionError
  else .ok (.block .general A (B.getD 0) (C.getD 0) D)

/-- External environment: the dense Cholesky factorisation (scipy via probnum), the
`block_triangular_solves` setting (`linops/_block.py:8-14`), and whether probnum's `.T` copies the
triangularity flags of an operator onto the result of its `_transpose` (both are covered, since the
pinned probnum is not part of the repository). -/
structure Env where
  chol : {s : Shape} → Matrix s.Idx s.Idx ℝ → Matrix s.Idx s.Idx ℝ
  blockTriangularSolves : Bool
  transposeKeepsFlags : Bool

/-- Contract of the external Cholesky factorisation. -/
def Env.CholOK (e : Env) : Prop :=
  ∀ (s : Shape) (M : Matrix s.Idx s.Idx ℝ), M.PosDef → e.chol M * (e.chol M)ᵀ = M ∧ IsLower (e.chol M)

/-- What `scipy.linalg.solve_triangular(lower=True)` reads: the lower triangle. -/
def lowerPart {s : Shape} (M : Matrix s.Idx s.Idx ℝ) : Matrix s.Idx s.Idx ℝ :=
  Matrix.of fun i j => if s.pos i < s.pos j then 0 else M i j

/-- What `scipy.linalg.solve_triangular(lower=False)` reads: the upper triangle. -/
def upperPart {s : Shape} (M : Matrix s.Idx s.Idx ℝ) : Matrix s.Idx s.Idx ℝ :=
  Matrix.of fun i j => if s.pos j < s.pos i then 0 else M i j

/-- `inv() @ b` of a dense operator (`probnum`): a triangular solve if the flag is set (reads only
that triangle), otherwise a general solve. -/
noncomputable def denseSolve {s : Shape} {κ : Type} (M : Matrix s.Idx s.Idx ℝ) (f : Flags)
    (b : Matrix s.Idx κ ℝ) : Matrix s.Idx κ ℝ :=
  if f.lower then (lowerPart M)⁻¹ * b
  else if f.upper then (upperPart M)⁻¹ * b
  else M⁻¹ * b

/-- `np.split(x, [A.shape[1]], axis=-2)` (`linops/_block.py:209-210`). -/
def split {a b : Shape} {κ : Type} (x : Matrix (Shape.node a b).Idx κ ℝ) :
    Matrix a.Idx κ ℝ × Matrix b.Idx κ ℝ :=
  (fun i j => x (Sum.inl i) j, fun i j => x (Sum.inr i) j)

/-- `np.concatenate((x0, x1), axis=-2)`. -/
def concat {a b : Shape} {κ : Type} (x0 : Matrix a.Idx κ ℝ) (x1 : Matrix b.Idx κ ℝ) :
    Matrix (Shape.node a b).Idx κ ℝ := fun i j => Sum.elim (fun i => x0 i j) (fun i => x1 i j) i

/-- `linops/_block.py:212-221` (`_matmul`). -/
def Op.matmul : {s : Shape} → {κ : Type} → Op s → Matrix s.Idx κ ℝ → Matrix s.Idx κ ℝ
  | _, _, .dense M _, x => M * x
  | _, _, .block _ A B C D, x =>
    let x0 := (split x).1
    let x1 := (split x).2
    concat (A.matmul x0 + B * x1) (C * x0 + D.matmul x1)

/-- `linops/_block.py:244-268` (`_solve`) for the operators that do not take the `is_symmetric`
branch (Cholesky factors are of this form).  `super()._solve` is the dense solve. -/
noncomputable def Op.solveNS (e : Env) : {s : Shape} → {κ : Type} → Op s → Matrix s.Idx κ ℝ →
    Matrix s.Idx κ ℝ
  | _, _, .dense M f, b => denseSolve M f b
  | _, _, .block (.blockDiag _) A _ _ D, b =>
    concat (A.solveNS e (split b).1) (D.solveNS e (split b).2)
  | _, _, .block .lower A B C D, b =>
    if e.blockTriangularSolves then
      let y0 := A.solveNS e (split b).1
      let y1 := D.solveNS e ((split b).2 - C * y0)
      concat y0 y1
    else denseSolve (s := .node _ _) (Matrix.fromBlocks A.toMat B C D.toMat) { lower := true } b
  | _, _, .block .upper A B C D, b =>
    if e.blockTriangularSolves then
      let y1 := D.solveNS e (split b).2
      let y0 := A.solveNS e ((split b).1 - B * y1)
      concat y0 y1
    else denseSolve (s := .node _ _) (Matrix.fromBlocks A.toMat B C D.toMat) { upper := true } b
  | _, _, .block _ A B C D, b =>
    denseSolve (s := .node _ _) (Matrix.fromBlocks A.toMat B C D.toMat) {} b

/-- `linops/_block.py:203-207` (`L_A_inv_B`), given the Cholesky factor of `A`. -/
noncomputable def lAinvB (e : Env) {a : Shape} {κ : Type} (Asqrt : Op a) (B : Matrix a.Idx κ ℝ) :
    Matrix a.Idx κ ℝ := Asqrt.solveNS e B

/-- `linops/_block.py:233-242` (`_cholesky(lower=True)`), dense operators use the external
factorisation.  Only operators flagged symmetric positive definite have `L_A_inv_B` (line 205). -/
noncomputable def Op.cholesky (e : Env) : {s : Shape} → Op s → Except Err (Op s)
  | _, .dense M _ => .ok (.dense (e.chol M) { lower := true })
  | _, .block .spd A B _ D =>
    match A.cholesky e with
    | .error err => .error err
    | .ok Asqrt =>
      let LAB := lAinvB e Asqrt B
      let S := D.toMat - LABᵀ * LAB
      mk2x2 Asqrt none (some LABᵀ) (.dense (e.chol S) { lower := true }) false
  | _, .block _ _ _ _ _ => .error .valueError

/-- `A_sqrt.T` in `linops/_block.py:241` and `L.T` in line 250: transposing a `BlockMatrix2x2`
(line 223-224) passes both off-diagonal blocks explicitly, so a block result takes the general
branch unless probnum copies the flags; a transposed dense lower-triangular operator is flagged
upper triangular.  (Only applied to Cholesky factors.) -/
def Op.transpose (e : Env) : {s : Shape} → Op s → Op s
  | _, .dense M f => .dense Mᵀ { symm := f.symm, pd := f.pd, lower := f.upper, upper := f.lower }
  | _, .block .lower A B C D =>
    .block (if e.transposeKeepsFlags then .upper else .general) (A.transpose e) Cᵀ Bᵀ (D.transpose e)
  | _, .block .upper A B C D =>
    .block (if e.transposeKeepsFlags then .lower else .general) (A.transpose e) Cᵀ Bᵀ (D.transpose e)
  | _, .block _ A B C D => .block .general (A.transpose e) Cᵀ Bᵀ (D.transpose e)

/-- `linops/_block.py:233-242` (`_cholesky(lower=False)`). -/
noncomputable def Op.choleskyUpper (e : Env) : {s : Shape} → Op s → Except Err (Op s)
  | _, .dense M _ => .ok (.dense (e.chol M)ᵀ { upper := true })
  | _, .block .spd A B _ D =>
    match A.cholesky e with
    | .error err => .error err
    | .ok Asqrt =>
      let LAB := lAinvB e Asqrt B
      let S := D.toMat - LABᵀ * LAB
      mk2x2 (Asqrt.transpose e) (some LAB) none (.dense (e.chol S)ᵀ { upper := true }) false
  | _, .block _ _ _ _ _ => .error .valueError

/-- `linops/_block.py:244-268` (`_solve`).  The inverse of `L.T` goes through
`_solve` again (see `Op.transpose` for its flags). -/
noncomputable def Op.solve (e : Env) : {s : Shape} → {κ : Type} → Op s → Matrix s.Idx κ ℝ →
    Except Err (Matrix s.Idx κ ℝ)
  | _, _, .dense M f, b => .ok (denseSolve M f b)
  | _, _, .block (.blockDiag _) A _ _ D, b => do
    let y0 ← A.solve e (split b).1
    let y1 ← D.solve e (split b).2
    return concat y0 y1
  | _, _, .block .spd A B C D, b => do
    let L ← (Op.block .spd A B C D).cholesky e
    return (L.transpose e).solveNS e (L.solveNS e b)
  | _, _, .block .lower A B C D, b =>
    if e.blockTriangularSolves then do
      let y0 ← A.solve e (split b).1
      let y1 ← D.solve e ((split b).2 - C * y0)
      return concat y0 y1
    else .ok (denseSolve (s := .node _ _) (Matrix.fromBlocks A.toMat B C D.toMat) { lower := true } b)
  | _, _, .block .upper A B C D, b =>
    if e.blockTriangularSolves then do
      let y1 ← D.solve e (split b).2
      let y0 ← A.solve e ((split b).1 - B * y1)
      return concat y0 y1
    else .ok (denseSolve (s := .node _ _) (Matrix.fromBlocks A.toMat B C D.toMat) { upper := true } b)
  | _, _, .block .general A B C D, b =>
    .ok (denseSolve (s := .node _ _) (Matrix.fromBlocks A.toMat B C D.toMat) {} b)

/-- `linops/_block.py:191-201` (`schur`) of a `BlockMatrix2x2`. -/
noncomputable def schur (e : Env) {a b : Shape} (k : Kind) (A : Op a) (B : Matrix a.Idx b.Idx ℝ)
    (C : Matrix b.Idx a.Idx ℝ) (D : Op b) : Except Err (Matrix b.Idx b.Idx ℝ) :=
  match k with
  | .spd => do
    let Asqrt ← A.cholesky e
    let LAB := lAinvB e Asqrt B
    return D.toMat - LABᵀ * LAB
  | _ => do
    let AinvB ← A.solve e B
    return D.toMat - C * AinvB

/-- `linops/_block.py:226-231` (`schur_update`).  `schur.inv()` is a dense solve. -/
noncomputable def schurUpdate (e : Env) {a b : Shape} {κ : Type} (k : Kind) (A : Op a)
    (B : Matrix a.Idx b.Idx ℝ) (C : Matrix b.Idx a.Idx ℝ) (D : Op b)
    (AinvU : Matrix a.Idx κ ℝ) (v : Matrix b.Idx κ ℝ) :
    Except Err (Matrix (Shape.node a b).Idx κ ℝ) :=
  match k with
  | .blockDiag _ => do
    let y ← D.solve e v
    return concat AinvU y
  | k => do
    let S ← schur e k A B C D
    let y := denseSolve S {} (v - C * AinvU)
    let AinvBy ← A.solve e (B * y)
    return concat (AinvU - AinvBy) y

/-- `schur_update` as a method of the object returned by the constructor (plain operators do not
have it). -/
noncomputable def Op.schurUpdate (e : Env) {a b : Shape} {κ : Type} (op : Op (.node a b))
    (AinvU : Matrix a.Idx κ ℝ) (v : Matrix b.Idx κ ℝ) : Except Err (Matrix (Shape.node a b).Idx κ ℝ) :=
  match op with
  | .dense _ _ => .error .valueError
  | .block k A B C D => Block.schurUpdate e k A B C D AinvU v

/-- `linops/_block.py:278-279` (`_trace`). -/
def Op.trace : {s : Shape} → Op s → ℝ
  | _, .dense M _ => M.trace
  | _, .block _ A _ _ D => A.trace + D.trace

/-- `linops/_block.py:281-292` (`_det`). -/
noncomputable def Op.det (e : Env) : {s : Shape} → Op s → Except Err ℝ
  | _, .dense M _ => .ok M.det
  | _, .block .spd A B C D => do
    let S ← schur e .spd A B C D
    let dA ← A.det e
    return dA * S.det
  | _, .block .general A B C D => .ok (Matrix.fromBlocks A.toMat B C D.toMat).det
  | _, .block _ A _ _ D => do
    let dA ← A.det e
    let dD ← D.det e
    return dA * dD

end LinPDE.Block
