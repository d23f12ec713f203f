import Verif.Block.Lemmas2x2
import Verif.Block.CholExists

/-! # Properties C11–C14: 2×2 block operators -/

namespace LinPDE.Block
open Matrix

variable {a b s : Shape} {κ : Type}

/-! ## Structural promises -/

/-- The operator is symmetric positive definite and its nesting is one for which the code can
compute a Cholesky factor: dense, or `is_spd=True` blocks all along the `A` spine. -/
def Op.Spd : {s : Shape} → Op s → Prop
  | _, .dense M f => M.PosDef ∧ (f.lower = true → IsLower M) ∧ (f.upper = true → IsUpper M)
  | _, .block k A B C D => k = .spd ∧ C = Bᵀ ∧ (nb A.toMat B C D.toMat).PosDef ∧ A.Spd

/-- The operator is invertible and satisfies what its flags and construction branch promise. -/
def Op.Valid : {s : Shape} → Op s → Prop
  | _, .dense M f => IsUnit M ∧ (f.lower = true → IsLower M) ∧ (f.upper = true → IsUpper M)
  | _, .block (.blockDiag _) A B C D => A.Valid ∧ D.Valid ∧ B = 0 ∧ C = 0
  | _, .block .spd A B C D => C = Bᵀ ∧ (nb A.toMat B C D.toMat).PosDef ∧ A.Spd
  | _, .block .lower A B _ D => A.Valid ∧ D.Valid ∧ B = 0 ∧ IsLower A.toMat ∧ IsLower D.toMat
  | _, .block .upper A _ C D => A.Valid ∧ D.Valid ∧ C = 0 ∧ IsUpper A.toMat ∧ IsUpper D.toMat
  | _, .block .general A B C D => IsUnit (nb A.toMat B C D.toMat)

/-- Invertible lower triangular operators as produced by `cholesky`. -/
def Op.LowerOp : {s : Shape} → Op s → Prop
  | _, .dense M f => IsUnit M ∧ IsLower M ∧ f.lower = true ∧ f.upper = false
  | _, .block k A B _ D => k = .lower ∧ B = 0 ∧ A.LowerOp ∧ D.LowerOp

lemma Op.Spd.posDef {op : Op s} (h : op.Spd) : op.toMat.PosDef := by
  cases op with
  | dense M f => exact h.1
  | block k A B C D => rw [toMat_block]; exact h.2.2.1

lemma isUnit_nb_lower {A : Matrix a.Idx a.Idx ℝ} {C : Matrix b.Idx a.Idx ℝ}
    {D : Matrix b.Idx b.Idx ℝ} (hA : IsUnit A) (hD : IsUnit D) : IsUnit (nb A 0 C D) :=
  Matrix.isUnit_fromBlocks_zero₁₂.mpr ⟨hA, hD⟩

lemma isUnit_nb_upper {A : Matrix a.Idx a.Idx ℝ} {B : Matrix a.Idx b.Idx ℝ}
    {D : Matrix b.Idx b.Idx ℝ} (hA : IsUnit A) (hD : IsUnit D) : IsUnit (nb A B 0 D) :=
  Matrix.isUnit_fromBlocks_zero₂₁.mpr ⟨hA, hD⟩

lemma Op.Valid.isUnit {op : Op s} (h : op.Valid) : IsUnit op.toMat := by
  induction op with
  | dense M f => exact h.1
  | block k A B C D ihA ihD =>
    rw [toMat_block]
    cases k with
    | blockDiag sy =>
      obtain ⟨hA, hD, rfl, rfl⟩ := h
      exact isUnit_nb_lower (ihA hA) (ihD hD)
    | spd => exact h.2.1.isUnit
    | lower =>
      obtain ⟨hA, hD, rfl, _⟩ := h
      exact isUnit_nb_lower (ihA hA) (ihD hD)
    | upper =>
      obtain ⟨hA, hD, rfl, _⟩ := h
      exact isUnit_nb_upper (ihA hA) (ihD hD)
    | general => exact h

lemma Op.LowerOp.isLower {op : Op s} (h : op.LowerOp) : IsLower op.toMat := by
  induction op with
  | dense M f => exact h.2.1
  | block k A B C D ihA ihD =>
    rw [toMat_block, isLower_nb_iff]
    exact ⟨ihA h.2.2.1, h.2.1, ihD h.2.2.2⟩

lemma Op.LowerOp.isUnit {op : Op s} (h : op.LowerOp) : IsUnit op.toMat := by
  induction op with
  | dense M f => exact h.1
  | block k A B C D ihA ihD =>
    obtain ⟨rfl, rfl, hA, hD⟩ := h
    rw [toMat_block]
    exact isUnit_nb_lower (ihA hA) (ihD hD)

lemma Op.LowerOp.flags {op : Op s} (h : op.LowerOp) : op.flags.lower = true := by
  cases op with
  | dense M f => exact h.2.2.1
  | block k A B C D => obtain ⟨rfl, _⟩ := h; rfl

lemma mul_denseSolve (M : Matrix s.Idx s.Idx ℝ) (f : Flags) (hM : IsUnit M)
    (hl : f.lower = true → IsLower M)
    (hu : f.upper = true → IsUpper M) (x : Matrix s.Idx κ ℝ) : M * denseSolve M f x = x := by
  rw [denseSolve_eq M f hl hu, ← Matrix.mul_assoc, Matrix.mul_nonsing_inv _ ((Matrix.isUnit_iff_isUnit_det _).mp hM),
    Matrix.one_mul]

/-- Triangular solves with Cholesky factors. -/
lemma solveNS_lower (e : Env) {op : Op s} (h : op.LowerOp) (x : Matrix s.Idx κ ℝ) :
    op.toMat * op.solveNS e x = x := by
  induction op with
  | dense M f =>
    rw [Op.solveNS]
    exact mul_denseSolve M f h.1 (fun _ => h.2.1) (by rw [h.2.2.2]; simp) x
  | block k A B C D ihA ihD =>
    have hlow := h.isLower
    have hunit := h.isUnit
    obtain ⟨rfl, rfl, hA, hD⟩ := h
    rw [toMat_block] at *
    rw [Op.solveNS]
    split
    · rw [nb_mul]
      conv_rhs => rw [← concat_split x]
      rw [ihA hA, ihD hD]
      simp
    · exact mul_denseSolve (nb A.toMat 0 C D.toMat) _ hunit (fun _ => hlow) (by simp) x

lemma eq_inv_mul {M : Matrix s.Idx s.Idx ℝ} (hM : IsUnit M) {x y : Matrix s.Idx κ ℝ} (h : M * x = y) :
    x = M⁻¹ * y := by
  rw [← h, ← Matrix.mul_assoc, Matrix.nonsing_inv_mul _ ((Matrix.isUnit_iff_isUnit_det _).mp hM),
    Matrix.one_mul]

/-- C13: products with block operators of every nesting are products with their dense matrices. -/
theorem matmul_spec (op : Op s) (x : Matrix s.Idx κ ℝ) : op.matmul x = op.toMat * x := matmul_eq op x

/-- The nested operator `[[1, 2], [3, 4]]`. -/
example (x : Matrix (Shape.node (.leaf 1) (.leaf 1)).Idx Unit ℝ) :
    (Op.block .general (.dense (Matrix.of fun _ _ => 1) {}) (Matrix.of fun _ _ => 2) (Matrix.of fun _ _ => 3)
      (.dense (Matrix.of fun _ _ => 4) {}) : Op (.node (.leaf 1) (.leaf 1))).matmul x =
      nb (Matrix.of fun _ _ => 1) (Matrix.of fun _ _ => 2) (Matrix.of fun _ _ => 3) (Matrix.of fun _ _ => 4) * x :=
  matmul_spec _ x

/-! ## C13 Cholesky -/

/-- If `L Lᵀ = A` then `(L⁻¹ B)ᵀ (L⁻¹ B) = Bᵀ A⁻¹ B`. -/
lemma lab_gram {L A : Matrix a.Idx a.Idx ℝ} (h : L * Lᵀ = A) (B : Matrix a.Idx b.Idx ℝ) :
    (L⁻¹ * B)ᵀ * (L⁻¹ * B) = Bᵀ * A⁻¹ * B := by
  rw [← h, Matrix.mul_inv_rev, Matrix.transpose_mul, Matrix.transpose_nonsing_inv]
  simp only [Matrix.mul_assoc]

/-- C13: the (recursive) block Cholesky factorisation succeeds for symmetric positive definite
operators and returns a lower triangular operator with `L Lᵀ = M`. -/
theorem cholesky_spec (e : Env) (he : e.CholOK) (op : Op s) (h : op.Spd) :
    ∃ L : Op s, op.cholesky e = .ok L ∧ L.toMat * L.toMatᵀ = op.toMat ∧ IsLower L.toMat ∧
      L.LowerOp := by
  induction op with
  | dense M f =>
    obtain ⟨h1, h2⟩ := he _ M h.1
    refine ⟨_, rfl, h1, h2, ?_, h2, rfl, rfl⟩
    have hM := h.1.isUnit
    rw [Matrix.isUnit_iff_isUnit_det] at hM ⊢
    rw [← h1, Matrix.det_mul] at hM
    exact isUnit_of_mul_isUnit_left hM
  | block k A B C D ihA ihD =>
    obtain ⟨rfl, rfl, hP, hA⟩ := h
    obtain ⟨L, e1, e2, e3, e4⟩ := ihA hA
    obtain ⟨hAP, hS⟩ := (posDef_nb_iff _ _ _).mp hP
    have hLAB : lAinvB e L B = L.toMat⁻¹ * B := eq_inv_mul e4.isUnit (solveNS_lower e e4 B)
    have hS' : D.toMat - (lAinvB e L B)ᵀ * lAinvB e L B = D.toMat - Bᵀ * A.toMat⁻¹ * B := by
      rw [hLAB, lab_gram e2]
    have hS2 : (D.toMat - (lAinvB e L B)ᵀ * lAinvB e L B).PosDef := by rw [hS']; exact hS
    obtain ⟨f1, f2⟩ := he _ _ hS2
    have hSlow : (Op.dense (e.chol (D.toMat - (lAinvB e L B)ᵀ * lAinvB e L B))
        { lower := true }).LowerOp := by
      refine ⟨?_, f2, rfl, rfl⟩
      have hM := hS2.isUnit
      rw [Matrix.isUnit_iff_isUnit_det] at hM ⊢
      rw [← f1, Matrix.det_mul] at hM
      exact isUnit_of_mul_isUnit_left hM
    have hres : (Op.block Kind.spd A B Bᵀ D).cholesky e = .ok (.block .lower L 0 (lAinvB e L B)ᵀ
        (.dense (e.chol (D.toMat - (lAinvB e L B)ᵀ * lAinvB e L B)) { lower := true })) := by
      rw [Op.cholesky, e1]
      simp [mk2x2, e4.flags, flags_dense]
    have hlow : (Op.block .lower L 0 (lAinvB e L B)ᵀ
        (.dense (e.chol (D.toMat - (lAinvB e L B)ᵀ * lAinvB e L B)) { lower := true })).LowerOp :=
      ⟨rfl, rfl, e4, hSlow⟩
    refine ⟨_, hres, ?_, hlow.isLower, hlow⟩
    rw [toMat_block, toMat_block, nb_transpose, nb_mul_nb, nb_inj]
    have hLu := (Matrix.isUnit_iff_isUnit_det _).mp e4.isUnit
    refine ⟨by simp [e2], ?_, ?_, ?_⟩
    · rw [Matrix.transpose_transpose, hLAB, ← Matrix.mul_assoc, Matrix.mul_nonsing_inv _ hLu]
      simp
    · rw [hLAB, Matrix.transpose_mul, Matrix.transpose_nonsing_inv, Matrix.mul_assoc,
        Matrix.nonsing_inv_mul _ (by rw [Matrix.det_transpose]; exact hLu)]
      simp
    · simp only [Op.toMat, Matrix.transpose_transpose]
      rw [f1]
      abel


lemma Op.LowerOp.transpose_upper (e : Env) (hk : e.transposeKeepsFlags = true) {L : Op s} (h : L.LowerOp) :
    (L.transpose e).flags.upper = true := by
  cases L with
  | dense M f => exact h.2.2.1
  | block k A B C D => obtain ⟨rfl, _⟩ := h; simp [Op.transpose, hk, Op.flags]

/-- Solves with the transpose of a Cholesky factor, for both readings of `.T`. -/
lemma solveNS_transpose (e : Env) {L : Op s} (h : L.LowerOp) (x : Matrix s.Idx κ ℝ) :
    L.toMatᵀ * (L.transpose e).solveNS e x = x := by
  induction L with
  | dense M f =>
    rw [Op.transpose, Op.solveNS]
    obtain ⟨h1, h2, h3, h4⟩ := h
    refine mul_denseSolve Mᵀ _ ?_ (by simp [h4]) ?_ x
    · rw [Matrix.isUnit_iff_isUnit_det, Matrix.det_transpose, ← Matrix.isUnit_iff_isUnit_det]; exact h1
    · intro _; rw [isUpper_iff_transpose, Matrix.transpose_transpose]; exact h2
  | block k A B C D ihA ihD =>
    have hlow := h.isLower
    have hunit := h.isUnit
    obtain ⟨rfl, rfl, hA, hD⟩ := h
    have hut : IsUnit (nb (A.transpose e).toMat Cᵀ 0 (D.transpose e).toMat) := by
      have := hunit
      rw [toMat_block, Matrix.isUnit_iff_isUnit_det, ← Matrix.det_transpose, nb_transpose,
        ← transpose_toMat e, ← transpose_toMat e, ← Matrix.isUnit_iff_isUnit_det] at this
      simpa using this
    have hup : IsUpper (nb (A.transpose e).toMat Cᵀ 0 (D.transpose e).toMat) := by
      rw [isUpper_iff_transpose, nb_transpose, transpose_toMat, transpose_toMat]
      simpa [toMat_block] using hlow
    have hT : (Op.block Kind.lower A 0 C D).toMatᵀ =
        nb (A.transpose e).toMat Cᵀ 0 (D.transpose e).toMat := by
      rw [toMat_block, nb_transpose, transpose_toMat, transpose_toMat]; simp
    rw [hT, Op.transpose]
    cases hk : e.transposeKeepsFlags
    · simp only [Bool.false_eq_true, if_false, Matrix.transpose_zero]
      rw [Op.solveNS]
      exact mul_denseSolve (nb (A.transpose e).toMat Cᵀ 0 (D.transpose e).toMat) _ hut (by simp) (by simp) x
      all_goals simp
    · simp only [if_true, Matrix.transpose_zero]
      rw [Op.solveNS]
      split
      · rw [nb_mul]
        conv_rhs => rw [← concat_split x]
        rw [transpose_toMat, transpose_toMat, ihA hA, ihD hD]
        simp
      · exact mul_denseSolve (nb (A.transpose e).toMat Cᵀ 0 (D.transpose e).toMat) _ hut (by simp)
          (fun _ => hup) x

lemma choleskyUpper_block (e : Env) (he : e.CholOK) (A : Op a) (B : Matrix a.Idx b.Idx ℝ)
    (C : Matrix b.Idx a.Idx ℝ) (D : Op b) (h : (Op.block .spd A B C D).Spd)
    (hup : ∀ L, A.cholesky e = .ok L → (L.transpose e).flags.upper = true) :
    ∃ U, (Op.block .spd A B C D).choleskyUpper e = .ok U ∧
      U.toMatᵀ * U.toMat = (Op.block .spd A B C D).toMat ∧ IsUpper U.toMat := by
  obtain ⟨-, rfl, hP, hA⟩ := h
  obtain ⟨L, e1, e2, e3, e4⟩ := cholesky_spec e he _ hA
  replace hup := hup L e1
  obtain ⟨hAP, hS⟩ := (posDef_nb_iff _ _ _).mp hP
  have hLAB : lAinvB e L B = L.toMat⁻¹ * B := eq_inv_mul e4.isUnit (solveNS_lower e e4 B)
  have hS' : D.toMat - (lAinvB e L B)ᵀ * lAinvB e L B = D.toMat - Bᵀ * A.toMat⁻¹ * B := by
    rw [hLAB, lab_gram e2]
  have hS2 : (D.toMat - (lAinvB e L B)ᵀ * lAinvB e L B).PosDef := by rw [hS']; exact hS
  obtain ⟨f1, f2⟩ := he _ _ hS2
  have hres : (Op.block Kind.spd A B Bᵀ D).choleskyUpper e =
      .ok (.block .upper (L.transpose e) (lAinvB e L B) 0
        (.dense (e.chol (D.toMat - (lAinvB e L B)ᵀ * lAinvB e L B))ᵀ { upper := true })) := by
    rw [Op.choleskyUpper, e1]
    simp [mk2x2, hup, flags_dense]
  have hLu := (Matrix.isUnit_iff_isUnit_det _).mp e4.isUnit
  refine ⟨_, hres, ?_, ?_⟩
  · rw [toMat_block, toMat_block, nb_transpose, nb_mul_nb, nb_inj, transpose_toMat]
    simp only [Matrix.transpose_transpose, Matrix.transpose_zero, Matrix.mul_zero, Matrix.zero_mul,
      add_zero]
    refine ⟨e2, ?_, ?_, ?_⟩
    · rw [hLAB, ← Matrix.mul_assoc, Matrix.mul_nonsing_inv _ hLu, Matrix.one_mul]
    · rw [hLAB, Matrix.transpose_mul, Matrix.transpose_nonsing_inv, Matrix.mul_assoc,
        Matrix.nonsing_inv_mul _ (by rw [Matrix.det_transpose]; exact hLu), Matrix.mul_one]
    · simp only [Op.toMat, Matrix.transpose_transpose]
      rw [f1]
      abel
  · rw [toMat_block, isUpper_nb_iff, transpose_toMat, isUpper_iff_transpose, isUpper_iff_transpose]
    exact ⟨by simpa using e3, rfl, by simpa [Op.toMat] using f2⟩

/-- C13: `cholesky(lower=False)` returns an upper triangular `U` with `Uᵀ U = M` for every nesting
if probnum's `.T` copies triangularity flags. -/
theorem choleskyUpper_spec (e : Env) (he : e.CholOK) (hk : e.transposeKeepsFlags = true) (op : Op s)
    (h : op.Spd) :
    ∃ U : Op s, op.choleskyUpper e = .ok U ∧ U.toMatᵀ * U.toMat = op.toMat ∧ IsUpper U.toMat := by
  cases op with
  | dense M f =>
    obtain ⟨h1, h2⟩ := he _ M h.1
    exact ⟨_, rfl, by simpa [Op.toMat] using h1,
      (isUpper_iff_transpose _).mpr (by simpa [Op.toMat] using h2)⟩
  | block k A B C D =>
    obtain rfl := h.1
    refine choleskyUpper_block e he A B C D h fun L hL => ?_
    obtain ⟨L', e1, e2, e3, e4⟩ := cholesky_spec e he _ h.2.2.2
    rw [hL] at e1
    injection e1 with e1
    subst e1
    exact e4.transpose_upper e hk

/-- C13: without that assumption on probnum, the upper factor is still right whenever the `A` block is a plain
operator (the remaining case is `choleskyUpper_nested_error`). -/
theorem choleskyUpper_spec_plain (e : Env) (he : e.CholOK) (M : Matrix a.Idx a.Idx ℝ) (f : Flags)
    (B : Matrix a.Idx b.Idx ℝ) (C : Matrix b.Idx a.Idx ℝ) (D : Op b)
    (h : (Op.block .spd (.dense M f) B C D).Spd) :
    ∃ U, (Op.block .spd (.dense M f) B C D).choleskyUpper e = .ok U ∧
      U.toMatᵀ * U.toMat = Matrix.fromBlocks M B C D.toMat ∧ IsUpper U.toMat := by
  refine choleskyUpper_block e he _ B C D h fun L hL => ?_
  rw [Op.cholesky] at hL
  injection hL with e1
  subst e1; rfl

/-- C13 (limit): if `.T` does not copy triangularity flags, `cholesky(lower=False)` of a nested
positive definite operator hits the constructor's assertion, because `A_sqrt.T` is not flagged upper
triangular. -/
theorem choleskyUpper_nested_error (e : Env) (he : e.CholOK) (hk : e.transposeKeepsFlags = false)
    {c d : Shape} (k : Kind) (A : Op c) (B : Matrix c.Idx d.Idx ℝ) (C : Matrix d.Idx c.Idx ℝ) (D : Op d)
    (B' : Matrix (Shape.node c d).Idx b.Idx ℝ) (C' : Matrix b.Idx (Shape.node c d).Idx ℝ) (D' : Op b)
    (h : (Op.block .spd (Op.block k A B C D) B' C' D').Spd) :
    (Op.block .spd (Op.block k A B C D) B' C' D').choleskyUpper e = .error .assertionError := by
  obtain ⟨L, e1, e2, e3, e4⟩ := cholesky_spec e he _ h.2.2.2
  rw [Op.choleskyUpper, e1]
  cases L with
  | dense M f =>
    exfalso
    obtain ⟨rfl, rfl, hP, hA⟩ := h.2.2.2
    obtain ⟨L, f1, f2, f3, f4⟩ := cholesky_spec e he _ hA
    rw [Op.cholesky, f1] at e1
    simp [mk2x2, f4.flags, flags_dense] at e1
  | block k' A' B'' C'' D'' =>
    obtain ⟨rfl, _⟩ := e4
    simp [mk2x2, Op.transpose, hk, Op.flags]

/-- C13 (limit): a block-diagonal operator never gets the positive definiteness flag
(`linops/_block.py:131-137` precedes the `is_spd` branch), so its Cholesky factorisation is refused
even when the blocks are positive definite and `is_spd=True` was passed. -/
theorem cholesky_blockDiag_refused (e : Env) (A : Op a) (D : Op b) (isSpd : Bool) :
    ∃ op, mk2x2 A none none D isSpd = .ok op ∧ op.toMat = Matrix.fromBlocks A.toMat 0 0 D.toMat ∧
      op.cholesky e = .error .valueError :=
  ⟨_, by simp only [mk2x2, Option.isNone_none, Bool.and_self, if_true]; rfl, rfl, by rw [Op.cholesky]; simp⟩

/-! ## C11 solve -/

lemma Op.Spd.valid {op : Op s} (h : op.Spd) : op.Valid := by
  cases op with
  | dense M f => exact ⟨h.1.isUnit, h.2⟩
  | block k A B C D =>
    obtain ⟨rfl, h2, h3, h4⟩ := h
    exact ⟨h2, h3, h4⟩

/-- C11: `solve` returns the solution of `M x = b` in the block-diagonal, symmetric, lower
triangular, upper triangular and general branch, at any nesting, for both settings of
`block_triangular_solves`. -/
theorem solve_spec (e : Env) (he : e.CholOK) (op : Op s) (h : op.Valid) (y : Matrix s.Idx κ ℝ) :
    ∃ x, op.solve e y = .ok x ∧ op.toMat * x = y := by
  induction op with
  | dense M f => exact ⟨_, rfl, mul_denseSolve M f h.1 h.2.1 h.2.2 y⟩
  | block k A B C D ihA ihD =>
    have hu := h.isUnit
    rw [toMat_block] at hu
    cases k with
    | blockDiag sy =>
      obtain ⟨hA, hD, rfl, rfl⟩ := h
      obtain ⟨x0, p0, q0⟩ := ihA hA (split y).1
      obtain ⟨x1, p1, q1⟩ := ihD hD (split y).2
      refine ⟨concat x0 x1, by rw [Op.solve, p0, p1]; rfl, ?_⟩
      rw [toMat_block, nb_mul, q0, q1]
      simpa using concat_split y
    | spd =>
      obtain ⟨L, e1, e2, e3, e4⟩ := cholesky_spec e he (.block .spd A B C D) ⟨rfl, h⟩
      refine ⟨(L.transpose e).solveNS e (L.solveNS e y), by rw [Op.solve, e1]; rfl, ?_⟩
      rw [← e2, Matrix.mul_assoc, solveNS_transpose e e4, solveNS_lower e e4]
    | lower =>
      obtain ⟨hA, hD, rfl, lA, lD⟩ := h
      cases hb : e.blockTriangularSolves
      · refine ⟨_, by rw [Op.solve]; simp only [hb, Bool.false_eq_true, if_false]; rfl, ?_⟩
        exact mul_denseSolve _ _ hu (fun _ => (isLower_nb_iff _ _ _ _).mpr ⟨lA, rfl, lD⟩) (by simp) y
      · obtain ⟨x0, p0, q0⟩ := ihA hA (split y).1
        obtain ⟨x1, p1, q1⟩ := ihD hD ((split y).2 - C * x0)
        refine ⟨concat x0 x1, by rw [Op.solve, p0]; simp only [hb, if_true]; show (do
          let y1 ← D.solve e ((split y).2 - C * x0); pure (concat x0 y1)) = _; rw [p1]; rfl, ?_⟩
        rw [toMat_block, nb_mul, q0, q1]
        simpa using concat_split y
    | upper =>
      obtain ⟨hA, hD, rfl, lA, lD⟩ := h
      cases hb : e.blockTriangularSolves
      · refine ⟨_, by rw [Op.solve]; simp only [hb, Bool.false_eq_true, if_false]; rfl, ?_⟩
        exact mul_denseSolve _ _ hu (by simp) (fun _ => (isUpper_nb_iff _ _ _ _).mpr ⟨lA, rfl, lD⟩) y
      · obtain ⟨x1, p1, q1⟩ := ihD hD (split y).2
        obtain ⟨x0, p0, q0⟩ := ihA hA ((split y).1 - B * x1)
        refine ⟨concat x0 x1, by rw [Op.solve, p1]; simp only [hb, if_true]; show (do
          let y0 ← A.solve e ((split y).1 - B * x1); pure (concat y0 x1)) = _; rw [p0]; rfl, ?_⟩
        rw [toMat_block, nb_mul, q0, q1]
        simpa using concat_split y
    | general => exact ⟨_, rfl, mul_denseSolve _ _ hu (by simp) (by simp) y⟩

/-- C11: the solution is the unique one, `M⁻¹ b`. -/
theorem solve_eq_inv (e : Env) (he : e.CholOK) (op : Op s) (h : op.Valid) (y : Matrix s.Idx κ ℝ) :
    op.solve e y = .ok (op.toMat⁻¹ * y) := by
  obtain ⟨x, h1, h2⟩ := solve_spec e he op h y
  rw [h1, eq_inv_mul h.isUnit h2]

/-- C11: the constructor followed by `solve`: whenever the constructor accepts the blocks and their
flags are truthful, solving returns the solution for the dense matrix of the accepted blocks. -/
theorem mk2x2_toMat (A : Op a) (B : Option (Matrix a.Idx b.Idx ℝ)) (C : Option (Matrix b.Idx a.Idx ℝ))
    (D : Op b) (isSpd : Bool) (op : Op (.node a b)) (h : mk2x2 A B C D isSpd = .ok op) :
    op.toMat = Matrix.fromBlocks A.toMat
      (match B, C with | some B, _ => B | none, some C => if isSpd then Cᵀ else 0 | none, none => 0)
      (match C, B with | some C, _ => C | none, some B => if isSpd then Bᵀ else 0 | none, none => 0)
      D.toMat := by
  unfold mk2x2 at h
  cases B <;> cases C <;> cases isSpd <;> simp at h <;>
    (try split at h) <;> (try split at h) <;> simp_all <;> subst h <;> rfl

/-- C11: exactly which block combinations the constructor rejects (always with an
`AssertionError`). -/
theorem mk2x2_error_iff (A : Op a) (B : Option (Matrix a.Idx b.Idx ℝ)) (C : Option (Matrix b.Idx a.Idx ℝ))
    (D : Op b) (isSpd : Bool) :
    (∃ err, mk2x2 A B C D isSpd = .error err) ↔
      (isSpd = true ∧ (B ≠ none ∨ C ≠ none) ∧
        ((B ≠ none ∧ C ≠ none) ∨ A.flags.symm = false ∨ D.flags.symm = false ∨ A.flags.pd = false)) ∨
      (isSpd = false ∧ B = none ∧ C ≠ none ∧ (A.flags.lower = false ∨ D.flags.lower = false)) ∨
      (isSpd = false ∧ B ≠ none ∧ C = none ∧ (A.flags.upper = false ∨ D.flags.upper = false)) := by
  unfold mk2x2
  cases B <;> cases C <;> cases isSpd <;> cases A.flags.symm <;> cases D.flags.symm <;>
    cases A.flags.pd <;> cases A.flags.lower <;> cases D.flags.lower <;> cases A.flags.upper <;>
    cases D.flags.upper <;> simp

/-- What the flags of an operator promise. -/
def Op.Truthful (op : Op s) : Prop :=
  (op.flags.symm = true → op.toMatᵀ = op.toMat) ∧ (op.flags.pd = true → op.toMat.PosDef) ∧
    (op.flags.lower = true → IsLower op.toMat) ∧ (op.flags.upper = true → IsUpper op.toMat)

/-- C11: the constructor only sets flags that are true if those of the diagonal blocks are (and `is_spd` is), and a block diagonal operator is flagged
symmetric exactly if both blocks are. -/
theorem mk2x2_flags (A : Op a) (B : Option (Matrix a.Idx b.Idx ℝ)) (C : Option (Matrix b.Idx a.Idx ℝ)) (D : Op b) (isSpd : Bool) (op : Op (.node a b))
    (h : mk2x2 A B C D isSpd = .ok op) :
    (A.Truthful → D.Truthful → (isSpd = true → op.flags.pd = true → op.toMat.PosDef) → op.Truthful) ∧
      (B = none → C = none → (op.flags.symm = true ↔ A.flags.symm = true ∧ D.flags.symm = true)) := by
  constructor
  · intro hA hD hs
    unfold mk2x2 at h
    split at h
    · injection h with h
      subst h
      refine ⟨fun hf => ?_, by simp [Op.flags], by simp [Op.flags], by simp [Op.flags]⟩
      have hf' : A.flags.symm = true ∧ D.flags.symm = true := by simpa [Op.flags] using hf
      have h1 := hA.1 hf'.1
      have h2 := hD.1 hf'.2
      show (Matrix.fromBlocks A.toMat 0 0 D.toMat)ᵀ = Matrix.fromBlocks A.toMat 0 0 D.toMat
      rw [Matrix.fromBlocks_transpose, h1, h2, Matrix.transpose_zero, Matrix.transpose_zero]
    split at h
    · rename_i hspd
      split at h
      · cases h
      split at h
      · cases h
      split at h
      · cases h
      rename_i hsy _
      have hsy' : A.flags.symm = true ∧ D.flags.symm = true := by simpa using hsy
      have h1 := hA.1 hsy'.1
      have h2 := hD.1 hsy'.2
      have key : ∀ B' : Matrix a.Idx b.Idx ℝ, (Matrix.fromBlocks A.toMat B' B'ᵀ D.toMat)ᵀ = Matrix.fromBlocks A.toMat B' B'ᵀ D.toMat := fun B' => by
        rw [Matrix.fromBlocks_transpose, h1, h2, Matrix.transpose_transpose]
      have key' : ∀ C' : Matrix b.Idx a.Idx ℝ, (Matrix.fromBlocks A.toMat C'ᵀ C' D.toMat)ᵀ = Matrix.fromBlocks A.toMat C'ᵀ C' D.toMat := fun C' => by
        rw [Matrix.fromBlocks_transpose, h1, h2, Matrix.transpose_transpose]
      split at h <;> (injection h with h; subst h)
      · exact ⟨fun _ => key _, fun hp => hs hspd hp, by simp [Op.flags], by simp [Op.flags]⟩
      · exact ⟨fun _ => key' _, fun hp => hs hspd hp, by simp [Op.flags], by simp [Op.flags]⟩
    split at h
    · rename_i hl
      injection h with h
      subst h
      have hl' : (A.flags.lower = true ∧ D.flags.lower = true) ∧ B = none := by simpa using hl
      exact ⟨by simp [Op.flags], by simp [Op.flags], fun _ => (isLower_nb_iff _ _ _ _).mpr ⟨hA.2.2.1 hl'.1.1, rfl, hD.2.2.1 hl'.1.2⟩, by simp [Op.flags]⟩
    split at h
    · rename_i hl
      injection h with h
      subst h
      have hl' : (A.flags.upper = true ∧ D.flags.upper = true) ∧ C = none := by simpa using hl
      exact ⟨by simp [Op.flags], by simp [Op.flags], by simp [Op.flags], fun _ => (isUpper_nb_iff _ _ _ _).mpr ⟨hA.2.2.2 hl'.1.1, rfl, hD.2.2.2 hl'.1.2⟩⟩
    split at h
    · cases h
    · injection h with h
      subst h
      exact ⟨by simp [Op.flags], by simp [Op.flags], by simp [Op.flags], by simp [Op.flags]⟩
  · rintro rfl rfl
    simp only [mk2x2, Option.isNone_none, Bool.and_self, if_true] at h
    injection h with h
    subst h
    simp [Op.flags]

/-- A block diagonal operator with one symmetric and one lower triangular block. -/
example : ∃ op, mk2x2 (.dense (s := .leaf 2) !![1, 2; 2, 1] { symm := true }) none none (.dense (s := .leaf 2) !![1, 0; 2, 1] { lower := true }) false = .ok op ∧
    op.flags.symm = false ∧ op.Truthful := by
  have h : mk2x2 (.dense (s := .leaf 2) !![1, 2; 2, 1] { symm := true }) none none (.dense (s := .leaf 2) !![1, 0; 2, 1] { lower := true }) false = .ok _ := rfl
  refine ⟨_, h, rfl, (mk2x2_flags _ _ _ _ _ _ h).1 ⟨fun _ => ?_, by simp [Op.flags], by simp [Op.flags], by simp [Op.flags]⟩
    ⟨by simp [Op.flags], by simp [Op.flags], fun _ => ?_, by simp [Op.flags]⟩ (by simp)⟩
  · show (!![1, 2; 2, 1] : Matrix (Fin 2) (Fin 2) ℝ)ᵀ = !![1, 2; 2, 1]
    ext i j
    fin_cases i <;> fin_cases j <;> rfl
  · intro i j hij
    change Fin 2 at i j
    change (i : ℕ) < (j : ℕ) at hij
    show (!![1, 0; 2, 1] : Matrix (Fin 2) (Fin 2) ℝ) i j = 0
    fin_cases i <;> fin_cases j <;> simp_all

/-- C11: every operator accepted by the constructor satisfies the promises of its branch, provided
its parts do, `is_spd=True` is only claimed for positive definite matrices and the blocks without
structure form an invertible matrix. -/
theorem mk2x2_valid (A : Op a) (B : Option (Matrix a.Idx b.Idx ℝ)) (C : Option (Matrix b.Idx a.Idx ℝ))
    (D : Op b) (isSpd : Bool) (op : Op (.node a b)) (h : mk2x2 A B C D isSpd = .ok op)
    (hA : A.Valid) (hD : D.Valid) (hAs : A.flags.pd = true → A.Spd)
    (hAl : A.flags.lower = true → IsLower A.toMat) (hDl : D.flags.lower = true → IsLower D.toMat)
    (hAu : A.flags.upper = true → IsUpper A.toMat) (hDu : D.flags.upper = true → IsUpper D.toMat)
    (hspd : isSpd = true → op.toMat.PosDef) (hu : IsUnit op.toMat) : op.Valid := by
  unfold mk2x2 at h
  split at h
  · injection h with h; subst h; exact ⟨hA, hD, rfl, rfl⟩
  split at h
  · split at h
    · cases h
    split at h
    · cases h
    split at h
    · cases h
    rename_i hpd
    have hpd' : A.flags.pd = true := by simpa using hpd
    split at h <;> (injection h with h; subst h; refine ⟨by simp, hspd (by assumption), hAs hpd'⟩)
  split at h
  · rename_i hf
    simp only [Bool.and_eq_true] at hf
    injection h with h; subst h; exact ⟨hA, hD, rfl, hAl hf.1.1, hDl hf.1.2⟩
  split at h
  · rename_i hf
    simp only [Bool.and_eq_true] at hf
    injection h with h; subst h; exact ⟨hA, hD, rfl, hAu hf.1.1, hDu hf.1.2⟩
  split at h
  · cases h
  · injection h with h; subst h; exact hu

/-! ## C12 schur_update -/

lemma denseSolve_plain (M : Matrix s.Idx s.Idx ℝ) (y : Matrix s.Idx κ ℝ) : denseSolve M {} y = M⁻¹ * y := rfl

/-- The block solve formula behind `schur_update`. -/
lemma schur_formula {A : Matrix a.Idx a.Idx ℝ} {B : Matrix a.Idx b.Idx ℝ} {C : Matrix b.Idx a.Idx ℝ}
    {D S : Matrix b.Idx b.Idx ℝ} (hA : IsUnit A) (hS : S = D - C * A⁻¹ * B) (hSu : IsUnit S)
    (u : Matrix a.Idx κ ℝ) (v : Matrix b.Idx κ ℝ) :
    nb A B C D * concat (A⁻¹ * u - A⁻¹ * (B * (S⁻¹ * (v - C * (A⁻¹ * u))))) (S⁻¹ * (v - C * (A⁻¹ * u))) =
      concat u v := by
  have hA' := (Matrix.isUnit_iff_isUnit_det _).mp hA
  have hS' := (Matrix.isUnit_iff_isUnit_det _).mp hSu
  rw [nb_mul, concat_eq_iff]
  set y := S⁻¹ * (v - C * (A⁻¹ * u)) with hy
  have hSy : S * y = v - C * (A⁻¹ * u) := by
    rw [hy, ← Matrix.mul_assoc, Matrix.mul_nonsing_inv _ hS', Matrix.one_mul]
  constructor
  · rw [Matrix.mul_sub, ← Matrix.mul_assoc, ← Matrix.mul_assoc A, Matrix.mul_nonsing_inv _ hA',
      Matrix.one_mul, Matrix.one_mul]
    abel
  · rw [hS, Matrix.sub_mul] at hSy
    have : D * y = C * A⁻¹ * B * y + (v - C * (A⁻¹ * u)) := by rw [← hSy]; abel
    rw [this, Matrix.mul_sub]
    simp only [Matrix.mul_assoc]
    abel

/-- C12: `schur_update` in the symmetric branch solves the extended system. -/
theorem schurUpdate_spd (e : Env) (he : e.CholOK) (A : Op a) (B : Matrix a.Idx b.Idx ℝ)
    (C : Matrix b.Idx a.Idx ℝ) (D : Op b) (h : (Op.block .spd A B C D).Valid)
    (u : Matrix a.Idx κ ℝ) (v : Matrix b.Idx κ ℝ) (w : Matrix a.Idx κ ℝ) (hw : A.toMat * w = u) :
    ∃ x, schurUpdate e .spd A B C D w v = .ok x ∧ (Op.block .spd A B C D).toMat * x = concat u v := by
  obtain ⟨rfl, hP, hA⟩ := h
  obtain ⟨hAP, hS⟩ := (posDef_nb_iff _ _ _).mp hP
  obtain ⟨L, e1, e2, e3, e4⟩ := cholesky_spec e he _ hA
  have hLAB : lAinvB e L B = L.toMat⁻¹ * B := eq_inv_mul e4.isUnit (solveNS_lower e e4 B)
  have hS' : D.toMat - (lAinvB e L B)ᵀ * lAinvB e L B = D.toMat - Bᵀ * A.toMat⁻¹ * B := by
    rw [hLAB, lab_gram e2]
  have hs : schur e .spd A B Bᵀ D = .ok (D.toMat - Bᵀ * A.toMat⁻¹ * B) := by
    rw [← hS']; simp only [schur, e1]; rfl
  have hw' := eq_inv_mul hAP.isUnit hw
  refine ⟨_, by
    simp only [schurUpdate, hs]
    show (do
      let AinvBy ← A.solve e _
      pure (concat (w - AinvBy) _) : Except Err _) = _
    rw [solve_eq_inv e he A hA.valid]
    rfl, ?_⟩
  rw [denseSolve_plain, hw']
  exact schur_formula hAP.isUnit rfl hS.isUnit u v

/-- C12: `schur_update` of a block-diagonal operator solves the extended system. -/
theorem schurUpdate_blockDiag (e : Env) (he : e.CholOK) (sy : Bool) (A : Op a) (B : Matrix a.Idx b.Idx ℝ)
    (C : Matrix b.Idx a.Idx ℝ) (D : Op b) (h : (Op.block (.blockDiag sy) A B C D).Valid)
    (u : Matrix a.Idx κ ℝ) (v : Matrix b.Idx κ ℝ) (w : Matrix a.Idx κ ℝ) (hw : A.toMat * w = u) :
    ∃ x, schurUpdate e (.blockDiag sy) A B C D w v = .ok x ∧
      (Op.block (.blockDiag sy) A B C D).toMat * x = concat u v := by
  obtain ⟨hA, hD, rfl, rfl⟩ := h
  obtain ⟨y, h1, h2⟩ := solve_spec e he D hD v
  refine ⟨concat w y, by simp only [schurUpdate, h1]; rfl, ?_⟩
  rw [toMat_block, nb_mul, hw, h2]
  simp

/-- C12: `schur_update` in the remaining (triangular and general) branches, whenever `A` and the
Schur complement are invertible. -/
theorem schurUpdate_general (e : Env) (he : e.CholOK) (k : Kind) (hk : k = .general ∨ k = .lower ∨ k = .upper)
    (A : Op a) (B : Matrix a.Idx b.Idx ℝ) (C : Matrix b.Idx a.Idx ℝ) (D : Op b) (hA : A.Valid)
    (hS : IsUnit (D.toMat - C * A.toMat⁻¹ * B))
    (u : Matrix a.Idx κ ℝ) (v : Matrix b.Idx κ ℝ) (w : Matrix a.Idx κ ℝ) (hw : A.toMat * w = u) :
    ∃ x, schurUpdate e k A B C D w v = .ok x ∧ (Op.block k A B C D).toMat * x = concat u v := by
  have hs : schur e k A B C D = .ok (D.toMat - C * A.toMat⁻¹ * B) := by
    rcases hk with rfl | rfl | rfl <;> simp only [schur, solve_eq_inv e he A hA] <;>
      rw [Matrix.mul_assoc] <;> rfl
  have hw' := eq_inv_mul hA.isUnit hw
  refine ⟨concat (w - A.toMat⁻¹ * (B * ((D.toMat - C * A.toMat⁻¹ * B)⁻¹ * (v - C * w))))
    ((D.toMat - C * A.toMat⁻¹ * B)⁻¹ * (v - C * w)), ?_, ?_⟩
  · have key : (do
        let S ← schur e k A B C D
        let y := denseSolve S {} (v - C * w)
        let AinvBy ← A.solve e (B * y)
        return concat (w - AinvBy) y : Except Err _) = .ok (concat
          (w - A.toMat⁻¹ * (B * ((D.toMat - C * A.toMat⁻¹ * B)⁻¹ * (v - C * w))))
          ((D.toMat - C * A.toMat⁻¹ * B)⁻¹ * (v - C * w))) := by
      rw [hs]
      show (do
        let AinvBy ← A.solve e _
        pure (concat (w - AinvBy) _) : Except Err _) = _
      rw [solve_eq_inv e he A hA]
      rfl
    rcases hk with rfl | rfl | rfl <;> exact key
  · rw [hw']
    exact schur_formula hA.isUnit rfl hS u v

/-! ## C14 determinant and trace -/

/-- C14: the trace of a block operator is the trace of the dense matrix. -/
theorem trace_spec (op : Op s) : op.trace = op.toMat.trace := by
  induction op with
  | dense M f => rfl
  | block k A B C D ihA ihD =>
    rw [Op.trace, ihA, ihD]
    exact (Fintype.sum_sum_type (fun i => Matrix.fromBlocks A.toMat B C D.toMat i i)).symm

/-- What the determinant branches rely on: the zero blocks are zero, and `is_spd` operators are
positive definite.  Singular matrices are allowed otherwise. -/
def Op.DetOK : {s : Shape} → Op s → Prop
  | _, .dense _ _ => True
  | _, .block (.blockDiag _) A B C D => B = 0 ∧ C = 0 ∧ A.DetOK ∧ D.DetOK
  | _, .block .spd A B C D => (Op.block .spd A B C D).Spd
  | _, .block .lower A B _ D => B = 0 ∧ A.DetOK ∧ D.DetOK
  | _, .block .upper A _ C D => C = 0 ∧ A.DetOK ∧ D.DetOK
  | _, .block .general _ _ _ _ => True

lemma Op.Spd.detOK {op : Op s} (h : op.Spd) : op.DetOK := by
  cases op with
  | dense M f => trivial
  | block k A B C D => obtain rfl := h.1; exact h

/-- C14: the determinant of a block operator is the determinant of the dense matrix. -/
theorem det_spec (e : Env) (he : e.CholOK) (op : Op s) (h : op.DetOK) : op.det e = .ok op.toMat.det := by
  induction op with
  | dense M f => rfl
  | block k A B C D ihA ihD =>
    rw [toMat_block]
    cases k with
    | blockDiag sy =>
      obtain ⟨rfl, rfl, hA, hD⟩ := h
      rw [Op.det, ihA hA, ihD hD]
      · show Except.ok _ = _
        rw [← Matrix.det_fromBlocks_zero₁₂ A.toMat 0 D.toMat]; rfl
      all_goals simp
    | lower =>
      obtain ⟨rfl, hA, hD⟩ := h
      rw [Op.det, ihA hA, ihD hD]
      · show Except.ok _ = _
        rw [← Matrix.det_fromBlocks_zero₁₂ A.toMat C D.toMat]; rfl
      all_goals simp
    | upper =>
      obtain ⟨rfl, hA, hD⟩ := h
      rw [Op.det, ihA hA, ihD hD]
      · show Except.ok _ = _
        rw [← Matrix.det_fromBlocks_zero₂₁ A.toMat B D.toMat]; rfl
      all_goals simp
    | general => rfl
    | spd =>
      obtain ⟨-, rfl, hP, hA⟩ := (h : (Op.block .spd A B C D).Spd)
      obtain ⟨hAP, hS⟩ := (posDef_nb_iff _ _ _).mp hP
      obtain ⟨L, e1, e2, e3, e4⟩ := cholesky_spec e he _ hA
      have hLAB : lAinvB e L B = L.toMat⁻¹ * B := eq_inv_mul e4.isUnit (solveNS_lower e e4 B)
      have hS' : D.toMat - (lAinvB e L B)ᵀ * lAinvB e L B = D.toMat - Bᵀ * A.toMat⁻¹ * B := by
        rw [hLAB, lab_gram e2]
      have hs : schur e .spd A B Bᵀ D = .ok (D.toMat - Bᵀ * A.toMat⁻¹ * B) := by
        rw [← hS']; simp only [schur, e1]; rfl
      rw [Op.det, hs, ihA hA.detOK]
      have := hAP.isUnit.invertible
      have h2 : (nb A.toMat B Bᵀ D.toMat).det = A.toMat.det * (D.toMat - Bᵀ * ⅟A.toMat * B).det :=
        Matrix.det_fromBlocks₁₁ A.toMat B Bᵀ D.toMat
      rw [h2, invOf_eq_nonsing_inv]
      rfl

/-! ## Non-vacuity -/

/-- The Cholesky contract is satisfiable, for both settings. -/
theorem exists_env (bts tkf : Bool) :
    ∃ e : Env, e.CholOK ∧ e.blockTriangularSolves = bts ∧ e.transposeKeepsFlags = tkf := by
  classical
  refine ⟨⟨fun {s} M => if h : M.PosDef then (exists_chol s M h).choose else 0, bts, tkf⟩, ?_, rfl, rfl⟩
  intro s M hM
  simp only [dif_pos hM]
  exact (exists_chol s M hM).choose_spec

/-- Positive definite operators exist at every nesting and with arbitrary coupling blocks: extend any
given one by an arbitrary `B` and `D = Bᵀ A⁻¹ B + 1`. -/
theorem exists_spd_extension (A : Op a) (hA : A.Spd) (B : Matrix a.Idx b.Idx ℝ) :
    (Op.block .spd A B Bᵀ (.dense (Bᵀ * A.toMat⁻¹ * B + 1) { symm := true })).Spd := by
  refine ⟨rfl, rfl, (posDef_nb_iff _ _ _).mpr ⟨hA.posDef, ?_⟩, hA⟩
  simp only [Op.toMat, add_sub_cancel_left]
  exact Matrix.PosDef.one

/-- … and the constructor accepts them. -/
example (A : Op a) (h1 : A.flags.symm = true) (h2 : A.flags.pd = true) (B : Matrix a.Idx b.Idx ℝ) :
    mk2x2 A (some B) none (.dense (Bᵀ * A.toMat⁻¹ * B + 1) { symm := true }) true =
      .ok (.block .spd A B Bᵀ (.dense (Bᵀ * A.toMat⁻¹ * B + 1) { symm := true })) := by
  simp [mk2x2, h1, h2, flags_dense]

/-- A concrete start: the identity. -/
example : (Op.dense (s := .leaf 3) 1 { symm := true, pd := true }).Spd :=
  ⟨Matrix.PosDef.one, by simp, by simp⟩

/-- A concrete nested lower triangular operator meeting `Op.Valid` (non-symmetric, coupled). -/
example : (Op.block .lower (.block .lower (.dense (s := .leaf 1) 1 { lower := true }) 0 (Matrix.of fun _ _ => 5)
    (.dense (s := .leaf 2) 1 { lower := true })) 0 (Matrix.of fun _ _ => 7)
    (.dense (s := .leaf 1) 1 { lower := true })).Valid := by
  have h1 : ∀ n, IsLower (s := .leaf n) 1 := by
    intro n i j hij
    exact Matrix.one_apply_ne (fun h => by subst h; exact lt_irrefl _ hij)
  have hv : ∀ n, (Op.dense (s := .leaf n) 1 { lower := true }).Valid := fun n => ⟨isUnit_one, fun _ => h1 n, by simp⟩
  refine ⟨⟨hv 1, hv 2, rfl, h1 1, h1 2⟩, hv 1, rfl, ?_, h1 1⟩
  rw [toMat_block, isLower_nb_iff]
  exact ⟨h1 1, rfl, h1 2⟩

/-- A general (unstructured) invertible operator: `[[0, 1], [1, 0]]`. -/
example : (Op.block .general (b := .leaf 2) (.dense (s := .leaf 2) 0 {}) 1 1 (.dense (s := .leaf 2) 0 {})).Valid := by
  have : nb (a := .leaf 2) (b := .leaf 2) 0 1 1 0 * nb (a := .leaf 2) (b := .leaf 2) 0 1 1 0 = 1 := by
    rw [nb_mul_nb]
    simp only [Matrix.mul_zero, Matrix.mul_one, zero_add, add_zero]
    exact Matrix.fromBlocks_one
  exact IsUnit.of_mul_eq_one _ this

end LinPDE.Block
