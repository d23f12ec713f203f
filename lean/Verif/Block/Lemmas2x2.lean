import Verif.Block.Model2x2
import Mathlib.Analysis.Matrix.Order
import Mathlib.LinearAlgebra.Matrix.Block
import Mathlib.LinearAlgebra.Matrix.Trace
import Mathlib.Tactic.Abel
import Mathlib.Tactic.NoncommRing

/-! Helper lemmas about the 2×2 block operator model. -/

namespace LinPDE.Block
open Matrix

variable {a b s : Shape} {κ : Type}

lemma concat_split (x : Matrix (Shape.node a b).Idx κ ℝ) : concat (split x).1 (split x).2 = x := by
  funext i j
  cases i <;> rfl

@[simp] lemma split_concat (x0 : Matrix a.Idx κ ℝ) (x1 : Matrix b.Idx κ ℝ) :
    split (concat x0 x1) = (x0, x1) := rfl

lemma concat_eq_iff (x0 y0 : Matrix a.Idx κ ℝ) (x1 y1 : Matrix b.Idx κ ℝ) :
    concat x0 x1 = concat y0 y1 ↔ x0 = y0 ∧ x1 = y1 := by
  constructor
  · intro h
    exact ⟨congrArg (fun z => (split z).1) h, congrArg (fun z => (split z).2) h⟩
  · rintro ⟨rfl, rfl⟩; rfl

/-- The block matrix acts blockwise. -/
lemma fromBlocks_mul_concat (A : Matrix a.Idx a.Idx ℝ) (B : Matrix a.Idx b.Idx ℝ)
    (C : Matrix b.Idx a.Idx ℝ) (D : Matrix b.Idx b.Idx ℝ) (x0 : Matrix a.Idx κ ℝ)
    (x1 : Matrix b.Idx κ ℝ) :
    (HMul.hMul (α := Matrix (Shape.node a b).Idx (Shape.node a b).Idx ℝ)
      (Matrix.fromBlocks A B C D) (concat x0 x1) : Matrix (Shape.node a b).Idx κ ℝ) =
      concat (A * x0 + B * x1) (C * x0 + D * x1) := by
  funext i j
  cases i with
  | inl i =>
    show (∑ k : a.Idx ⊕ b.Idx, _) = _
    rw [Fintype.sum_sum_type]
    rfl
  | inr i =>
    show (∑ k : a.Idx ⊕ b.Idx, _) = _
    rw [Fintype.sum_sum_type]
    rfl

/-- Node-typed `fromBlocks` (to keep the index type syntactically `Shape.Idx`). -/
def nb (A : Matrix a.Idx a.Idx ℝ) (B : Matrix a.Idx b.Idx ℝ)
    (C : Matrix b.Idx a.Idx ℝ) (D : Matrix b.Idx b.Idx ℝ) :
    Matrix (Shape.node a b).Idx (Shape.node a b).Idx ℝ := Matrix.fromBlocks A B C D

lemma nb_mul (A : Matrix a.Idx a.Idx ℝ) (B : Matrix a.Idx b.Idx ℝ)
    (C : Matrix b.Idx a.Idx ℝ) (D : Matrix b.Idx b.Idx ℝ) (x0 : Matrix a.Idx κ ℝ)
    (x1 : Matrix b.Idx κ ℝ) :
    nb A B C D * concat x0 x1 = concat (A * x0 + B * x1) (C * x0 + D * x1) :=
  fromBlocks_mul_concat A B C D x0 x1

lemma toMat_block (k : Kind) (A : Op a) (B : Matrix a.Idx b.Idx ℝ) (C : Matrix b.Idx a.Idx ℝ)
    (D : Op b) : (Op.block k A B C D).toMat = nb A.toMat B C D.toMat := rfl

lemma nb_mul_nb (A A' : Matrix a.Idx a.Idx ℝ) (B B' : Matrix a.Idx b.Idx ℝ)
    (C C' : Matrix b.Idx a.Idx ℝ) (D D' : Matrix b.Idx b.Idx ℝ) :
    nb A B C D * nb A' B' C' D' =
      nb (A * A' + B * C') (A * B' + B * D') (C * A' + D * C') (C * B' + D * D') :=
  Matrix.fromBlocks_multiply A B C D A' B' C' D'

lemma nb_transpose (A : Matrix a.Idx a.Idx ℝ) (B : Matrix a.Idx b.Idx ℝ)
    (C : Matrix b.Idx a.Idx ℝ) (D : Matrix b.Idx b.Idx ℝ) :
    (nb A B C D)ᵀ = nb Aᵀ Cᵀ Bᵀ Dᵀ := Matrix.fromBlocks_transpose A B C D

lemma nb_inj {A A' : Matrix a.Idx a.Idx ℝ} {B B' : Matrix a.Idx b.Idx ℝ}
    {C C' : Matrix b.Idx a.Idx ℝ} {D D' : Matrix b.Idx b.Idx ℝ} :
    nb A B C D = nb A' B' C' D' ↔ A = A' ∧ B = B' ∧ C = C' ∧ D = D' := Matrix.fromBlocks_inj

lemma transpose_toMat (e : Env) (op : Op s) : (op.transpose e).toMat = op.toMatᵀ := by
  induction op with
  | dense M f => rfl
  | block k A B C D ihA ihD =>
    cases k <;> rw [Op.transpose, toMat_block, toMat_block, nb_transpose, ihA, ihD] <;> simp

lemma matmul_eq (op : Op s) (x : Matrix s.Idx κ ℝ) : op.matmul x = op.toMat * x := by
  induction op with
  | dense M f => rfl
  | block k A B C D ihA ihD =>
    rw [Op.matmul, toMat_block]
    conv_rhs => rw [← concat_split x, nb_mul]
    simp only [ihA, ihD]

lemma flags_dense (M : Matrix s.Idx s.Idx ℝ) (f : Flags) : (Op.dense M f).flags = f := rfl

/-! ### Triangular matrices -/

lemma pos_lt_size : ∀ (s : Shape) (i : s.Idx), s.pos i < s.size
  | .leaf _, i => i.isLt
  | .node a _, .inl i => Nat.lt_add_right _ (pos_lt_size a i)
  | .node _ b, .inr j => Nat.add_lt_add_left (pos_lt_size b j) _

lemma isLower_nb_iff (A : Matrix a.Idx a.Idx ℝ) (B : Matrix a.Idx b.Idx ℝ)
    (C : Matrix b.Idx a.Idx ℝ) (D : Matrix b.Idx b.Idx ℝ) :
    IsLower (nb A B C D) ↔ IsLower A ∧ B = 0 ∧ IsLower D := by
  constructor
  · intro h
    refine ⟨fun i j hij => h (.inl i) (.inl j) hij, ?_, fun i j hij => h (.inr i) (.inr j) ?_⟩
    · funext i j
      exact h (.inl i) (.inr j) (lt_of_lt_of_le (pos_lt_size a i) (Nat.le_add_right _ _))
    · exact Nat.add_lt_add_left hij _
  · rintro ⟨hA, rfl, hD⟩ i j hij
    cases i with
    | inl i => cases j with
      | inl j => exact hA i j hij
      | inr j => rfl
    | inr i => cases j with
      | inl j =>
        exfalso
        have h1 : a.pos j < a.size := pos_lt_size a j
        have h2 : a.size + b.pos i < a.pos j := hij
        omega
      | inr j => exact hD i j (Nat.lt_of_add_lt_add_left hij)

lemma isUpper_iff_transpose (M : Matrix s.Idx s.Idx ℝ) : IsUpper M ↔ IsLower Mᵀ :=
  ⟨fun h i j hij => h j i hij, fun h i j hij => h j i hij⟩

lemma isUpper_nb_iff (A : Matrix a.Idx a.Idx ℝ) (B : Matrix a.Idx b.Idx ℝ)
    (C : Matrix b.Idx a.Idx ℝ) (D : Matrix b.Idx b.Idx ℝ) :
    IsUpper (nb A B C D) ↔ IsUpper A ∧ C = 0 ∧ IsUpper D := by
  rw [isUpper_iff_transpose, nb_transpose, isLower_nb_iff, isUpper_iff_transpose, isUpper_iff_transpose,
    Matrix.transpose_eq_zero]

lemma lowerPart_eq {M : Matrix s.Idx s.Idx ℝ} (h : IsLower M) : lowerPart M = M := by
  ext i j
  simp only [lowerPart, of_apply]
  split
  · rename_i hij; exact (h i j hij).symm
  · rfl

lemma upperPart_eq {M : Matrix s.Idx s.Idx ℝ} (h : IsUpper M) : upperPart M = M := by
  ext i j
  simp only [upperPart, of_apply]
  split
  · rename_i hij; exact (h i j hij).symm
  · rfl

lemma denseSolve_eq (M : Matrix s.Idx s.Idx ℝ) (f : Flags) (hl : f.lower = true → IsLower M)
    (hu : f.upper = true → IsUpper M) (b : Matrix s.Idx κ ℝ) : denseSolve M f b = M⁻¹ * b := by
  unfold denseSolve
  split
  · rw [lowerPart_eq (hl (by assumption))]
  · split
    · rw [upperPart_eq (hu (by assumption))]
    · rfl

/-! ### Positive definite block matrices -/

lemma posDef_nb_iff (A : Matrix a.Idx a.Idx ℝ) (B : Matrix a.Idx b.Idx ℝ) (D : Matrix b.Idx b.Idx ℝ) :
    (nb A B Bᵀ D).PosDef ↔ A.PosDef ∧ (D - Bᵀ * A⁻¹ * B).PosDef := by
  constructor
  · intro h
    have hA : A.PosDef := by
      have := PosDef.submatrix (e := (Sum.inl : a.Idx → (Shape.node a b).Idx)) h (by exact Sum.inl_injective)
      exact this
    refine ⟨hA, ?_⟩
    have := hA.isUnit.invertible
    have hS : (D - Bᴴ * A⁻¹ * B).PosSemidef :=
      (PosDef.fromBlocks₁₁ B D hA).mp
        (by rw [conjTranspose_eq_transpose_of_trivial]; exact h.posSemidef)
    rw [conjTranspose_eq_transpose_of_trivial] at hS
    rw [hS.posDef_iff_det_ne_zero]
    have hdet : (nb A B Bᵀ D).det ≠ 0 := by
      have := h.isUnit; rw [Matrix.isUnit_iff_isUnit_det] at this; exact this.ne_zero
    have h2 : (nb A B Bᵀ D).det = A.det * (D - Bᵀ * ⅟A * B).det := Matrix.det_fromBlocks₁₁ A B Bᵀ D
    rw [h2, invOf_eq_nonsing_inv] at hdet
    exact right_ne_zero_of_mul hdet
  · rintro ⟨hA, hS⟩
    have := hA.isUnit.invertible
    have h1 : (nb A B Bᵀ D).PosSemidef := by
      have := (PosDef.fromBlocks₁₁ B D hA).mpr (by rw [conjTranspose_eq_transpose_of_trivial]; exact hS.posSemidef)
      rw [conjTranspose_eq_transpose_of_trivial] at this
      exact this
    rw [h1.posDef_iff_det_ne_zero]
    have h2 : (nb A B Bᵀ D).det = A.det * (D - Bᵀ * ⅟A * B).det := Matrix.det_fromBlocks₁₁ A B Bᵀ D
    rw [h2, invOf_eq_nonsing_inv]
    have e1 := hA.isUnit; rw [Matrix.isUnit_iff_isUnit_det] at e1
    have e2 := hS.isUnit; rw [Matrix.isUnit_iff_isUnit_det] at e2
    exact mul_ne_zero e1.ne_zero e2.ne_zero

end LinPDE.Block
