import Verif.Block.Lemmas2x2
import Mathlib.Analysis.Matrix.LDL
import Mathlib.LinearAlgebra.Matrix.Block

/-! Existence of Cholesky factors: the contract `Env.CholOK` is satisfiable. -/

namespace LinPDE.Block
open Matrix

/-- Every real positive definite matrix over `Fin n` has a lower triangular Cholesky factor. -/
lemma exists_chol_fin {n : ℕ} (M : Matrix (Fin n) (Fin n) ℝ) (hM : M.PosDef) :
    ∃ L : Matrix (Fin n) (Fin n) ℝ, L * Lᵀ = M ∧ ∀ i j, i < j → L i j = 0 := by
  have hd : (LDL.diag hM).PosDef := by
    rw [LDL.diag_eq_lowerInv_conj]
    refine hM.mul_mul_conjTranspose_same ?_
    exact Matrix.vecMul_injective_of_isUnit (isUnit_of_invertible (LDL.lowerInv hM))
  have hpos : ∀ i, 0 < LDL.diagEntries hM i := by
    rw [LDL.diag, Matrix.posDef_diagonal_iff] at hd
    exact hd
  refine ⟨LDL.lower hM * Matrix.diagonal (fun i => Real.sqrt (LDL.diagEntries hM i)), ?_, ?_⟩
  · rw [Matrix.transpose_mul, Matrix.diagonal_transpose, Matrix.mul_assoc, ← Matrix.mul_assoc (Matrix.diagonal _),
      Matrix.diagonal_mul_diagonal]
    conv_rhs => rw [← LDL.lower_conj_diag hM]
    simp only [Real.mul_self_sqrt (hpos _).le, LDL.diag, conjTranspose_eq_transpose_of_trivial, Matrix.mul_assoc]
  · intro i j hij
    rw [Matrix.mul_diagonal]
    have : (LDL.lower hM).BlockTriangular OrderDual.toDual := by
      refine Matrix.blockTriangular_inv_of_blockTriangular (M := LDL.lowerInv hM) ?_
      intro i j hij
      exact LDL.lowerInv_triangular hM hij
    rw [this hij, zero_mul]

/-- Every real positive definite matrix has a lower triangular Cholesky factor, whatever the block
structure of its index set. -/
lemma exists_chol : ∀ (s : Shape) (M : Matrix s.Idx s.Idx ℝ), M.PosDef →
    ∃ L : Matrix s.Idx s.Idx ℝ, L * Lᵀ = M ∧ IsLower L
  | .leaf n, M, hM => by
    obtain ⟨L, h1, h2⟩ := exists_chol_fin (n := n) M hM
    exact ⟨L, h1, fun i j hij => h2 i j hij⟩
  | .node a b, M, hM => by
    set A : Matrix a.Idx a.Idx ℝ := Matrix.toBlocks₁₁ (show Matrix (a.Idx ⊕ b.Idx) (a.Idx ⊕ b.Idx) ℝ from M) with hA
    set B : Matrix a.Idx b.Idx ℝ := Matrix.toBlocks₁₂ (show Matrix (a.Idx ⊕ b.Idx) (a.Idx ⊕ b.Idx) ℝ from M) with hB
    set D : Matrix b.Idx b.Idx ℝ := Matrix.toBlocks₂₂ (show Matrix (a.Idx ⊕ b.Idx) (a.Idx ⊕ b.Idx) ℝ from M) with hD
    have hMb : M = nb A B Bᵀ D := by
      have hs : Mᵀ = M := by
        have := hM.isHermitian
        rwa [Matrix.IsHermitian, conjTranspose_eq_transpose_of_trivial] at this
      funext i j
      cases i with
      | inl i => cases j with
        | inl j => rfl
        | inr j => rfl
      | inr i => cases j with
        | inl j => exact (congrFun (congrFun hs (Sum.inr i)) (Sum.inl j)).symm
        | inr j => rfl
    have hM' := hM
    rw [hMb] at hM'
    obtain ⟨hAP, hS⟩ := (posDef_nb_iff _ _ _).mp hM'
    obtain ⟨L, e1, e2⟩ := exists_chol a A hAP
    obtain ⟨T, f1, f2⟩ := exists_chol b _ hS
    have hL : IsUnit L.det := by
      have := (Matrix.isUnit_iff_isUnit_det _).mp hAP.isUnit
      rw [← e1, Matrix.det_mul] at this
      exact isUnit_of_mul_isUnit_left this
    have hg : (L⁻¹ * B)ᵀ * (L⁻¹ * B) = Bᵀ * A⁻¹ * B := by
      rw [← e1, Matrix.mul_inv_rev, Matrix.transpose_mul, Matrix.transpose_nonsing_inv]
      simp only [Matrix.mul_assoc]
    refine ⟨nb L 0 (L⁻¹ * B)ᵀ T, ?_, (isLower_nb_iff _ _ _ _).mpr ⟨e2, rfl, f2⟩⟩
    rw [nb_transpose, nb_mul_nb, hMb, nb_inj]
    refine ⟨by simp [e1], ?_, ?_, ?_⟩
    · rw [Matrix.transpose_transpose, ← Matrix.mul_assoc, Matrix.mul_nonsing_inv _ hL]
      simp
    · rw [Matrix.transpose_mul, Matrix.transpose_nonsing_inv, Matrix.mul_assoc,
        Matrix.nonsing_inv_mul _ (by rw [Matrix.det_transpose]; exact hL)]
      simp
    · rw [Matrix.transpose_transpose, hg, f1]
      abel

end LinPDE.Block
