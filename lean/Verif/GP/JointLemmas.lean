import Verif.GP.Joint
import Verif.GP.Lemmas2

/-! # Lemmas on joint processes, and conditioning a posterior -/

namespace LinPDE.GP
open Matrix LinPDE.Block

variable {X ι : Type} [DecidableEq ι] {P : ι → Prior X}

lemma sel_emb (i j : ι) (g : (P j).F) (x : X) : (sel P i (emb P j g)).1 x = if i = j then g.1 x else 0 := rfl

lemma sel_emb_same (i : ι) (g : (P i).F) : sel P i (emb P i g) = g := by
  apply Subtype.ext
  funext x
  rw [sel_emb, if_pos rfl]

lemma sel_emb_ne {i j : ι} (h : i ≠ j) (g : (P j).F) : sel P i (emb P j g) = 0 := by
  apply Subtype.ext
  funext x
  rw [sel_emb, if_neg h]
  rfl

lemma sum_emb_sel [Fintype ι] (f : jointF P) : ∑ i, emb P i (sel P i f) = f := by
  apply Subtype.ext
  funext p
  rw [AddSubmonoidClass.coe_finsetSum, Finset.sum_apply, Finset.sum_eq_single p.1]
  · show (if p.1 = p.1 then f.1 (p.1, p.2) else 0) = f.1 p
    rw [if_pos rfl]
  · intro i _ hi
    show (if p.1 = i then f.1 (i, p.2) else 0) = 0
    rw [if_neg (Ne.symm hi)]
  · intro h
    exact absurd (Finset.mem_univ _) h

lemma apply_eq_sum [Fintype ι] (L : (indep P).Λ) (f : (indep P).F) : L.1 f = ∑ i, (partOf i L).1 (sel P i f) :=
  (congrArg L.1 (sum_emb_sel f)).symm.trans (map_sum L.1 (fun i => emb P i (sel P i f)) Finset.univ)

lemma sel_cross (i : ι) (L : (indep P).Λ) : sel P i ((indep P).cross L) = (P i).cross (partOf i L) := rfl

lemma sel_m (i : ι) : sel P i (indep P).m = (P i).m := rfl

lemma cov_indep [Fintype ι] (L L' : (indep P).Λ) : (indep P).cov L L' = ∑ i, (P i).cov (partOf i L) (partOf i L') := by
  show L.1 ((indep P).cross L') = _
  rw [apply_eq_sum]
  exact Finset.sum_congr rfl fun i _ => by rw [sel_cross]; rfl

lemma partOf_onComp_same (i : ι) (L : (P i).Λ) : partOf i (onComp P i L) = L := by
  apply Subtype.ext
  ext g
  show L.1 (sel P i (emb P i g)) = L.1 g
  rw [sel_emb_same]

lemma partOf_onComp_ne {i j : ι} (h : i ≠ j) (L : (P j).Λ) : partOf i (onComp P j L) = 0 := by
  apply Subtype.ext
  ext g
  show L.1 (sel P j (emb P i g)) = 0
  rw [sel_emb_ne (Ne.symm h), map_zero]

lemma partOf_sub (i : ι) (L L' : (indep P).Λ) : partOf i (L - L') = partOf i L - partOf i L' := rfl

lemma onComp_apply (i : ι) (L : (P i).Λ) (f : jointF P) : (onComp P i L).1 f = L.1 (sel P i f) := rfl

lemma cov_zero_left {Q : Prior X} (L : Q.Λ) : Q.cov 0 L = 0 := rfl

lemma cov_zero_right {Q : Prior X} (L : Q.Λ) : Q.cov L 0 = 0 := by
  rw [← covBil_apply, map_zero]

lemma indep_regular [Fintype ι] (h : ∀ i, (P i).Regular) : (indep P).Regular where
  ev_mem p i := by
    by_cases hp : p.1 = i
    · subst hp
      convert (h p.1).ev_mem p.2 using 1
      ext g
      show (if p.1 = p.1 then g.1 p.2 else 0) = g.1 p.2
      rw [if_pos rfl]
    · convert (P i).Λ.zero_mem using 1
      ext g
      show (if p.1 = i then g.1 p.2 else 0) = 0
      rw [if_neg hp]
  symm L L' := by
    rw [cov_indep, cov_indep]
    exact Finset.sum_congr rfl fun i _ => (h i).symm _ _
  nonneg L := by
    rw [cov_indep]
    exact Finset.sum_nonneg fun i _ => (h i).nonneg _

/-- A functional without variance vanishes if this holds in each component. -/
lemma indep_strict [Fintype ι] (h : ∀ i, (P i).Regular) (hs : ∀ i, ∀ L : (P i).Λ, (P i).cov L L = 0 → L = 0) (L : (indep P).Λ)
    (h0 : (indep P).cov L L = 0) : L = 0 := by
  rw [cov_indep, Finset.sum_eq_zero_iff_of_nonneg fun i _ => (h i).nonneg _] at h0
  apply Subtype.ext
  ext f
  rw [apply_eq_sum]
  exact Finset.sum_eq_zero fun i _ => by rw [hs i _ (h0 i (Finset.mem_univ i))]; rfl

/-! ## Solving block systems -/

lemma block_solve {m n : Type} [Fintype m] [DecidableEq m] [Fintype n] [DecidableEq n] {A : Matrix m m ℝ} {B : Matrix m n ℝ}
    {D : Matrix n n ℝ} (hA : IsUnit A.det) (hG : IsUnit (fromBlocks A B Bᵀ D).det) (hS : IsUnit (D - Bᵀ * A⁻¹ * B).det)
    (r : m → ℝ) (q : n → ℝ) :
    (fromBlocks A B Bᵀ D)⁻¹ *ᵥ Sum.elim r q =
      Sum.elim (A⁻¹ *ᵥ (r - B *ᵥ ((D - Bᵀ * A⁻¹ * B)⁻¹ *ᵥ (q - Bᵀ *ᵥ (A⁻¹ *ᵥ r)))))
        ((D - Bᵀ * A⁻¹ * B)⁻¹ *ᵥ (q - Bᵀ *ᵥ (A⁻¹ *ᵥ r))) := by
  set S := D - Bᵀ * A⁻¹ * B with hSdef
  set w := S⁻¹ *ᵥ (q - Bᵀ *ᵥ (A⁻¹ *ᵥ r)) with hw
  have hSw : S *ᵥ w = q - Bᵀ *ᵥ (A⁻¹ *ᵥ r) := by
    rw [hw, mulVec_mulVec, mul_nonsing_inv _ hS, one_mulVec]
  have key : fromBlocks A B Bᵀ D *ᵥ Sum.elim (A⁻¹ *ᵥ (r - B *ᵥ w)) w = Sum.elim r q := by
    rw [fromBlocks_mulVec]
    congr 1
    · rw [show (Sum.elim (A⁻¹ *ᵥ (r - B *ᵥ w)) w ∘ Sum.inl) = A⁻¹ *ᵥ (r - B *ᵥ w) from rfl,
        show (Sum.elim (A⁻¹ *ᵥ (r - B *ᵥ w)) w ∘ Sum.inr) = w from rfl, mulVec_mulVec, mul_nonsing_inv _ hA, one_mulVec]
      exact sub_add_cancel _ _
    · rw [show (Sum.elim (A⁻¹ *ᵥ (r - B *ᵥ w)) w ∘ Sum.inl) = A⁻¹ *ᵥ (r - B *ᵥ w) from rfl,
        show (Sum.elim (A⁻¹ *ᵥ (r - B *ᵥ w)) w ∘ Sum.inr) = w from rfl]
      have h2 : D *ᵥ w = S *ᵥ w + Bᵀ *ᵥ (A⁻¹ *ᵥ (B *ᵥ w)) := by
        rw [hSdef, sub_mulVec, ← mulVec_mulVec w, ← mulVec_mulVec (B *ᵥ w), sub_add_cancel]
      rw [h2, hSw, mulVec_sub, mulVec_sub]
      abel
  rw [← key, mulVec_mulVec, nonsing_inv_mul _ hG, one_mulVec]

lemma block_bilin {m n : Type} [Fintype m] [DecidableEq m] [Fintype n] [DecidableEq n] {A : Matrix m m ℝ} {B : Matrix m n ℝ}
    {D : Matrix n n ℝ} (hA : IsUnit A.det) (hG : IsUnit (fromBlocks A B Bᵀ D).det) (hS : IsUnit (D - Bᵀ * A⁻¹ * B).det)
    (u : m → ℝ) (v : n → ℝ) (r : m → ℝ) (q : n → ℝ) :
    Sum.elim u v ⬝ᵥ ((fromBlocks A B Bᵀ D)⁻¹ *ᵥ Sum.elim r q) = u ⬝ᵥ (A⁻¹ *ᵥ r) +
      (fun s => v s - u ⬝ᵥ (A⁻¹ *ᵥ fun i => B i s)) ⬝ᵥ ((D - Bᵀ * A⁻¹ * B)⁻¹ *ᵥ fun s => q s - (fun i => B i s) ⬝ᵥ (A⁻¹ *ᵥ r)) := by
  rw [block_solve hA hG hS]
  have e1 : (fun s => q s - (fun i => B i s) ⬝ᵥ (A⁻¹ *ᵥ r)) = q - Bᵀ *ᵥ (A⁻¹ *ᵥ r) := rfl
  rw [e1]
  set w := (D - Bᵀ * A⁻¹ * B)⁻¹ *ᵥ (q - Bᵀ *ᵥ (A⁻¹ *ᵥ r))
  have e2 : (fun s => v s - u ⬝ᵥ (A⁻¹ *ᵥ fun i => B i s)) = v - u ᵥ* (A⁻¹ * B) := by
    funext s
    rw [Pi.sub_apply]
    congr 1
  rw [e2, sub_dotProduct, ← dotProduct_mulVec, ← mulVec_mulVec, mulVec_sub, sumElim_dotProduct_sumElim, dotProduct_sub]
  ring

lemma schur_posDef {m n : Type} [Fintype m] [DecidableEq m] [Fintype n] [DecidableEq n] {A : Matrix m m ℝ} {B : Matrix m n ℝ}
    {D : Matrix n n ℝ} (hA : IsUnit A.det) (hG : (fromBlocks A B Bᵀ D).PosDef) : (D - Bᵀ * A⁻¹ * B).PosDef := by
  have hH := hG.isHermitian
  rw [Matrix.IsHermitian, conjTranspose_eq_transpose_of_trivial, fromBlocks_transpose, fromBlocks_inj] at hH
  refine Matrix.posDef_iff_dotProduct_mulVec.mpr ⟨?_, fun v hv => ?_⟩
  · rw [Matrix.IsHermitian, conjTranspose_eq_transpose_of_trivial, transpose_sub, transpose_mul, transpose_mul,
      transpose_transpose, transpose_nonsing_inv, hH.1, hH.2.2.2, Matrix.mul_assoc]
  · have h1 := (Matrix.posDef_iff_dotProduct_mulVec.mp hG).2 (x := Sum.elim (-(A⁻¹ *ᵥ (B *ᵥ v))) v) (by
      intro h
      exact hv (funext fun i => congrFun h (Sum.inr i)))
    have h2 : fromBlocks A B Bᵀ D *ᵥ Sum.elim (-(A⁻¹ *ᵥ (B *ᵥ v))) v = Sum.elim (0 : m → ℝ) ((D - Bᵀ * A⁻¹ * B) *ᵥ v) := by
      rw [fromBlocks_mulVec]
      congr 1
      · rw [show (Sum.elim (-(A⁻¹ *ᵥ (B *ᵥ v))) v ∘ Sum.inl) = -(A⁻¹ *ᵥ (B *ᵥ v)) from rfl,
          show (Sum.elim (-(A⁻¹ *ᵥ (B *ᵥ v))) v ∘ Sum.inr) = v from rfl, mulVec_neg, mulVec_mulVec, mul_nonsing_inv _ hA, one_mulVec]
        exact neg_add_cancel _
      · rw [show (Sum.elim (-(A⁻¹ *ᵥ (B *ᵥ v))) v ∘ Sum.inl) = -(A⁻¹ *ᵥ (B *ᵥ v)) from rfl,
          show (Sum.elim (-(A⁻¹ *ᵥ (B *ᵥ v))) v ∘ Sum.inr) = v from rfl, mulVec_neg, sub_mulVec, mulVec_mulVec, mulVec_mulVec,
          Matrix.mul_assoc]
        abel
    rw [h2, star_trivial, sumElim_dotProduct_sumElim, dotProduct_zero, zero_add] at h1
    rwa [star_trivial]

/-! ## Conditioning a posterior -/

section chain
variable {P : Prior X}

/-- The same measurements of the posterior process. -/
@[reducible] def Batch.again (l : List (Batch P)) (b : Batch P) : Batch (posterior P l) := ⟨b.n, b.L, b.noise, b.Y⟩

lemma again_noiseCov (l : List (Batch P)) (b : Batch P) : (b.again l).noiseCov = b.noiseCov := by
  obtain ⟨n, L, noise, Y⟩ := b
  cases noise <;> rfl

lemma again_bMean (l : List (Batch P)) (b : Batch P) : (b.again l).bMean = b.bMean := by
  obtain ⟨n, L, noise, Y⟩ := b
  cases noise <;> rfl

lemma apply_postMeanF (l : List (Batch P)) (L : P.Λ) : L.1 (postMeanF l) = L.1 P.m + uvec l L ⬝ᵥ ((jG l)⁻¹ *ᵥ jR l) := by
  simp only [postMeanF, map_add, map_sum, map_smul, smul_eq_mul]
  congr 1
  exact Finset.sum_congr rfl fun i _ => mul_comm _ _

/-- The Gram matrix of one batch. -/
def gram1 (b : Batch P) : Matrix (Fin b.n) (Fin b.n) ℝ := (Matrix.of fun r s => P.cov (b.L r) (b.L s)) + b.noiseCov

lemma gram1_eq (b : Batch P) : gram1 b = (jG [b]).submatrix (singleEquiv b) (singleEquiv b) := by
  rw [← gramOp_single, gramOp_toMat, gram1]

lemma single_posDef {b : Batch P} (h : (gram1 b).PosDef) : (jG [b]).PosDef := by
  rw [gram1_eq] at h
  have h4 := h.submatrix (singleEquiv b).symm.injective
  rwa [Matrix.submatrix_submatrix, Equiv.self_comp_symm, submatrix_id_id] at h4

lemma single_bilin (b : Batch P) (L : P.Λ) (v : Idx [b] → ℝ) : uvec [b] L ⬝ᵥ ((jG [b])⁻¹ *ᵥ v) =
    (fun r => P.cov L (b.L r)) ⬝ᵥ ((gram1 b)⁻¹ *ᵥ fun r => v (singleEquiv b r)) := by
  rw [gram1_eq]
  exact (sum_reindex (singleEquiv b) (jG [b]) (uvec [b] L) v).symm

lemma single_mean (b : Batch P) (L : P.Λ) : L.1 (postMeanF [b]) = L.1 P.m + (fun r => P.cov L (b.L r)) ⬝ᵥ
    ((gram1 b)⁻¹ *ᵥ fun r => b.Y r - (b.L r).1 P.m - b.bMean r) := by
  rw [apply_postMeanF, single_bilin]
  rfl

lemma single_cov (b : Batch P) (L L' : P.Λ) : (posterior P [b]).cov L L' = P.cov L L' - (fun r => P.cov L (b.L r)) ⬝ᵥ
    ((gram1 b)⁻¹ *ᵥ fun r => P.cov L' (b.L r)) := by
  rw [posterior_cov', single_bilin]
  rfl

variable (hP : P.Regular) {l : List (Batch P)} {b : Batch P} (hG : (jG (l ++ [b])).PosDef)
include hP hG

lemma snoc_blocks : ∃ B : Matrix (Idx l) (Fin b.n) ℝ, (∀ i r, B i r = P.cov (b.L r) (jL l i)) ∧
    (jG (l ++ [b])).submatrix (snocEquiv l b) (snocEquiv l b) = fromBlocks (jG l) B Bᵀ (gram1 b) ∧
    (fromBlocks (jG l) B Bᵀ (gram1 b)).PosDef ∧ gram1 (b.again l) = gram1 b - Bᵀ * (jG l)⁻¹ * B := by
  refine ⟨Matrix.of fun i r => P.cov (b.L r) (jL l i), fun i r => rfl, jG_snoc hP l b, ?_, ?_⟩
  · have h1 := hG.submatrix (snocEquiv l b).injective
    rw [jG_snoc hP l b] at h1
    exact h1
  · ext r s
    show (posterior P l).cov (b.L r) (b.L s) + (b.again l).noiseCov r s = P.cov (b.L r) (b.L s) + b.noiseCov r s - _
    rw [again_noiseCov, posterior_cov', Matrix.mul_assoc, sub_add_eq_add_sub]
    rfl

lemma again_posDef : (jG [b.again l]).PosDef := by
  obtain ⟨B, -, -, h2, h3⟩ := snoc_blocks hP hG
  have := schur_posDef (jG_unit (jG_prefix hP l b hG)) h2
  rw [← h3] at this
  exact single_posDef this

/-- The posterior of the posterior, on functionals. -/
lemma chain_bilin (L : P.Λ) (v : Idx (l ++ [b]) → ℝ) : uvec (l ++ [b]) L ⬝ᵥ ((jG (l ++ [b]))⁻¹ *ᵥ v) =
    uvec l L ⬝ᵥ ((jG l)⁻¹ *ᵥ fun i => v (inlI l b i)) +
      (fun r => (posterior P l).cov L (b.L r)) ⬝ᵥ ((gram1 (b.again l) : Matrix (Fin b.n) (Fin b.n) ℝ)⁻¹ *ᵥ fun r =>
        v (inrI l b r) - uvec l (b.L r) ⬝ᵥ ((jG l)⁻¹ *ᵥ fun i => v (inlI l b i))) := by
  obtain ⟨B, hB, h1, h2, h3⟩ := snoc_blocks hP hG
  have hA := jG_unit (jG_prefix hP l b hG)
  have hS := schur_posDef hA h2
  refine (sum_reindex (snocEquiv l b) (jG (l ++ [b])) (uvec (l ++ [b]) L) v).symm.trans ?_
  rw [h1]
  have e1 : v ∘ snocEquiv l b = Sum.elim (fun i => v (inlI l b i)) fun r => v (inrI l b r) := by
    funext a
    rcases a with a | a
    · exact congrArg v (snocEquiv_inl l b a)
    · exact congrArg v (snocEquiv_inr l b a)
  have e2 : (fun a => uvec (l ++ [b]) L (snocEquiv l b a)) = Sum.elim (uvec l L) fun r => P.cov L (b.L r) := by
    funext a
    rcases a with a | a
    · rw [snocEquiv_inl, Sum.elim_inl, uvec, jL_inl, uvec]
    · rw [snocEquiv_inr, Sum.elim_inr, uvec, jL_inr]
      rfl
  rw [e1]
  refine Eq.trans (congrArg (fun u => u ⬝ᵥ _) e2) ?_
  rw [block_bilin hA ((Matrix.isUnit_iff_isUnit_det _).mp h2.isUnit) ((Matrix.isUnit_iff_isUnit_det _).mp hS.isUnit), h3]
  have hBu : ∀ s, (fun i => B i s) = uvec l (b.L s) := fun s => funext fun i => hB i s
  simp only [hBu, posterior_cov']

/-- The posterior given more measurements is the posterior, given these, of the posterior: means. -/
lemma chain_mean (L : P.Λ) : L.1 (postMeanF (P := posterior P l) [b.again l]) = L.1 (postMeanF (l ++ [b])) := by
  rw [apply_postMeanF (l ++ [b]), chain_bilin hP hG]
  refine (single_mean (b.again l) L).trans ?_
  show L.1 (postMeanF l) + _ = _
  rw [apply_postMeanF, ← add_assoc]
  have e1 : (fun i => jR (l ++ [b]) (inlI l b i)) = jR l := funext fun i => jR_inl l b i
  rw [e1]
  congr 3
  funext r
  rw [jR_inr]
  show b.Y r - (b.L r).1 (postMeanF l) - (b.again l).bMean r = _
  rw [again_bMean, apply_postMeanF]
  ring

/-- The same for covariances. -/
lemma chain_cov (L L' : P.Λ) : (posterior (posterior P l) [b.again l]).cov L L' = (posterior P (l ++ [b])).cov L L' := by
  rw [posterior_cov' (l ++ [b]), chain_bilin hP hG]
  refine (single_cov (b.again l) L L').trans ?_
  rw [posterior_cov']
  have e1 : (fun i => uvec (l ++ [b]) L' (inlI l b i)) = uvec l L' := by
    funext i
    rw [uvec, jL_inl, uvec]
  rw [e1, sub_sub]
  congr 4
  funext r
  show (posterior P l).cov L' (b.L r) = _
  rw [posterior_cov', uvec, jL_inr, dot_symm _ (by
    rw [transpose_nonsing_inv, jG_symm (jG_prefix hP l b hG)])]
  rfl

end chain

end LinPDE.GP
