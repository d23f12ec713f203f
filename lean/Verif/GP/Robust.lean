import Verif.GP.TransformProps
import Verif.GP.Optimal

/-!
# Robustness of posteriors: lemmas (C83)
-/

namespace LinPDE.GP
open Matrix LinPDE.Block

variable {X : Type} {P : Prior X} {Q : Type}

/-! ## Quadratic forms -/

section forms
variable {ι κ : Type} [Fintype ι] [DecidableEq ι] [Fintype κ] [DecidableEq κ]

lemma psd_cs {M : Matrix ι ι ℝ} (hM : M.PosSemidef) (u v : ι → ℝ) : (u ⬝ᵥ (M *ᵥ v)) ^ 2 ≤ (u ⬝ᵥ (M *ᵥ u)) * (v ⬝ᵥ (M *ᵥ v)) := by
  have hs : Mᵀ = M := by
    have := hM.isHermitian
    rwa [Matrix.IsHermitian, conjTranspose_eq_transpose_of_trivial] at this
  have key : ∀ t : ℝ, 0 ≤ (v ⬝ᵥ (M *ᵥ v)) * (t * t) + (2 * (u ⬝ᵥ (M *ᵥ v))) * t + u ⬝ᵥ (M *ᵥ u) := by
    intro t
    have h0 := quad_nonneg hM (u + t • v)
    rw [mulVec_add, mulVec_smul, add_dotProduct, dotProduct_add, dotProduct_add, smul_dotProduct, smul_dotProduct, dotProduct_smul,
      dotProduct_smul, dot_symm M hs v u] at h0
    simp only [smul_eq_mul] at h0
    linarith
  have := discrim_le_zero key
  rw [discrim] at this
  nlinarith

lemma pd_symm {G : Matrix ι ι ℝ} (hG : G.PosDef) : Gᵀ = G := by
  have := hG.isHermitian
  rwa [Matrix.IsHermitian, conjTranspose_eq_transpose_of_trivial] at this

lemma pd_solve {G : Matrix ι ι ℝ} (hG : G.PosDef) (v : ι → ℝ) : G *ᵥ (G⁻¹ *ᵥ v) = v := by
  rw [mulVec_mulVec, mul_nonsing_inv _ ((Matrix.isUnit_iff_isUnit_det _).mp hG.isUnit), one_mulVec]

lemma pd_solve' {G : Matrix ι ι ℝ} (hG : G.PosDef) (v : ι → ℝ) : G⁻¹ *ᵥ (G *ᵥ v) = v := by
  rw [mulVec_mulVec, nonsing_inv_mul _ ((Matrix.isUnit_iff_isUnit_det _).mp hG.isUnit), one_mulVec]

lemma dot_self_nonneg (v : ι → ℝ) : 0 ≤ v ⬝ᵥ v := Finset.sum_nonneg fun i _ => mul_self_nonneg (v i)

lemma inv_quad_nonneg {G : Matrix ι ι ℝ} (hG : G.PosDef) (v : ι → ℝ) : 0 ≤ v ⬝ᵥ (G⁻¹ *ᵥ v) := quad_nonneg hG.inv.posSemidef v

/-- The inverse of a matrix bounded from below is bounded from above. -/
lemma inv_quad_le {G : Matrix ι ι ℝ} (hG : G.PosDef) {τ : ℝ} (hτ : 0 < τ) (h : ∀ a, τ * (a ⬝ᵥ a) ≤ a ⬝ᵥ (G *ᵥ a)) (v : ι → ℝ) :
    v ⬝ᵥ (G⁻¹ *ᵥ v) ≤ (v ⬝ᵥ v) / τ := by
  have h1 := h (G⁻¹ *ᵥ v)
  rw [pd_solve hG, dotProduct_comm (G⁻¹ *ᵥ v) v] at h1
  have h2 := psd_cs (Matrix.PosSemidef.one (n := ι) (R := ℝ)) v (G⁻¹ *ᵥ v)
  rw [one_mulVec, one_mulVec] at h2
  have h3 := inv_quad_nonneg hG v
  set s := v ⬝ᵥ (G⁻¹ *ᵥ v)
  set q := (G⁻¹ *ᵥ v) ⬝ᵥ (G⁻¹ *ᵥ v)
  have h4 := dot_self_nonneg v
  rw [le_div_iff₀ hτ]
  rcases h3.eq_or_lt with h5 | h5
  · rw [← h5, zero_mul]
    exact h4
  · have h6 : s * (s * τ) ≤ s * (v ⬝ᵥ v) := by nlinarith
    exact le_of_mul_le_mul_left h6 h5

/-- The quadratic form of the inverse as a maximum. -/
lemma inv_quad_max {G : Matrix ι ι ℝ} (hG : G.PosDef) (u y : ι → ℝ) : 2 * (u ⬝ᵥ y) - y ⬝ᵥ (G *ᵥ y) ≤ u ⬝ᵥ (G⁻¹ *ᵥ u) := by
  have h0 := quad_nonneg hG.posSemidef (y - G⁻¹ *ᵥ u)
  rw [mulVec_sub, pd_solve hG, sub_dotProduct, dotProduct_sub, dotProduct_sub, dot_symm G (pd_symm hG) (G⁻¹ *ᵥ u) y, pd_solve hG,
    dotProduct_comm (G⁻¹ *ᵥ u) u, dotProduct_comm y u] at h0
  linarith

variable {G D : Matrix ι ι ℝ} (hG : G.PosDef) (hD : D.PosSemidef)
include hG hD

lemma add_mono (u : ι → ℝ) : u ⬝ᵥ ((G + D)⁻¹ *ᵥ u) ≤ u ⬝ᵥ (G⁻¹ *ᵥ u) := by
  have hGD := hG.add_posSemidef hD
  have h1 := inv_quad_max hG u ((G + D)⁻¹ *ᵥ u)
  have h2 := quad_nonneg hD ((G + D)⁻¹ *ᵥ u)
  have h3 : ((G + D)⁻¹ *ᵥ u) ⬝ᵥ ((G + D) *ᵥ ((G + D)⁻¹ *ᵥ u)) = u ⬝ᵥ ((G + D)⁻¹ *ᵥ u) := by
    rw [pd_solve hGD, dotProduct_comm]
  rw [add_mulVec, dotProduct_add] at h3
  linarith

lemma add_close (u : ι → ℝ) : u ⬝ᵥ (G⁻¹ *ᵥ u) - u ⬝ᵥ ((G + D)⁻¹ *ᵥ u) ≤ (G⁻¹ *ᵥ u) ⬝ᵥ (D *ᵥ (G⁻¹ *ᵥ u)) := by
  have h1 := inv_quad_max (hG.add_posSemidef hD) u (G⁻¹ *ᵥ u)
  rw [add_mulVec, dotProduct_add, pd_solve hG, dotProduct_comm (G⁻¹ *ᵥ u) u] at h1
  linarith

lemma add_solve_close (u r : ι → ℝ) : (u ⬝ᵥ ((G + D)⁻¹ *ᵥ r) - u ⬝ᵥ (G⁻¹ *ᵥ r)) ^ 2 ≤
    (u ⬝ᵥ ((G + D)⁻¹ *ᵥ u)) * ((G⁻¹ *ᵥ r) ⬝ᵥ (D *ᵥ (G⁻¹ *ᵥ r))) := by
  have hGD := hG.add_posSemidef hD
  set w := G⁻¹ *ᵥ r with hw
  have e1 : (G + D)⁻¹ *ᵥ r = w - (G + D)⁻¹ *ᵥ (D *ᵥ w) := by
    have h1 : (G + D) *ᵥ w = r + D *ᵥ w := by rw [add_mulVec, hw, pd_solve hG]
    have h2 := congrArg (fun v => (G + D)⁻¹ *ᵥ v) h1
    simp only [pd_solve' hGD, mulVec_add] at h2
    exact eq_sub_of_add_eq h2.symm
  rw [e1, dotProduct_sub, sub_sub_cancel_left, neg_sq]
  refine (psd_cs hGD.inv.posSemidef u (D *ᵥ w)).trans (mul_le_mul_of_nonneg_left ?_ (inv_quad_nonneg hGD u))
  set x := (G + D)⁻¹ *ᵥ (D *ᵥ w) with hx
  have h1 : x ⬝ᵥ ((G + D) *ᵥ x) = (D *ᵥ w) ⬝ᵥ x := by rw [hx, pd_solve hGD, dotProduct_comm]
  have h2 : (D *ᵥ w) ⬝ᵥ x = x ⬝ᵥ (D *ᵥ w) := dotProduct_comm _ _
  have h3 := psd_cs hD x w
  have h4 := quad_nonneg hG.posSemidef x
  have h5 := quad_nonneg hD w
  have h6 := quad_nonneg hD x
  rw [add_mulVec, dotProduct_add] at h1
  rw [h2] at h1 ⊢
  have h7 : 0 ≤ x ⬝ᵥ (D *ᵥ w) := by linarith
  rcases h7.eq_or_lt with h8 | h8
  · rw [← h8]
    exact h5
  · have h9 : (x ⬝ᵥ (D *ᵥ w)) * (x ⬝ᵥ (D *ᵥ w)) ≤ (x ⬝ᵥ (D *ᵥ w)) * (w ⬝ᵥ (D *ᵥ w)) := by nlinarith
    exact le_of_mul_le_mul_left h9 h8

end forms

/-! ## Blocks -/

/-- A block diagonal matrix on the stacked index. -/
def blk (n : Q → ℕ) (D : ∀ q, Matrix (Fin (n q)) (Fin (n q)) ℝ) (l : List Q) : Matrix (QIdx n l) (QIdx n l) ℝ :=
  Matrix.of fun i j => if h : i.1 = j.1 then D (l.get i.1) i.2 (Fin.cast (by rw [h]) j.2) else 0

lemma blk_quad (n : Q → ℕ) (D : ∀ q, Matrix (Fin (n q)) (Fin (n q)) ℝ) (l : List Q) (a : QIdx n l → ℝ) :
    a ⬝ᵥ (blk n D l *ᵥ a) = ∑ p : Fin l.length, (fun r => a ⟨p, r⟩) ⬝ᵥ (D (l.get p) *ᵥ fun r => a ⟨p, r⟩) := by
  simp only [dotProduct, Matrix.mulVec, Fintype.sum_sigma]
  refine Finset.sum_congr rfl fun p _ => Finset.sum_congr rfl fun r _ => ?_
  congr 1
  rw [Finset.sum_eq_single p]
  · refine Finset.sum_congr rfl fun s _ => ?_
    simp [blk]
  · intro q _ hq
    refine Finset.sum_eq_zero fun s _ => ?_
    simp only [blk, of_apply]
    rw [dif_neg (fun hh => hq hh.symm), zero_mul]
  · simp

lemma blk_symm (n : Q → ℕ) (D : ∀ q, Matrix (Fin (n q)) (Fin (n q)) ℝ) (l : List Q) (h : ∀ q ∈ l, (D q).IsHermitian) :
    (blk n D l).IsHermitian := by
  ext i j
  simp only [conjTranspose_apply, star_trivial, blk, of_apply]
  by_cases hij : i.1 = j.1
  · obtain ⟨p, r⟩ := i
    obtain ⟨q, s⟩ := j
    dsimp only at hij
    subst hij
    rw [dif_pos rfl, dif_pos rfl]
    have := congrFun (congrFun (h _ (List.get_mem l p)) r) s
    rw [conjTranspose_apply, star_trivial] at this
    exact this
  · rw [dif_neg hij, dif_neg (fun hh => hij hh.symm)]

lemma blk_psd (n : Q → ℕ) (D : ∀ q, Matrix (Fin (n q)) (Fin (n q)) ℝ) (l : List Q) (h : ∀ q ∈ l, (D q).PosSemidef) :
    (blk n D l).PosSemidef := by
  refine Matrix.PosSemidef.of_dotProduct_mulVec_nonneg (blk_symm n D l fun q hq => (h q hq).isHermitian) fun a => ?_
  rw [star_trivial, blk_quad]
  exact Finset.sum_nonneg fun p _ => quad_nonneg (h _ (List.get_mem l p)) _

/-- Sums over the stacked index. -/
lemma sum_stack (n : Q → ℕ) (f : ∀ q, Fin (n q) → ℝ) (l : List Q) :
    ∑ i : QIdx n l, f (l.get i.1) i.2 = (l.map fun q => ∑ r, f q r).sum := by
  rw [Fintype.sum_sigma]
  have : (l.map fun q => ∑ r, f q r) = List.ofFn fun p : Fin l.length => ∑ r, f (l.get p) r := by
    conv_lhs => rw [← List.ofFn_get l]
    rw [List.map_ofFn]
    rfl
  rw [this, List.sum_ofFn]

lemma blk_le (n : Q → ℕ) (D : ∀ q, Matrix (Fin (n q)) (Fin (n q)) ℝ) (l : List Q) {τ : ℝ}
    (h : ∀ q ∈ l, ∀ v, v ⬝ᵥ (D q *ᵥ v) ≤ τ * (v ⬝ᵥ v)) (a : QIdx n l → ℝ) : a ⬝ᵥ (blk n D l *ᵥ a) ≤ τ * (a ⬝ᵥ a) := by
  have e : a ⬝ᵥ a = ∑ p : Fin l.length, (fun r => a ⟨p, r⟩) ⬝ᵥ (fun r => a ⟨p, r⟩) := by
    simp only [dotProduct, Fintype.sum_sigma]
  rw [blk_quad, e, Finset.mul_sum]
  exact Finset.sum_le_sum fun p _ => h _ (List.get_mem l p) _

/-- Every batch has noise of at least variance `τ` in every direction (specification; the noise `b` of `_conditional.py:27-35, 253-260`). -/
def NoiseAtLeast (τ : ℝ) (l : List (Batch P)) : Prop := ∀ b ∈ l, ∀ v, τ * (v ⬝ᵥ v) ≤ v ⬝ᵥ (b.noiseCov *ᵥ v)

lemma jN_ge {τ : ℝ} {l : List (Batch P)} (h : NoiseAtLeast τ l) (a : Idx l → ℝ) : τ * (a ⬝ᵥ a) ≤ a ⬝ᵥ (jN l *ᵥ a) := by
  have e : a ⬝ᵥ a = ∑ p : Fin l.length, (fun r => a ⟨p, r⟩) ⬝ᵥ (fun r => a ⟨p, r⟩) := by
    simp only [dotProduct, Fintype.sum_sigma]
  have e2 : a ⬝ᵥ (jN l *ᵥ a) = a ⬝ᵥ (blk (fun b : Batch P => b.n) (fun b => b.noiseCov) l *ᵥ a) := rfl
  rw [e2, blk_quad, e, Finset.mul_sum]
  exact Finset.sum_le_sum fun p _ => h _ (List.get_mem l p) _

lemma jG_ge (hP : P.Regular) {τ : ℝ} {l : List (Batch P)} (h : NoiseAtLeast τ l) (a : Idx l → ℝ) :
    τ * (a ⬝ᵥ a) ≤ a ⬝ᵥ (jG l *ᵥ a) := by
  rw [← combo_cov hP l a]
  linarith [jN_ge h a, hP.nonneg (combo l a)]

section reindex
variable {ι κ : Type} [Fintype ι] [Fintype κ]

lemma sub_ge (e : ι ≃ κ) {G : Matrix κ κ ℝ} {τ : ℝ} (h : ∀ a, τ * (a ⬝ᵥ a) ≤ a ⬝ᵥ (G *ᵥ a)) (a : ι → ℝ) :
    τ * (a ⬝ᵥ a) ≤ a ⬝ᵥ (G.submatrix e e *ᵥ a) := by
  have h1 := h (a ∘ e.symm)
  have e1 : (a ∘ e.symm) ⬝ᵥ (a ∘ e.symm) = a ⬝ᵥ a := comp_equiv_dotProduct_comp_equiv _ _ _
  have e2 : (a ∘ e.symm) ⬝ᵥ (G *ᵥ (a ∘ e.symm)) = a ⬝ᵥ (G.submatrix e e *ᵥ a) := by
    rw [submatrix_mulVec_equiv, ← comp_equiv_dotProduct_comp_equiv (a ∘ e.symm) _ e]
    congr 1
    funext i
    simp
  rwa [e1, e2] at h1

end reindex

/-! ## Further noise -/

/-- The batch with additional independent noise (specification; another argument `b` of `_conditional.py:27-35, 253-260`). -/
def noisier (q : (b : Batch P) × Matrix (Fin b.n) (Fin b.n) ℝ) : Batch P := ⟨q.1.n, q.1.L, some (q.1.bMean, q.1.noiseCov + q.2), q.1.Y⟩

lemma noisier_gram (l : List ((b : Batch P) × Matrix (Fin b.n) (Fin b.n) ℝ)) :
    qG noisier (fun q => q.1.n) (fun _ => rfl) l =
      qG (fun q => q.1) (fun q => q.1.n) (fun _ => rfl) l + blk (fun q => q.1.n) (fun q => q.2) l := by
  ext i j
  have h1 := qG_apply noisier (fun q => q.1.n) (fun _ => rfl) l i j
  have h2 := qG_apply (fun q : (b : Batch P) × Matrix (Fin b.n) (Fin b.n) ℝ => q.1) (fun q => q.1.n) (fun _ => rfl) l i j
  refine h1.trans ?_
  rw [Matrix.add_apply, h2, add_assoc]
  congr 1
  simp only [blk, of_apply]
  by_cases hc : i.1 = j.1
  · rw [dif_pos hc, dif_pos hc, dif_pos hc]
    rfl
  · rw [dif_neg hc, dif_neg hc, dif_neg hc, add_zero]

lemma noisier_posDef {l : List ((b : Batch P) × Matrix (Fin b.n) (Fin b.n) ℝ)} (hG : (jG (l.map fun q => q.1)).PosDef)
    (hD : ∀ q ∈ l, q.2.PosSemidef) : (jG (l.map noisier)).PosDef := by
  refine qG_posDef _ (fun q => q.1.n) (fun _ => rfl) l ?_
  rw [noisier_gram]
  exact (qG_of_posDef _ _ _ l hG).add_posSemidef (blk_psd _ _ l hD)

end LinPDE.GP
