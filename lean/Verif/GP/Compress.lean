import Verif.GP.MessageProps
import Verif.GP.Transform

/-!
# Equivalent measurements (C82)

Noisy measurements of `A v`, `v` the values of some functionals, and the measurements of `v` by generalised least squares.
-/

namespace LinPDE.GP
open Matrix LinPDE.Block

variable {X : Type} {P : Prior X}

/-- Batch `d` is the weighted least squares fit of the measurements `b`: `b` measures linear combinations `A` of the functionals of
`d` with noise covariance `N`; the noise covariance of `d` is `(Aᵀ N⁻¹ A)⁻¹`, its values are `(Aᵀ N⁻¹ A)⁻¹ Aᵀ N⁻¹ Y`. -/
structure LeastSquares (b d : Batch P) (A : Matrix (Fin b.n) (Fin d.n) ℝ) : Prop where
  functl : ∀ i, b.L i = ∑ j, A i j • d.L j
  noise : b.noiseCov.PosDef
  inj : Function.Injective A.mulVec
  cov : d.noiseCov = (Aᵀ * b.noiseCov⁻¹ * A)⁻¹
  val : (fun j => d.Y j - d.bMean j) = (Aᵀ * b.noiseCov⁻¹ * A)⁻¹ *ᵥ (Aᵀ *ᵥ (b.noiseCov⁻¹ *ᵥ fun i => b.Y i - b.bMean i))

lemma ls_posDef {m k : Type} [Fintype m] [DecidableEq m] [Fintype k] [DecidableEq k] {N : Matrix m m ℝ} (hN : N.PosDef)
    {A : Matrix m k ℝ} (hA : Function.Injective A.mulVec) : (Aᵀ * N⁻¹ * A).PosDef := by
  have := hN.inv.conjTranspose_mul_mul_same hA
  rwa [conjTranspose_eq_transpose_of_trivial] at this

/-- The matrix identity behind the information form. -/
lemma ls_gain {m k : Type} [Fintype m] [DecidableEq m] [Fintype k] [DecidableEq k] {N : Matrix m m ℝ} {A : Matrix m k ℝ} {K : Matrix k k ℝ}
    (hN : IsUnit N.det) (hS : IsUnit (Aᵀ * N⁻¹ * A).det) (hG : IsUnit (A * K * Aᵀ + N).det)
    (hD : IsUnit (K + (Aᵀ * N⁻¹ * A)⁻¹).det) :
    Aᵀ * (A * K * Aᵀ + N)⁻¹ = (K + (Aᵀ * N⁻¹ * A)⁻¹)⁻¹ * ((Aᵀ * N⁻¹ * A)⁻¹ * (Aᵀ * N⁻¹)) := by
  have key : (K + (Aᵀ * N⁻¹ * A)⁻¹) * Aᵀ = (Aᵀ * N⁻¹ * A)⁻¹ * (Aᵀ * N⁻¹) * (A * K * Aᵀ + N) := by
    rw [Matrix.mul_add, Matrix.add_mul]
    congr 1
    · rw [show (Aᵀ * N⁻¹ * A)⁻¹ * (Aᵀ * N⁻¹) * (A * K * Aᵀ) = (Aᵀ * N⁻¹ * A)⁻¹ * (Aᵀ * N⁻¹ * A) * (K * Aᵀ) by
        simp only [Matrix.mul_assoc], nonsing_inv_mul _ hS, Matrix.one_mul]
    · rw [Matrix.mul_assoc _ _ N, Matrix.mul_assoc Aᵀ _ N, nonsing_inv_mul _ hN, Matrix.mul_one]
  have h1 : Aᵀ = (K + (Aᵀ * N⁻¹ * A)⁻¹)⁻¹ * ((Aᵀ * N⁻¹ * A)⁻¹ * (Aᵀ * N⁻¹) * (A * K * Aᵀ + N)) := by
    rw [← key, ← Matrix.mul_assoc, nonsing_inv_mul _ hD, Matrix.one_mul]
  refine (congrArg (· * (A * K * Aᵀ + N)⁻¹) h1).trans ?_
  rw [Matrix.mul_assoc, Matrix.mul_assoc _ (A * K * Aᵀ + N), mul_nonsing_inv _ hG, Matrix.mul_one]

section one
variable {b d : Batch P} {A : Matrix (Fin b.n) (Fin d.n) ℝ} (hP : P.Regular) (h : LeastSquares b d A)
include h

lemma ls_u (L : P.Λ) : (fun i => P.cov L (b.L i)) = A *ᵥ fun j => P.cov L (d.L j) := by
  funext i
  rw [h.functl, ← covBil_apply]
  simp only [map_sum, map_smul, smul_eq_mul, covBil_apply]
  rfl

lemma ls_app (f : P.F) : (fun i => (b.L i).1 f) = A *ᵥ fun j => (d.L j).1 f := by
  funext i
  have : (b.L i).1 f = (∑ j, A i j • d.L j : P.Λ).1 f := by rw [← h.functl]
  rw [this]
  have : ((∑ j, A i j • d.L j : P.Λ)).1 = ∑ j, A i j • (d.L j).1 := by simp
  rw [this, LinearMap.sum_apply]
  rfl

include hP

lemma ls_gram : gram1 b = A * (Matrix.of fun r s => P.cov (d.L r) (d.L s)) * Aᵀ + b.noiseCov := by
  unfold gram1
  congr 1
  ext i i'
  rw [of_apply]
  have h1 : P.cov (b.L i) (b.L i') = _ := congrFun (ls_u h (b.L i)) i'
  rw [h1, Matrix.mul_assoc, Matrix.mul_apply, mulVec, dotProduct]
  have h2 : ∀ j, P.cov (b.L i) (d.L j) = (A *ᵥ fun j' => P.cov (d.L j) (d.L j')) i := by
    intro j
    rw [hP.symm, ← ls_u h (d.L j)]
  simp only [h2, mulVec, dotProduct, Matrix.mul_apply, of_apply, transpose_apply, Finset.mul_sum]
  rw [Finset.sum_comm]
  refine Finset.sum_congr rfl fun j _ => Finset.sum_congr rfl fun j' _ => ?_
  rw [hP.symm (d.L j') (d.L j)]
  ring

lemma ls_gram_b : (gram1 b).PosDef := (h.noise.posSemidef_add (cov_psd hP b.L))

lemma ls_gram_d : (gram1 d).PosDef := by
  refine Matrix.PosDef.posSemidef_add (cov_psd hP d.L) ?_
  rw [h.cov]
  exact (ls_posDef h.noise h.inj).inv

lemma ls_bilin (L : P.Λ) (v : Fin b.n → ℝ) (w : Fin d.n → ℝ)
    (hv : (Aᵀ * b.noiseCov⁻¹ * A)⁻¹ *ᵥ (Aᵀ *ᵥ (b.noiseCov⁻¹ *ᵥ v)) = w) :
    (fun r => P.cov L (b.L r)) ⬝ᵥ ((gram1 b)⁻¹ *ᵥ v) = (fun r => P.cov L (d.L r)) ⬝ᵥ ((gram1 d)⁻¹ *ᵥ w) := by
  have hu : ∀ {n : Type} [Fintype n] [DecidableEq n] {M : Matrix n n ℝ}, M.PosDef → IsUnit M.det :=
    fun hM => (Matrix.isUnit_iff_isUnit_det _).mp hM.isUnit
  have g1 := ls_gram hP h
  have g2 : gram1 d = (Matrix.of fun r s => P.cov (d.L r) (d.L s)) + (Aᵀ * b.noiseCov⁻¹ * A)⁻¹ := by rw [gram1, h.cov]
  have p1 := hu (ls_gram_b hP h)
  have p2 := hu (ls_gram_d hP h)
  rw [g1] at p1
  rw [g2] at p2
  rw [ls_u h, ← vecMul_transpose, ← dotProduct_mulVec, mulVec_mulVec, g1, g2,
    ls_gain (hu h.noise) (hu (ls_posDef h.noise h.inj)) p1 p2, ← hv]
  simp only [mulVec_mulVec, Matrix.mul_assoc]

lemma ls_mean (L : P.Λ) : L.1 (postMeanF [b]) = L.1 (postMeanF [d]) := by
  rw [single_mean, single_mean]
  congr 1
  refine ls_bilin hP h L _ _ ?_
  have e : (fun r => b.Y r - (b.L r).1 P.m - b.bMean r) = (fun i => b.Y i - b.bMean i) - A *ᵥ fun j => (d.L j).1 P.m := by
    rw [← ls_app h]
    funext r
    rw [Pi.sub_apply]
    ring
  have hS := (Matrix.isUnit_iff_isUnit_det _).mp (ls_posDef h.noise h.inj).isUnit
  rw [e, mulVec_sub, mulVec_sub, mulVec_sub, ← h.val, mulVec_mulVec, mulVec_mulVec, mulVec_mulVec, Matrix.mul_assoc _ Aᵀ,
    Matrix.mul_assoc _ (Aᵀ * _) A, nonsing_inv_mul _ hS, one_mulVec]
  funext r
  rw [Pi.sub_apply]
  ring

lemma ls_cov (L L' : P.Λ) : (posterior P [b]).cov L L' = (posterior P [d]).cov L L' := by
  rw [single_cov, single_cov]
  congr 1
  refine ls_bilin hP h L _ _ ?_
  have hS := (Matrix.isUnit_iff_isUnit_det _).mp (ls_posDef h.noise h.inj).isUnit
  rw [ls_u h, mulVec_mulVec, mulVec_mulVec, mulVec_mulVec, Matrix.mul_assoc _ Aᵀ, Matrix.mul_assoc _ (Aᵀ * _) A, nonsing_inv_mul _ hS, one_mulVec]

end one

/-! ## After other measurements -/

section chain
variable {b d : Batch P} {A : Matrix (Fin b.n) (Fin d.n) ℝ} (hP : P.Regular) (h : LeastSquares b d A) {l : List (Batch P)}
  (hl : (jG l).PosDef) (hN : NoisePSD l)
include h

lemma ls_again : LeastSquares (b.again l) (d.again l) A where
  functl := h.functl
  noise := by rw [again_noiseCov]; exact h.noise
  inj := h.inj
  cov := by rw [again_noiseCov, again_noiseCov]; exact h.cov
  val := by rw [again_noiseCov, again_bMean, again_bMean]; exact h.val

include hP hl hN

lemma ls_snoc_b : (jG (l ++ [b])).PosDef := snoc_posDef hP hl (ls_gram_b (posterior_regular hP hl hN) (ls_again h))

lemma ls_snoc_d : (jG (l ++ [d])).PosDef := snoc_posDef hP hl (ls_gram_d (posterior_regular hP hl hN) (ls_again h))

lemma ls_chain_mean (L : P.Λ) : L.1 (posterior P (l ++ [b])).m = L.1 (posterior P (l ++ [d])).m := by
  have e1 := chain_mean hP (ls_snoc_b hP h hl hN) L
  have e2 := chain_mean hP (ls_snoc_d hP h hl hN) L
  show L.1 (postMeanF (l ++ [b])) = L.1 (postMeanF (l ++ [d]))
  rw [← e1, ← e2]
  exact ls_mean (posterior_regular hP hl hN) (ls_again h) L

lemma ls_chain_cov (L L' : P.Λ) : (posterior P (l ++ [b])).cov L L' = (posterior P (l ++ [d])).cov L L' := by
  rw [← chain_cov hP (ls_snoc_b hP h hl hN), ← chain_cov hP (ls_snoc_d hP h hl hN)]
  exact ls_cov (posterior_regular hP hl hN) (ls_again h) L L'

end chain

end LinPDE.GP
