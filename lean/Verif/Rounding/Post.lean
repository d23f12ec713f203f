import Verif.Rounding.Props
import Verif.GP.RobustProps
import Verif.PosDef.Props
import Mathlib.Algebra.Order.Chebyshev

/-!
# C84: posterior means and covariances in floating point
-/

namespace LinPDE.Rounding
open Finset Matrix LinPDE.GP LinPDE.Block

variable {F : Fmt} {ι : Type} [Fintype ι]

/-- one rounded product per summand, summation in any order, one further addition -/
lemma postMean_num {t : Tree ι} (ht : t.Full) (m : ℝ) (k w : ι → ℝ) :
    |postMean F t m k w - (m + ∑ i, k i * w i)| ≤ ((1 + F.u) ^ (Fintype.card ι + 1) - 1) * (|m| + ∑ i, |k i| * |w i|) := by
  have hpos : 0 < Fintype.card ι := by rw [← ht.length]; exact t.leaves_pos
  obtain ⟨θ, h1, h2⟩ := ht.fl_eq F fun i => F.rd (k i * w i)
  obtain ⟨δ, hδ, e⟩ := rd_fac F (m + t.fl F fun i => F.rd (k i * w i))
  choose η hη eη using fun i => rd_fac F (k i * w i)
  have e1 : postMean F t m k w - (m + ∑ i, k i * w i) = (δ - 1) * m + ∑ i, (δ * θ i * η i - 1) * (k i * w i) := by
    rw [postMean, e, h2]
    simp only [eη, sub_one_mul, sum_sub_distrib, mul_add, mul_sum, mul_assoc]
    ring
  rw [e1, mul_add, mul_sum]
  refine (abs_add_le _ _).trans (add_le_add ?_ ((abs_sum_le_sum_abs _ _).trans (sum_le_sum fun i _ => ?_)))
  · rw [abs_mul]
    exact mul_le_mul_of_nonneg_right (fac_abs (hδ.mono (by omega))) (abs_nonneg _)
  · rw [abs_mul, abs_mul]
    refine mul_le_mul_of_nonneg_right (fac_abs (((hδ.mul (h1 i)).mul (hη i)).mono (by omega))) (by positivity)

lemma postCov_num {t : Tree ι} (ht : t.Full) (m : ℝ) (k w : ι → ℝ) :
    |postCov F t m k w - (m - ∑ i, k i * w i)| ≤ ((1 + F.u) ^ (Fintype.card ι + 1) - 1) * (|m| + ∑ i, |k i| * |w i|) := by
  have hpos : 0 < Fintype.card ι := by rw [← ht.length]; exact t.leaves_pos
  obtain ⟨θ, h1, h2⟩ := ht.fl_eq F fun i => F.rd (k i * w i)
  obtain ⟨δ, hδ, e⟩ := rd_fac F (m - t.fl F fun i => F.rd (k i * w i))
  choose η hη eη using fun i => rd_fac F (k i * w i)
  have e1 : postCov F t m k w - (m - ∑ i, k i * w i) = (δ - 1) * m + -∑ i, (δ * θ i * η i - 1) * (k i * w i) := by
    rw [postCov, e, h2]
    simp only [eη, sub_one_mul, sum_sub_distrib, mul_sub, mul_sum, mul_assoc]
    ring
  rw [e1, mul_add, mul_sum]
  refine (abs_add_le _ _).trans (add_le_add ?_ ?_)
  · rw [abs_mul]
    exact mul_le_mul_of_nonneg_right (fac_abs (hδ.mono (by omega))) (abs_nonneg _)
  · rw [abs_neg]
    refine (abs_sum_le_sum_abs _ _).trans (sum_le_sum fun i _ => ?_)
    rw [abs_mul, abs_mul]
    refine mul_le_mul_of_nonneg_right (fac_abs (((hδ.mul (h1 i)).mul (hη i)).mono (by omega))) (by positivity)

variable {X : Type} {P : Prior X}

/-- approximate instead of exact solutions of the Gram system -/
lemma solve_robust {b : Batch P} {l : List (Batch P)} (hP : P.Regular) (hG : (jG (b :: l)).PosDef) {τ : ℝ} (hτ : 0 < τ) (hN : NoiseAtLeast τ (b :: l))
    {c : Cond P} (I : Inv c (b :: l)) (L : P.Λ) (z rhs : c.s.Idx → ℝ) :
    (∑ j, L.1 (c.kLas j) * z j - ∑ j, L.1 (c.kLas j) * ((c.gram.toMat)⁻¹ *ᵥ rhs) j) ^ 2 ≤
      (P.cov L L - (posterior P (b :: l)).cov L L) * ((∑ i, ((c.gram.toMat *ᵥ z) i - rhs i) ^ 2) / τ) := by
  set G := c.gram.toMat with hGdef
  have hQ : G.PosDef := by rw [hGdef, I.gram]; exact hG.submatrix I.e.injective
  have hge : ∀ a, τ * (a ⬝ᵥ a) ≤ a ⬝ᵥ (G *ᵥ a) := by rw [hGdef, I.gram]; exact sub_ge I.e (jG_ge hP hN)
  set u : c.s.Idx → ℝ := fun j => L.1 (c.kLas j) with hu
  have e2 : u ⬝ᵥ (G⁻¹ *ᵥ u) = P.cov L L - (posterior P (b :: l)).cov L L := by
    have h1 : u = uvec (b :: l) L ∘ I.e := by
      funext j
      rw [hu]
      simp only [I.kLas]
      rfl
    rw [posterior_cov', sub_sub_cancel, hGdef, I.gram, h1]
    exact sum_reindex I.e (jG (b :: l)) (uvec (b :: l) L) (uvec (b :: l) L)
  have e0 : (∑ j, u j * z j - ∑ j, u j * (G⁻¹ *ᵥ rhs) j) = u ⬝ᵥ (G⁻¹ *ᵥ (G *ᵥ z - rhs)) := by
    rw [mulVec_sub, dotProduct_sub, pd_solve' hQ]
    rfl
  have e3 : ∑ i, ((G *ᵥ z) i - rhs i) ^ 2 = (G *ᵥ z - rhs) ⬝ᵥ (G *ᵥ z - rhs) := sum_congr rfl fun i _ => sq _
  rw [e0, e3, ← e2]
  exact (psd_cs hQ.inv.posSemidef u _).trans (mul_le_mul_of_nonneg_left (inv_quad_le hQ hτ hge _) (inv_quad_nonneg hQ u))

/-- C84: the posterior mean computed in floating point, from computed prior means, cross-covariances and representer weights and in any
order of summation: the sum of the errors of rounding, of the prior mean, of the cross-covariances and of the linear solve, the last one
through the residual of the computed weights. -/
theorem posterior_mean_error (F : Fmt) (e : Env) (he : e.CholOK) (hP : P.Regular) (b : Batch P) (l : List (Batch P)) (hG : (jG (b :: l)).PosDef)
    {τ : ℝ} (hτ : 0 < τ) (hN : NoiseAtLeast τ (b :: l)) (c : Cond P) (hc : run e b l = .ok c) {t : Tree c.s.Idx} (ht : t.Full) (x : X)
    (m : ℝ) (k w : c.s.Idx → ℝ) :
    ∃ v, c.covfunc e x x = .ok v ∧
      |postMean F t m k w - c.mean x| ≤
        ((1 + F.u) ^ (Fintype.card c.s.Idx + 1) - 1) * (|m| + ∑ i, |k i| * |w i|) + |m - P.m.1 x| + ∑ j, |k j - (c.kLas j).1 x| * |w j| +
          √((P.k x x - v) * ((∑ i, ((c.gram.toMat *ᵥ w) i - (c.Ys i - (c.Ls i).1 P.m - c.bs i)) ^ 2) / τ)) := by
  obtain ⟨c', h, ⟨I⟩⟩ := run_inv e he hP b l hG
  obtain rfl : c = c' := by rw [hc] at h; exact Except.ok.inj h
  obtain ⟨c', h', -, h2, -⟩ := run_all e he hP b l hG
  obtain rfl : c = c' := by rw [hc] at h'; exact Except.ok.inj h'
  refine ⟨_, h2 x x, ?_⟩
  have hw : ∀ j, c.w j () = ((c.gram.toMat)⁻¹ *ᵥ fun i => c.Ys i - (c.Ls i).1 P.m - c.bs i) j := by
    have hQ : c.gram.toMat.PosDef := by rw [I.gram]; exact hG.submatrix I.e.injective
    have h3 : c.gram.toMat *ᵥ (fun j => c.w j ()) = fun i => c.Ys i - (c.Ls i).1 P.m - c.bs i := by
      funext i
      rw [I.r]
      exact congrFun (congrFun I.w i) ()
    intro j
    rw [← h3, pd_solve' hQ]
  have hs := solve_robust hP hG hτ hN I (hP.ev x) w fun i => c.Ys i - (c.Ls i).1 P.m - c.bs i
  have hs' := Real.abs_le_sqrt hs
  have hk : P.cov (hP.ev x) (hP.ev x) = P.k x x := cov_ev hP x x
  rw [hk] at hs'
  have e1 : postMean F t m k w - c.mean x = (postMean F t m k w - (m + ∑ i, k i * w i)) + (m - P.m.1 x) + ∑ j, (k j - (c.kLas j).1 x) * w j +
      (∑ j, (hP.ev x).1 (c.kLas j) * w j - ∑ j, (hP.ev x).1 (c.kLas j) * ((c.gram.toMat)⁻¹ *ᵥ fun i => c.Ys i - (c.Ls i).1 P.m - c.bs i) j) := by
    have h4 : c.mean x = P.m.1 x + ∑ j, (hP.ev x).1 (c.kLas j) * ((c.gram.toMat)⁻¹ *ᵥ fun i => c.Ys i - (c.Ls i).1 P.m - c.bs i) j := by
      simp only [← hw]
      rfl
    have h5 : ∑ j, (hP.ev x).1 (c.kLas j) * w j = ∑ j, (c.kLas j).1 x * w j := rfl
    rw [h4, h5]
    simp only [sub_mul, sum_sub_distrib]
    ring
  rw [e1]
  refine (abs_add_le _ _).trans (add_le_add ((abs_add_le _ _).trans (add_le_add ((abs_add_le _ _).trans (add_le_add (postMean_num ht m k w) le_rfl)) ?_)) hs')
  exact (abs_sum_le_sum_abs _ _).trans (le_of_eq (sum_congr rfl fun j _ => abs_mul _ _))

/-- C84: the posterior covariance at two points computed in floating point, from computed prior covariances, cross-covariances and a computed
solution `z` of the Gram system, in any order of summation. -/
theorem posterior_cov_error (F : Fmt) (e : Env) (he : e.CholOK) (hP : P.Regular) (b : Batch P) (l : List (Batch P)) (hG : (jG (b :: l)).PosDef)
    {τ : ℝ} (hτ : 0 < τ) (hN : NoiseAtLeast τ (b :: l)) (c : Cond P) (hc : run e b l = .ok c) {t : Tree c.s.Idx} (ht : t.Full) (x y : X)
    (kxy : ℝ) (k z : c.s.Idx → ℝ) :
    ∃ v K, c.covfunc e x x = .ok v ∧ c.covfunc e x y = .ok K ∧
      |postCov F t kxy k z - K| ≤
        ((1 + F.u) ^ (Fintype.card c.s.Idx + 1) - 1) * (|kxy| + ∑ i, |k i| * |z i|) + |kxy - P.k x y| + ∑ j, |k j - (c.kLas j).1 x| * |z j| +
          √((P.k x x - v) * ((∑ i, ((c.gram.toMat *ᵥ z) i - (c.kLas i).1 y) ^ 2) / τ)) := by
  obtain ⟨c', h, ⟨I⟩⟩ := run_inv e he hP b l hG
  obtain rfl : c = c' := by rw [hc] at h; exact Except.ok.inj h
  obtain ⟨c', h', -, h2, -⟩ := run_all e he hP b l hG
  obtain rfl : c = c' := by rw [hc] at h'; exact Except.ok.inj h'
  refine ⟨_, _, h2 x x, h2 x y, ?_⟩
  have hK : (posterior P (b :: l)).cov (hP.ev x) (hP.ev y) =
      P.k x y - ∑ j, (hP.ev x).1 (c.kLas j) * ((c.gram.toMat)⁻¹ *ᵥ fun i => (c.kLas i).1 y) j := by
    have hk : P.cov (hP.ev x) (hP.ev y) = P.k x y := cov_ev hP x y
    rw [posterior_cov', hk, I.gram]
    congr 1
    have h1 : ∀ y, (fun i => (hP.ev y).1 (c.kLas i)) = uvec (b :: l) (hP.ev y) ∘ I.e := by
      intro y
      funext j
      simp only [I.kLas]
      rfl
    have hy : (fun i => (c.kLas i).1 y) = uvec (b :: l) (hP.ev y) ∘ I.e := h1 y
    rw [hy]
    refine (sum_reindex I.e (jG (b :: l)) (uvec (b :: l) (hP.ev x)) (uvec (b :: l) (hP.ev y))).symm.trans ?_
    exact sum_congr rfl fun j _ => congrArg (· * _) (congrFun (h1 x) j).symm
  have hs := solve_robust hP hG hτ hN I (hP.ev x) z fun i => (c.kLas i).1 y
  have hs' := Real.abs_le_sqrt hs
  have hk : P.cov (hP.ev x) (hP.ev x) = P.k x x := cov_ev hP x x
  rw [hk] at hs'
  rw [hK]
  have e1 : postCov F t kxy k z - (P.k x y - ∑ j, (hP.ev x).1 (c.kLas j) * ((c.gram.toMat)⁻¹ *ᵥ fun i => (c.kLas i).1 y) j) =
      (postCov F t kxy k z - (kxy - ∑ i, k i * z i)) + (kxy - P.k x y) + -∑ j, (k j - (c.kLas j).1 x) * z j +
      -(∑ j, (hP.ev x).1 (c.kLas j) * z j - ∑ j, (hP.ev x).1 (c.kLas j) * ((c.gram.toMat)⁻¹ *ᵥ fun i => (c.kLas i).1 y) j) := by
    have h5 : ∑ j, (hP.ev x).1 (c.kLas j) * z j = ∑ j, (c.kLas j).1 x * z j := rfl
    rw [h5]
    simp only [sub_mul, sum_sub_distrib]
    ring
  rw [e1]
  refine (abs_add_le _ _).trans (add_le_add ((abs_add_le _ _).trans (add_le_add ((abs_add_le _ _).trans (add_le_add (postCov_num ht kxy k z) le_rfl)) ?_)) ?_)
  · rw [abs_neg]
    exact (abs_sum_le_sum_abs _ _).trans (le_of_eq (sum_congr rfl fun j _ => abs_mul _ _))
  · rw [abs_neg]
    exact hs'

/-! ## Gram matrices -/

lemma quad_entrywise {n : ℕ} {A : Matrix (Fin n) (Fin n) ℝ} {ε : ℝ} (hA : ∀ i j, |A i j| ≤ ε) (a : Fin n → ℝ) :
    |a ⬝ᵥ (A *ᵥ a)| ≤ n * ε * (a ⬝ᵥ a) := by
  have e1 : a ⬝ᵥ (A *ᵥ a) = ∑ i, ∑ j, a i * (A i j * a j) := sum_congr rfl fun i _ => Finset.mul_sum univ (fun j => A i j * a j) (a i)
  rw [e1]
  refine (abs_sum_le_sum_abs _ _).trans ((sum_le_sum fun i _ => abs_sum_le_sum_abs _ _).trans ?_)
  have h1 : ∀ i j, |a i * (A i j * a j)| ≤ ε * (|a i| * |a j|) := fun i j => by
    rw [abs_mul, abs_mul]
    nlinarith [mul_le_mul_of_nonneg_right (hA i j) (mul_nonneg (abs_nonneg (a i)) (abs_nonneg (a j)))]
  refine (sum_le_sum fun i _ => sum_le_sum fun j _ => h1 i j).trans ?_
  rcases Nat.eq_zero_or_pos n with rfl | hn
  · simp
  have hε : 0 ≤ ε := (abs_nonneg _).trans (hA ⟨0, hn⟩ ⟨0, hn⟩)
  have e2 : ∑ i, ∑ j, ε * (|a i| * |a j|) = ε * (∑ i, |a i|) ^ 2 := by
    rw [sq, sum_mul_sum, mul_sum]
    exact sum_congr rfl fun i _ => (mul_sum _ _ _).symm
  have h2 : (∑ i, |a i|) ^ 2 ≤ n * ∑ i, |a i| ^ 2 := by
    have := sq_sum_le_card_mul_sum_sq (s := (univ : Finset (Fin n))) (f := fun i => |a i|)
    simpa using this
  have e3 : a ⬝ᵥ a = ∑ i, |a i| ^ 2 := sum_congr rfl fun i _ => by rw [sq_abs, sq]
  rw [e2, e3]
  nlinarith [mul_le_mul_of_nonneg_left h2 hε]

/-- C84: the Gram matrix of any covariance function, computed with an absolute error of at most `ε` per entry (including the rounded
addition of the noise), is positive definite as soon as the noise exceeds `n ε`: the Cholesky factorisation exists. -/
theorem gram_posDef {α : Type} {k : α → α → ℝ} (hk : PosDef.PSD k) {n : ℕ} (x : Fin n → α) {τ ε : ℝ} (hτ : n * ε < τ) (G : Matrix (Fin n) (Fin n) ℝ)
    (hG : ∀ i j, G i j = G j i) (h : ∀ i j, |G i j - (k (x i) (x j) + if i = j then τ else 0)| ≤ ε) : G.PosDef := by
  refine Matrix.PosDef.of_dotProduct_mulVec_pos (Matrix.IsHermitian.ext fun i j => by simp [hG i j]) fun {a} ha => ?_
  have e0 : G = (Matrix.of fun i j => k (x i) (x j)) + τ • (1 : Matrix (Fin n) (Fin n) ℝ) +
      Matrix.of fun i j => G i j - (k (x i) (x j) + if i = j then τ else 0) := by
    ext i j
    simp only [Matrix.add_apply, Matrix.of_apply, Matrix.smul_apply, Matrix.one_apply, smul_eq_mul, mul_ite, mul_one, mul_zero]
    ring
  have h1 := (hk.posSemidef x).dotProduct_mulVec_nonneg a
  have h2 := quad_entrywise (A := Matrix.of fun i j => G i j - (k (x i) (x j) + if i = j then τ else 0)) h a
  have h3 : 0 < a ⬝ᵥ a := by
    obtain ⟨i, hi⟩ := Function.ne_iff.mp ha
    exact sum_pos' (fun i _ => mul_self_nonneg _) ⟨i, mem_univ _, mul_self_pos.mpr hi⟩
  rw [star_trivial] at h1 ⊢
  rw [e0, add_mulVec, add_mulVec, dotProduct_add, dotProduct_add, smul_mulVec, one_mulVec, dotProduct_smul, smul_eq_mul]
  rw [abs_le] at h2
  nlinarith [h2.1]

/-- covariance functions of variance one are bounded by one -/
lemma psd_abs_le {α : Type} {k : α → α → ℝ} (hk : PosDef.PSD k) (h1 : ∀ x, k x x = 1) (x y : α) : |k x y| ≤ 1 := by
  have h2 := hk.nonneg 2 ![x, y] ![1, 1]
  have h3 := hk.nonneg 2 ![x, y] ![1, -1]
  simp only [Fin.sum_univ_two, Matrix.cons_val_zero, Matrix.cons_val_one, h1, hk.symm y x] at h2 h3
  rw [abs_le]
  constructor <;> linarith

/-- the rounded addition of the noise to computed values of a covariance function of variance one -/
lemma gram_rd {α : Type} {k : α → α → ℝ} (hk : PosDef.PSD k) (h1 : ∀ x, k x x = 1) (F : Fmt) {kf : α → α → ℝ} (hs : ∀ x y, kf x y = kf y x) {ε : ℝ}
    (hε : ∀ x y, |kf x y - k x y| ≤ ε) {n : ℕ} (x : Fin n → α) {τ : ℝ} (h0 : 0 ≤ τ) (hτ : n * (ε + F.u * (1 + ε + τ)) < τ) :
    (Matrix.of fun i j => F.rd (kf (x i) (x j) + if i = j then τ else 0)).PosDef := by
  refine gram_posDef hk x hτ _ (fun i j => ?_) fun i j => ?_
  · simp only [Matrix.of_apply, hs (x i), eq_comm (a := i)]
  · have h1' := hε (x i) (x j)
    set q := kf (x i) (x j) with hq
    set ν : ℝ := if i = j then τ else 0 with hν
    have hν1 : 0 ≤ ν := by rw [hν]; split_ifs <;> linarith
    have hν2 : ν ≤ τ := by rw [hν]; split_ifs <;> linarith
    have h2 := F.err (q + ν)
    have h3 := psd_abs_le hk h1 (x i) (x j)
    have h4 : |q + ν| ≤ 1 + ε + τ := by
      rw [abs_le] at h1' h3 ⊢
      constructor <;> linarith [h1'.1, h1'.2, h3.1, h3.2]
    have h5 := h2.trans (mul_le_mul_of_nonneg_left h4 F.u_nonneg)
    rw [Matrix.of_apply, abs_le]
    rw [abs_le] at h1' h5
    constructor <;> linarith [h1'.1, h1'.2, h5.1, h5.2]

/-- C84: with unit variance, noise `τ` and the error bound of `expQuad_error`, computed Gram matrices of the squared exponential covariance
are symmetric positive definite for all sets of points. -/
theorem expQuad_gram (F : Fmt) {d a : ℕ} {t : Tree (Fin d)} (ht : t.Full) (l : Fin d → ℝ) {s : Fin d → ℝ} (hs : ∀ i, F.Near a (s i) (ExpQuad.sf l i))
    {n : ℕ} (x : Fin n → Fin d → ℝ) {τ : ℝ} (h0 : 0 ≤ τ) (hτ : n * (F.eqErr d a + F.u * (1 + F.eqErr d a + τ)) < τ) :
    (Matrix.of fun i j => F.rd (expQuad F t s (x i) (x j) + if i = j then τ else 0)).PosDef := by
  refine gram_rd (PosDef.expquad_psd l) (fun x => ?_) F (fun x y => (kernels_symmetric F t s 0 x y).1)
    (fun x y => (expQuad_error (F := F) ht l hs x y).1) x h0 hτ
  have e : (ExpQuad.EK.expquad l).eval x x = Real.exp (-∑ r, (ExpQuad.sf l r * (x r - x r)) ^ 2) := rfl
  simp [e]

/-- C84: the same for the half-integer Matérn kernels and the error bound of `matern_uniform`. -/
theorem matern_gram (F : Fmt) {d a : ℕ} {t : Tree (Fin d)} (ht : t.Full) (m : Matern.Par d) {s : Fin d → ℝ} (hs : ∀ i, F.Near a (s i) (m.s i))
    (hF : (1 + F.u) ^ (d + a + 3) < 2) {n : ℕ} (x : Fin n → Fin d → ℝ) {τ : ℝ} (h0 : 0 ≤ τ)
    (hτ : n * (F.maternErr m.p d a + F.u * (1 + F.maternErr m.p d a + τ)) < τ) :
    (Matrix.of fun i j => F.rd (matern F m.p t s (x i) (x j) + if i = j then τ else 0)).PosDef := by
  refine gram_rd (PosDef.matern_psd m) (fun x => ?_) F (fun x y => (kernels_symmetric F t s m.p x y).2.1)
    (fun x y => matern_uniform ht m hs hF x y) x h0 hτ
  have e : Matern.norm (Matern.sdiff m.s x x) = 0 := by
    rw [Matern.norm, sum_eq_zero, Real.sqrt_zero]
    intro i _
    simp [Matern.sdiff]
  rw [Matern.MK.eval, e, pev_matern, sum_range_succ', Matern.maternCoeff_zero]
  simp

end LinPDE.Rounding
