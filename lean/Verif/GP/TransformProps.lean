import Verif.GP.Compress
import Verif.GP.Props
import Verif.GP.Examples

/-!
# Posteriors of transformed problems: properties (C82)

`src/linpde_gp/randprocs/_gaussian_process/_conditional.py:17-421`.
-/

namespace LinPDE.GP
open Matrix LinPDE.Block

variable {X : Type} {P : Prior X}

/-- What a run returns, in one statement. -/
lemma run_all (e : Env) (he : e.CholOK) (hP : P.Regular) (b : Batch P) (l : List (Batch P)) (hG : (jG (b :: l)).PosDef) :
    ∃ c, run e b l = .ok c ∧ (∀ x, c.mean x = (hP.ev x).1 (posterior P (b :: l)).m) ∧
      (∀ x y, c.covfunc e x y = .ok ((posterior P (b :: l)).cov (hP.ev x) (hP.ev y))) ∧
      ∀ {n : ℕ} (L : Fin n → P.Λ), (∀ i, c.functlMean L i = (L i).1 (posterior P (b :: l)).m) ∧
        c.functlCov e L = .ok (Matrix.of fun i j => (posterior P (b :: l)).cov (L i) (L j)) := by
  obtain ⟨c, h, h1, h2⟩ := run_posterior e he hP b l hG
  refine ⟨c, h, fun x => ?_, fun x y => ?_, fun L => functl_posterior e he hP b l hG c h L⟩
  · rw [h1, (functl_ev hP (b :: l) x x).2]
  · rw [h2, (functl_ev hP (b :: l) x y).1]

/-- C82: in other units and with another origin (`c f + h` instead of `f`), the posterior mean is `c` times the mean plus `h` and the
posterior covariance is `c²` times the covariance. -/
theorem affine_units (e : Env) (he : e.CholOK) (hP : P.Regular) (b : Batch P) (l : List (Batch P)) (hG : (jG (b :: l)).PosDef)
    {s : ℝ} (hs : s ≠ 0) (h : P.F) :
    ∃ c c', run e b l = .ok c ∧ run e (b.affine s h) (l.map (Batch.affine s h)) = .ok c' ∧
      (∀ x, c'.mean x = s * c.mean x + h.1 x) ∧
      (∀ x y, ∃ v, c.covfunc e x y = .ok v ∧ c'.covfunc e x y = .ok (s ^ 2 * v)) ∧
      ∀ {n : ℕ} (L : Fin n → P.Λ), (∀ i, c'.functlMean L i = s * c.functlMean L i + (L i).1 h) ∧
        ∃ V, c.functlCov e L = .ok V ∧ c'.functlCov e L = .ok (s ^ 2 • V) := by
  obtain ⟨c, h0, h1, h2, h3⟩ := run_all e he hP b l hG
  obtain ⟨c', k0, k1, k2, k3⟩ := run_all e he (affine_regular hP s h) (b.affine s h) (l.map (Batch.affine s h)) (affine_posDef hs h hG)
  refine ⟨c, c', h0, k0, fun x => ?_, fun x y => ⟨_, h2 x y, (k2 x y).trans (congrArg _ ?_)⟩,
    fun L => ⟨fun i => ?_, _, (h3 L).2, ((k3 L).2).trans (congrArg _ ?_)⟩⟩
  · rw [k1, h1]
    exact affine_mean hs h hG (hP.ev x)
  · exact affine_post_cov hs h hG (hP.ev x) (hP.ev y)
  · refine ((k3 L).1 i).trans ?_
    rw [(h3 L).1]
    exact affine_mean hs h hG (L i)
  · ext i j
    exact affine_post_cov hs h hG (L i) (L j)

/-! ## Dependence on the values -/

/-- The batch of `q` with the values moved by `t` in the direction given. -/
def moved (t : ℝ) (q : (b : Batch P) × (Fin b.n → ℝ)) : Batch P := ⟨q.1.n, q.1.L, q.1.noise, fun i => q.1.Y i + t * q.2 i⟩

lemma moved_noiseCov (t : ℝ) (q : (b : Batch P) × (Fin b.n → ℝ)) : (moved t q).noiseCov = q.1.noiseCov := by
  obtain ⟨⟨n, L, noise, Y⟩, δ⟩ := q
  cases noise <;> rfl

lemma moved_bMean (t : ℝ) (q : (b : Batch P) × (Fin b.n → ℝ)) : (moved t q).bMean = q.1.bMean := by
  obtain ⟨⟨n, L, noise, Y⟩, δ⟩ := q
  cases noise <;> rfl

lemma moved_gram (t : ℝ) (l : List ((b : Batch P) × (Fin b.n → ℝ))) :
    qG (moved t) (fun q => q.1.n) (fun _ => rfl) l = qG (fun q => q.1) (fun q => q.1.n) (fun _ => rfl) l := by
  ext i j
  refine (qG_apply (moved t) (fun q => q.1.n) (fun _ => rfl) l i j).trans
    (Eq.trans ?_ (qG_apply (fun q => q.1) (fun q => q.1.n) (fun _ => rfl) l i j).symm)
  congr 1
  by_cases hc : i.1 = j.1
  · rw [dif_pos hc, dif_pos hc, moved_noiseCov]
    rfl
  · rw [dif_neg hc, dif_neg hc]

lemma moved_posDef (t : ℝ) (l : List ((b : Batch P) × (Fin b.n → ℝ))) (hG : (jG (l.map fun q => q.1)).PosDef) :
    (jG (l.map (moved t))).PosDef := by
  refine qG_posDef _ (fun q => q.1.n) (fun _ => rfl) l ?_
  rw [moved_gram]
  exact qG_of_posDef _ _ _ l hG

/-- The change of the mean of a functional in direction `δ`. -/
noncomputable def slope (l : List ((b : Batch P) × (Fin b.n → ℝ))) (L : P.Λ) : ℝ :=
  (fun i : QIdx (fun q : (b : Batch P) × (Fin b.n → ℝ) => q.1.n) l => P.cov L ((l.get i.1).1.L i.2)) ⬝ᵥ
    ((qG (fun q => q.1) (fun q => q.1.n) (fun _ => rfl) l)⁻¹ *ᵥ fun i => (l.get i.1).2 i.2)

lemma moved_mean (t : ℝ) (l : List ((b : Batch P) × (Fin b.n → ℝ))) (L : P.Λ) :
    L.1 (posterior P (l.map (moved t))).m = L.1 (posterior P (l.map fun q => q.1)).m + t * slope l L := by
  refine (map_mean (moved t) (fun q => q.1.n) (fun _ => rfl) l L).trans ?_
  have h0 := map_mean (fun q : (b : Batch P) × (Fin b.n → ℝ) => q.1) (fun q => q.1.n) (fun _ => rfl) l L
  rw [h0, moved_gram, slope, add_assoc]
  congr 1
  rw [← smul_eq_mul, ← dotProduct_smul, ← mulVec_smul]
  refine Eq.trans ?_ (dotProduct_add _ _ _)
  rw [← mulVec_add]
  congr 2
  funext i
  have := congrFun (moved_bMean t (l.get i.1)) i.2
  show (l.get i.1).1.Y i.2 + t * (l.get i.1).2 i.2 - ((l.get i.1).1.L i.2).1 P.m - (moved t (l.get i.1)).bMean i.2 = _
  rw [this, Pi.add_apply, Pi.smul_apply, smul_eq_mul]
  show _ = (l.get i.1).1.Y i.2 - ((l.get i.1).1.L i.2).1 P.m - (l.get i.1).1.bMean i.2 + _
  ring

lemma moved_cov (t : ℝ) (l : List ((b : Batch P) × (Fin b.n → ℝ))) (L L' : P.Λ) :
    (posterior P (l.map (moved t))).cov L L' = (posterior P (l.map fun q => q.1)).cov L L' := by
  refine (map_cov (moved t) (fun q => q.1.n) (fun _ => rfl) l L L').trans ?_
  rw [map_cov (fun q : (b : Batch P) × (Fin b.n → ℝ) => q.1) (fun q => q.1.n) (fun _ => rfl) l L L', moved_gram]
  rfl

/-- C82: along a line of observed values `Y + t δ` (all batches at once), every posterior mean is an affine function of `t` and the
posterior covariance does not change. -/
theorem values_affine (e : Env) (he : e.CholOK) (hP : P.Regular) (q : (b : Batch P) × (Fin b.n → ℝ)) (l : List ((b : Batch P) × (Fin b.n → ℝ)))
    (hG : (jG ((q :: l).map fun q => q.1)).PosDef) :
    ∃ c : ℝ → Cond P, (∀ t, run e (moved t q) (l.map (moved t)) = .ok (c t)) ∧ run e q.1 (l.map fun q => q.1) = .ok (c 0) ∧
      (∀ t x, (c t).mean x = (1 - t) * (c 0).mean x + t * (c 1).mean x) ∧
      (∀ t x y, (c t).covfunc e x y = (c 0).covfunc e x y) ∧
      ∀ {n : ℕ} (L : Fin n → P.Λ) t, (∀ i, (c t).functlMean L i = (1 - t) * (c 0).functlMean L i + t * (c 1).functlMean L i) ∧
        (c t).functlCov e L = (c 0).functlCov e L := by
  choose c h0 h1 h2 h3 using fun t : ℝ => run_all e he hP (moved t q) (l.map (moved t)) (moved_posDef t (q :: l) hG)
  have hm : ∀ t (L : P.Λ), L.1 (posterior P (moved t q :: l.map (moved t))).m =
      (1 - t) * L.1 (posterior P (moved 0 q :: l.map (moved 0))).m + t * L.1 (posterior P (moved 1 q :: l.map (moved 1))).m := by
    intro t L
    refine (moved_mean t (q :: l) L).trans (Eq.trans ?_ (congrArg₂ (fun a b => (1 - t) * a + t * b) (moved_mean 0 (q :: l) L)
      (moved_mean 1 (q :: l) L)).symm)
    ring
  have hc : ∀ t (L L' : P.Λ), (posterior P (moved t q :: l.map (moved t))).cov L L' =
      (posterior P (moved 0 q :: l.map (moved 0))).cov L L' := fun t L L' =>
    (moved_cov t (q :: l) L L').trans (moved_cov 0 (q :: l) L L').symm
  have m0 : ∀ q : (b : Batch P) × (Fin b.n → ℝ), moved 0 q = q.1 := fun q => by simp [moved]
  refine ⟨c, h0, ?_, fun t x => ?_, fun t x y => ?_, fun L t => ⟨fun i => ?_, ?_⟩⟩
  · have := h0 0
    rwa [m0, show l.map (moved 0) = l.map fun q => q.1 from List.map_congr_left fun q _ => m0 q] at this
  · rw [h1, h1, h1]
    exact hm t _
  · rw [h2, h2, hc]
  · rw [(h3 t L).1, (h3 0 L).1, (h3 1 L).1]
    exact hm t _
  · rw [(h3 t L).2, (h3 0 L).2]
    congr 1
    ext i j
    exact hc t _ _

/-! ## Symmetries -/

lemma Sym.ev (S : Sym P) (hP : P.Regular) (x : X) : S.onΛ (hP.ev x) = hP.ev (S.σ x) := rfl

lemma Sym.posDef (S : Sym P) {l : List (Batch P)} (hG : (jG l).PosDef) : (jG (l.map S.onBatch)).PosDef := by
  refine qG_posDef _ (fun b => b.n) (fun _ => rfl) l ?_
  rw [S.gram]
  exact hG

/-- C82: if a bijection `σ` of the points leaves the prior unchanged, the measurements moved by `σ` give the posterior moved by `σ`. -/
theorem symmetry_equivariant (e : Env) (he : e.CholOK) (hP : P.Regular) (S : Sym P) (b : Batch P) (l : List (Batch P))
    (hG : (jG (b :: l)).PosDef) :
    ∃ c c', run e b l = .ok c ∧ run e (S.onBatch b) (l.map S.onBatch) = .ok c' ∧ (∀ x, c'.mean (S.σ x) = c.mean x) ∧
      ∀ x y, c'.covfunc e (S.σ x) (S.σ y) = c.covfunc e x y := by
  obtain ⟨c, h0, h1, h2, -⟩ := run_all e he hP b l hG
  obtain ⟨c', k0, k1, k2, -⟩ := run_all e he hP (S.onBatch b) (l.map S.onBatch) (S.posDef hG)
  refine ⟨c, c', h0, k0, fun x => ?_, fun x y => ?_⟩
  · rw [k1, h1, ← S.ev]
    exact S.post_mean (b :: l) _
  · rw [k2, h2, ← S.ev, ← S.ev]
    exact congrArg _ (S.post_cov (b :: l) _ _)

/-- C82: if moreover the measurements are unchanged as a whole — in any order — so are posterior mean and covariance. -/
theorem symmetry_invariant (e : Env) (he : e.CholOK) (hP : P.Regular) (S : Sym P) (b : Batch P) (l : List (Batch P))
    (hG : (jG (b :: l)).PosDef) (hS : ((b :: l).map S.onBatch).Perm (b :: l)) :
    ∃ c, run e b l = .ok c ∧ (∀ x, c.mean (S.σ x) = c.mean x) ∧ ∀ x y, c.covfunc e (S.σ x) (S.σ y) = c.covfunc e x y := by
  obtain ⟨c, c', h0, h1, h2, h3⟩ := symmetry_equivariant e he hP S b l hG
  obtain ⟨d', d, k0, k1, k2, k3⟩ := run_perm e he hP (S.onBatch b) b (l.map S.onBatch) l hS (S.posDef hG)
  obtain rfl : d' = c' := Except.ok.inj (k0.symm.trans h1)
  obtain rfl : d = c := Except.ok.inj (k1.symm.trans h0)
  exact ⟨d, h0, fun x => (k2 _).symm.trans (h2 x), fun x y => (k3 _ _).symm.trans (h3 x y)⟩

/-! ## Least squares -/

/-- C82: noisy measurements of linear combinations `A v` of functionals give the same posterior as one measurement of `v` by
generalised least squares, wherever they stand among the other measurements. -/
theorem least_squares (e : Env) (he : e.CholOK) (hP : P.Regular) {b d : Batch P} {A : Matrix (Fin b.n) (Fin d.n) ℝ}
    (h : LeastSquares b d A) {l : List (Batch P)} (hl : (jG l).PosDef) (hN : NoisePSD l) {b₁ b₂ : Batch P} {l₁ l₂ : List (Batch P)}
    (p₁ : (b₁ :: l₁).Perm (l ++ [b])) (p₂ : (b₂ :: l₂).Perm (l ++ [d])) :
    ∃ c₁ c₂, run e b₁ l₁ = .ok c₁ ∧ run e b₂ l₂ = .ok c₂ ∧ (∀ x, c₁.mean x = c₂.mean x) ∧
      ∀ x y, c₁.covfunc e x y = c₂.covfunc e x y := by
  obtain ⟨a1, a2, a3⟩ := post_perm p₁.symm
  obtain ⟨a1', a2', a3'⟩ := post_perm p₂.symm
  obtain ⟨c₁, h0, h1, h2⟩ := run_posterior e he hP b₁ l₁ (a3 (ls_snoc_b hP h hl hN))
  obtain ⟨c₂, k0, k1, k2⟩ := run_posterior e he hP b₂ l₂ (a3' (ls_snoc_d hP h hl hN))
  refine ⟨c₁, c₂, h0, k0, fun x => ?_, fun x y => ?_⟩
  · rw [h1, k1, ← a1, ← a1', ← (functl_ev hP _ x x).2, ← (functl_ev hP _ x x).2]
    exact ls_chain_mean hP h hl hN _
  · rw [h2, k2, ← a2, ← a2', ← (functl_ev hP _ x y).1, ← (functl_ev hP _ x y).1]
    exact congrArg _ (ls_chain_cov hP h hl hN _ _)

/-- `n + 1` measurements of the same functional, with independent noise of variance `v`. -/
noncomputable def repeated (M : P.Λ) {n : ℕ} (v : ℝ) (y : Fin (n + 1) → ℝ) : Batch P := ⟨n + 1, fun _ => M, some (0, v • 1), y⟩

/-- One measurement of the average. -/
noncomputable def averaged (M : P.Λ) {n : ℕ} (v : ℝ) (y : Fin (n + 1) → ℝ) : Batch P :=
  ⟨1, fun _ => M, some (0, (v / (n + 1)) • 1), fun _ => (∑ i, y i) / (n + 1)⟩

/-- A column of ones. -/
def ones (n : ℕ) : Matrix (Fin (n + 1)) (Fin 1) ℝ := Matrix.of fun _ _ => 1

lemma smul_one_inv {k : Type} [Fintype k] [DecidableEq k] {v : ℝ} (hv : v ≠ 0) : ((v • 1 : Matrix k k ℝ))⁻¹ = v⁻¹ • 1 := by
  apply Matrix.inv_eq_right_inv
  rw [Matrix.smul_mul, Matrix.one_mul, smul_smul, mul_inv_cancel₀ hv, one_smul]

lemma ones_gram {n : ℕ} {v : ℝ} (hv : v ≠ 0) : ((ones n)ᵀ * (v • 1 : Matrix (Fin (n + 1)) (Fin (n + 1)) ℝ)⁻¹ * ones n)⁻¹ =
    (v / (n + 1)) • 1 := by
  have hn : (n + 1 : ℝ) ≠ 0 := by positivity
  have e4 : ((ones n)ᵀ * (v • 1 : Matrix (Fin (n + 1)) (Fin (n + 1)) ℝ)⁻¹ * ones n) = (((n + 1 : ℝ) / v) • 1 : Matrix (Fin 1) (Fin 1) ℝ) := by
    rw [smul_one_inv hv]
    ext i j
    rw [Matrix.mul_smul, Matrix.mul_one, Matrix.smul_mul, Matrix.smul_apply, Matrix.smul_apply, Subsingleton.elim i j, Matrix.one_apply_eq,
      Matrix.mul_apply]
    simp [ones]
    field_simp
  rw [e4, smul_one_inv (div_ne_zero hn hv), inv_div]

lemma repeated_ls (M : P.Λ) {n : ℕ} {v : ℝ} (hv : 0 < v) (y : Fin (n + 1) → ℝ) :
    LeastSquares (repeated M v y) (averaged M v y) (ones n) where
  functl i := by
    show M = ∑ j : Fin 1, (1 : ℝ) • M
    simp
  noise := Matrix.PosDef.one.smul hv
  inj := by
    intro a a' h
    have h2 : ∀ a : Fin 1 → ℝ, (ones n *ᵥ a) 0 = a 0 := fun a => by simp [mulVec, dotProduct, ones]
    have h3 : ∀ a a' : Fin 1 → ℝ, ones n *ᵥ a = ones n *ᵥ a' → a = a' := fun a a' h => funext fun j => by
      rw [Subsingleton.elim j 0, ← h2 a, ← h2 a', h]
    exact h3 a a' h
  cov := (ones_gram hv.ne').symm
  val := by
    have key : (fun _ : Fin 1 => (∑ i, y i) / (n + 1) - (0 : ℝ)) = ((ones n)ᵀ * (v • 1 : Matrix (Fin (n + 1)) (Fin (n + 1)) ℝ)⁻¹ * ones n)⁻¹ *ᵥ
        ((ones n)ᵀ *ᵥ ((v • 1 : Matrix (Fin (n + 1)) (Fin (n + 1)) ℝ)⁻¹ *ᵥ fun i => y i - (0 : ℝ))) := by
      rw [ones_gram hv.ne', smul_one_inv hv.ne', Matrix.smul_mulVec, Matrix.one_mulVec, Matrix.smul_mulVec, Matrix.one_mulVec, mulVec_smul]
      funext j
      simp only [sub_zero, Pi.smul_apply, smul_eq_mul, mulVec, dotProduct, ones, transpose_apply, of_apply, one_mul]
      field_simp
    exact key

/-- C82: repeating a measurement `n + 1` times with independent noise of variance `v` is the same as measuring the average once with
variance `v / (n + 1)`. -/
theorem repeated_average (e : Env) (he : e.CholOK) (hP : P.Regular) (M : P.Λ) {n : ℕ} {v : ℝ} (hv : 0 < v) (y : Fin (n + 1) → ℝ)
    {l : List (Batch P)} (hl : (jG l).PosDef) (hN : NoisePSD l) {b₁ b₂ : Batch P} {l₁ l₂ : List (Batch P)}
    (p₁ : (b₁ :: l₁).Perm (l ++ [repeated M v y])) (p₂ : (b₂ :: l₂).Perm (l ++ [averaged M v y])) :
    ∃ c₁ c₂, run e b₁ l₁ = .ok c₁ ∧ run e b₂ l₂ = .ok c₂ ∧ (∀ x, c₁.mean x = c₂.mean x) ∧
      ∀ x y, c₁.covfunc e x y = c₂.covfunc e x y :=
  least_squares e he hP (repeated_ls M hv y) hl hN p₁ p₂

/-! ## The theorems apply -/

lemma exact_prefix : (jG [exact1 0 3]).PosDef ∧ NoisePSD [exact1 0 3] :=
  ⟨jG_prefix' (white_regular ℕ) [exact1 0 3] [noisy1 1 5] ex_posDef.1, fun b hb => ex_posDef.2 b (List.mem_append_left [noisy1 1 5] hb)⟩

/-- The function `n ↦ n`. -/
def idF : (white ℕ).F := ⟨fun n => (n : ℝ), trivial⟩

/-- Doubled units and a new origin `h n = n`: at the measured point 0 the mean 3 becomes 6. -/
example : ∃ (e : Env) (c' : Cond ((white ℕ).affine 2 idF)),
    run e ((exact1 0 3).affine 2 idF) ([noisy1 1 5].map (Batch.affine 2 idF)) = .ok c' ∧
      c'.mean 0 = 6 := by
  obtain ⟨e, he, -⟩ := exists_env false false
  obtain ⟨c, c', h1, h2, h3, -⟩ := affine_units e he (white_regular ℕ) (exact1 0 3) [noisy1 1 5] ex_posDef.1 (s := 2) two_ne_zero
    idF
  refine ⟨e, c', h2, ?_⟩
  have h4 : c.mean 0 = 3 := by
    have := (exact_reproduced e he (white_regular ℕ) _ _ ex_posDef.1 c h1 (exact1 0 3) List.mem_cons_self rfl).1 (0 : Fin 1)
    obtain ⟨c'', k1, k2, -, k4⟩ := run_all e he (white_regular ℕ) (exact1 0 3) [noisy1 1 5] ex_posDef.1
    obtain rfl : c'' = c := Except.ok.inj (k1.symm.trans h1)
    rw [k2]
    exact ((k4 _).1 (0 : Fin 1)).symm.trans this
  rw [h3, h4]
  show (2 : ℝ) * 3 + ((0 : ℕ) : ℝ) = 6
  norm_num

/-- Two measurements and a change of both values. -/
example : (jG (([⟨exact1 0 3, fun _ => 1⟩, ⟨noisy1 1 5, fun _ => -2⟩] : List ((b : Batch (white ℕ)) × (Fin b.n → ℝ))).map fun q => q.1)).PosDef :=
  ex_posDef.1

lemma swap_span (A : (⊤ : Submodule ℝ (ℕ → ℝ)) →ₗ[ℝ] (⊤ : Submodule ℝ (ℕ → ℝ))) (hA : ∀ x, ∃ y, evTop x ∘ₗ A = evTop y)
    {L : (⊤ : Submodule ℝ (ℕ → ℝ)) →ₗ[ℝ] ℝ} (hL : L ∈ Submodule.span ℝ (Set.range (evTop (X := ℕ)))) :
    L ∘ₗ A ∈ Submodule.span ℝ (Set.range (evTop (X := ℕ))) := by
  refine Submodule.span_induction (p := fun L _ => L ∘ₗ A ∈ Submodule.span ℝ (Set.range (evTop (X := ℕ)))) ?_ ?_ ?_ ?_ hL
  · rintro _ ⟨x, rfl⟩
    obtain ⟨y, hy⟩ := hA x
    rw [hy]
    exact Submodule.subset_span ⟨y, rfl⟩
  · rw [LinearMap.zero_comp]
    exact Submodule.zero_mem _
  · intro a b _ _ ha hb
    rw [LinearMap.add_comp]
    exact Submodule.add_mem _ ha hb
  · intro r a _ ha
    rw [LinearMap.smul_comp]
    exact Submodule.smul_mem _ r ha

/-- Exchanging two points is a symmetry of the white process. -/
def swapSym : Sym (white ℕ) where
  σ := Equiv.swap 0 1
  mem _ := trivial
  mean _ := rfl
  cov x y := by simp [white, ofKernel]
  functl L := swap_span _ (fun x => ⟨Equiv.swap 0 1 x, rfl⟩) L.2

lemma swap_posDef : (jG [exact1 0 3, exact1 1 3]).PosDef := by
  refine white_posDef _ (fun i => i.1.1) ?_ ?_ (ex_noisePSD _ fun b hb => ?_)
  · rintro ⟨⟨p, hp⟩, r⟩ ⟨⟨q, hq⟩, s⟩ h
    have h' : p = q := h
    subst h'
    refine Idx.ext' rfl ?_
    have hr := r.2
    have hs := s.2
    match p, hp with
    | 0, _ => have h1 : r.1 < 1 := hr; have h2 : s.1 < 1 := hs; show r.1 = s.1; omega
    | 1, _ => have h1 : r.1 < 1 := hr; have h2 : s.1 < 1 := hs; show r.1 = s.1; omega
    | (n + 2), hp => simp at hp
  · rintro ⟨⟨p, hp⟩, r⟩
    match p, hp with
    | 0, _ => rfl
    | 1, _ => rfl
    | (n + 2), hp => simp at hp
  · rcases List.mem_cons.mp hb with rfl | hb
    · exact Or.inl ⟨_, _, rfl⟩
    · rw [List.mem_singleton.mp hb]
      exact Or.inl ⟨_, _, rfl⟩

lemma swap_perm : ([exact1 0 3, exact1 1 3].map swapSym.onBatch).Perm [exact1 0 3, exact1 1 3] := by
  have h0 : swapSym.onBatch (exact1 0 3) = exact1 1 3 := by
    have : swapSym.onΛ ((white_regular ℕ).ev 0) = (white_regular ℕ).ev 1 := rfl
    simp only [Sym.onBatch, exact1, this]
  have h1 : swapSym.onBatch (exact1 1 3) = exact1 0 3 := by
    have : swapSym.onΛ ((white_regular ℕ).ev 1) = (white_regular ℕ).ev 0 := by
      rw [swapSym.ev]
      rfl
    simp only [Sym.onBatch, exact1, this]
  rw [List.map_cons, List.map_cons, List.map_nil, h0, h1]
  exact List.Perm.swap _ _ _

/-- Two exact measurements of equal value at the exchanged points. -/
example : ∃ (e : Env) (c : Cond (white ℕ)), run e (exact1 0 3) [exact1 1 3] = .ok c ∧ c.mean 1 = c.mean 0 := by
  obtain ⟨e, he, -⟩ := exists_env false false
  obtain ⟨c, h1, h2, -⟩ := symmetry_invariant e he (white_regular ℕ) swapSym _ _ swap_posDef swap_perm
  exact ⟨e, c, h1, h2 0⟩

/-- Three measurements of the value at 1 after an exact one at 0. -/
example : ∃ (e : Env) (c₁ c₂ : Cond (white ℕ)), run e (exact1 0 3) [repeated ((white_regular ℕ).ev 1) 6 ![1, 2, 6]] = .ok c₁ ∧
    run e ⟨1, fun _ => (white_regular ℕ).ev 1, some (0, (6 / ((2 : ℕ) + 1) : ℝ) • 1), fun _ => (∑ i, ![1, 2, 6] i) / ((2 : ℕ) + 1)⟩
      [exact1 0 3] = .ok c₂ ∧ ∀ x, c₁.mean x = c₂.mean x := by
  obtain ⟨e, he, -⟩ := exists_env false false
  obtain ⟨c₁, c₂, h1, h2, h3, -⟩ := repeated_average e he (white_regular ℕ) ((white_regular ℕ).ev 1) (v := 6) (by norm_num) ![1, 2, 6]
    exact_prefix.1 exact_prefix.2 (List.Perm.refl _) (List.Perm.swap _ _ _)
  exact ⟨e, c₁, c₂, h1, h2, h3⟩

end LinPDE.GP
