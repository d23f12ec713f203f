import Verif.GP.Robust

/-!
# Robustness of posteriors: properties (C83)

`src/linpde_gp/randprocs/_gaussian_process/_conditional.py:17-421`.
-/

namespace LinPDE.GP
open Matrix LinPDE.Block

variable {X : Type} {P : Prior X}

lemma slope_sq (hP : P.Regular) (l : List ((b : Batch P) × (Fin b.n → ℝ))) (hG : (jG (l.map fun q => q.1)).PosDef) {τ : ℝ} (hτ : 0 < τ)
    (hN : NoiseAtLeast τ (l.map fun q => q.1)) (L : P.Λ) :
    slope l L ^ 2 ≤ (P.cov L L - (posterior P (l.map fun q => q.1)).cov L L) * ((l.map fun q => ∑ i, q.2 i ^ 2).sum / τ) := by
  have hQ := qG_of_posDef (fun q : (b : Batch P) × (Fin b.n → ℝ) => q.1) (fun q => q.1.n) (fun _ => rfl) l hG
  have e1 := map_cov (fun q : (b : Batch P) × (Fin b.n → ℝ) => q.1) (fun q => q.1.n) (fun _ => rfl) l L L
  rw [e1, sub_sub_cancel]
  refine (psd_cs hQ.inv.posSemidef _ _).trans ?_
  refine mul_le_mul_of_nonneg_left ?_ (inv_quad_nonneg hQ _)
  refine (inv_quad_le hQ hτ (sub_ge _ (jG_ge hP hN)) _).trans (le_of_eq ?_)
  rw [← sum_stack (fun q : (b : Batch P) × (Fin b.n → ℝ) => q.1.n) (fun q r => q.2 r ^ 2) l]
  congr 1
  exact Finset.sum_congr rfl fun i _ => (sq _).symm

/-- two histories with the same posterior covariance, whose posterior means differ by a bounded amount -/
lemma robust_aux (e : Env) (he : e.CholOK) (hP : P.Regular) {b b' : Batch P} {l l' bs bs' : List (Batch P)} (hb : b :: l = bs)
    (hb' : b' :: l' = bs') (hG : (jG bs).PosDef) (hG' : (jG bs').PosDef) (B : ℝ)
    (hc : ∀ L : P.Λ, (posterior P bs').cov L L = (posterior P bs).cov L L)
    (hm : ∀ L : P.Λ, (L.1 (posterior P bs').m - L.1 (posterior P bs).m) ^ 2 ≤ (P.cov L L - (posterior P bs).cov L L) * B) :
    ∃ c c', run e b l = .ok c ∧ run e b' l' = .ok c' ∧
      ∀ L : P.Λ, ∃ v, c.functlCov e (fun _ : Fin 1 => L) = .ok !![v] ∧ c'.functlCov e (fun _ : Fin 1 => L) = .ok !![v] ∧
        (c'.functlMean (fun _ : Fin 1 => L) 0 - c.functlMean (fun _ : Fin 1 => L) 0) ^ 2 ≤ (P.cov L L - v) * B := by
  subst hb hb'
  obtain ⟨c, h0, -, -, -⟩ := run_all e he hP b l hG
  obtain ⟨c', k0, -, -, -⟩ := run_all e he hP b' l' hG'
  refine ⟨c, c', h0, k0, fun L => ⟨(posterior P (b :: l)).cov L L, (functl_one e he hP hG h0 L).2, ?_, ?_⟩⟩
  · rw [(functl_one e he hP hG' k0 L).2, hc L]
  · rw [(functl_one e he hP hG h0 L).1, (functl_one e he hP hG' k0 L).1]
    exact hm L

/-- C83: errors `δ` in the observed values, with noise of at least variance `τ` in every direction: the posterior mean of any
functional changes by at most the square root of (prior variance − posterior variance) · ‖δ‖² / τ. -/
theorem values_robust (e : Env) (he : e.CholOK) (hP : P.Regular) (q : (b : Batch P) × (Fin b.n → ℝ)) (l : List ((b : Batch P) × (Fin b.n → ℝ)))
    (hG : (jG ((q :: l).map fun q => q.1)).PosDef) {τ : ℝ} (hτ : 0 < τ) (hN : NoiseAtLeast τ ((q :: l).map fun q => q.1)) :
    ∃ c c', run e q.1 (l.map fun q => q.1) = .ok c ∧ run e (moved 1 q) (l.map (moved 1)) = .ok c' ∧
      ∀ L : P.Λ, ∃ v, c.functlCov e (fun _ : Fin 1 => L) = .ok !![v] ∧ c'.functlCov e (fun _ : Fin 1 => L) = .ok !![v] ∧
        (c'.functlMean (fun _ : Fin 1 => L) 0 - c.functlMean (fun _ : Fin 1 => L) 0) ^ 2 ≤
          (P.cov L L - v) * (((q :: l).map fun q => ∑ i, q.2 i ^ 2).sum / τ) := by
  have h1 : q.1 :: l.map (fun q : (b : Batch P) × (Fin b.n → ℝ) => q.1) = (q :: l).map fun q => q.1 := rfl
  have h2 : moved 1 q :: l.map (moved 1) = (q :: l).map (moved 1) := rfl
  refine robust_aux e he hP h1 h2 hG (moved_posDef 1 (q :: l) hG) _ (fun L => moved_cov 1 (q :: l) L L) fun L => ?_
  refine le_trans (le_of_eq ?_) (slope_sq hP (q :: l) hG hτ hN L)
  rw [moved_mean, add_sub_cancel_left, one_mul]

/-- C83: weights that solve the linear system only up to a residual `ρ` (an iterative solver, rounding) instead of the exact ones:
the same bound with `ρ` in place of the error of the values. -/
theorem weights_robust (e : Env) (he : e.CholOK) (hP : P.Regular) (b : Batch P) (l : List (Batch P)) (hG : (jG (b :: l)).PosDef)
    {τ : ℝ} (hτ : 0 < τ) (hN : NoiseAtLeast τ (b :: l)) (c : Cond P) (hc : run e b l = .ok c) (w : Matrix c.s.Idx Unit ℝ) (L : P.Λ) :
    ∃ v, c.functlCov e (fun _ : Fin 1 => L) = .ok !![v] ∧
      (({ c.toCore with w := w } : Core P).functlMean (fun _ : Fin 1 => L) 0 - c.functlMean (fun _ : Fin 1 => L) 0) ^ 2 ≤
        (P.cov L L - v) * ((∑ i, ((c.gram.toMat * w) i () - (c.Ys i - (c.Ls i).1 P.m - c.bs i)) ^ 2) / τ) := by
  obtain ⟨c', h, ⟨I⟩⟩ := run_inv e he hP b l hG
  obtain rfl : c = c' := by rw [hc] at h; exact Except.ok.inj h
  refine ⟨_, (functl_one e he hP hG hc L).2, ?_⟩
  set G := c.gram.toMat with hGdef
  have hQ : G.PosDef := by rw [hGdef, I.gram]; exact hG.submatrix I.e.injective
  have hge : ∀ a, τ * (a ⬝ᵥ a) ≤ a ⬝ᵥ (G *ᵥ a) := by rw [hGdef, I.gram]; exact sub_ge I.e (jG_ge hP hN)
  set u : c.s.Idx → ℝ := fun j => L.1 (c.kLas j) with hu
  have e0 : (({ c.toCore with w := w } : Core P).functlMean (fun _ : Fin 1 => L) 0 - c.functlMean (fun _ : Fin 1 => L) 0) =
      u ⬝ᵥ fun j => w j () - c.w j () := by
    show (L.1 P.m + ∑ j, L.1 (c.kLas j) * w j ()) - (L.1 P.m + ∑ j, L.1 (c.kLas j) * c.w j ()) = ∑ j, L.1 (c.kLas j) * (w j () - c.w j ())
    rw [add_sub_add_left_eq_sub, ← Finset.sum_sub_distrib]
    exact Finset.sum_congr rfl fun j _ => (mul_sub _ _ _).symm
  set ρ : c.s.Idx → ℝ := fun i => (G * w) i () - (c.Ys i - (c.Ls i).1 P.m - c.bs i) with hρ
  have e1 : (fun j => w j () - c.w j ()) = G⁻¹ *ᵥ ρ := by
    have h1 : G *ᵥ (fun j => w j () - c.w j ()) = ρ := by
      funext i
      have h2 := congrFun (congrFun I.w i) ()
      have h3 : (G * c.w) i () = c.Ys i - (c.Ls i).1 P.m - c.bs i := by rw [I.r]; exact h2
      show ∑ j, G i j * (w j () - c.w j ()) = (G * w) i () - (c.Ys i - (c.Ls i).1 P.m - c.bs i)
      rw [← h3, Matrix.mul_apply, Matrix.mul_apply, ← Finset.sum_sub_distrib]
      exact Finset.sum_congr rfl fun j _ => mul_sub _ _ _
    rw [← h1, pd_solve' hQ]
  have e2 : u ⬝ᵥ (G⁻¹ *ᵥ u) = P.cov L L - (posterior P (b :: l)).cov L L := by
    have h1 : u = uvec (b :: l) L ∘ I.e := by
      funext j
      rw [hu]
      simp only [I.kLas]
      rfl
    rw [posterior_cov', sub_sub_cancel, hGdef, I.gram, h1]
    exact sum_reindex I.e (jG (b :: l)) (uvec (b :: l) L) (uvec (b :: l) L)
  rw [e0, e1]
  refine (psd_cs hQ.inv.posSemidef u ρ).trans ?_
  rw [e2]
  refine mul_le_mul_of_nonneg_left ?_ (by rw [← e2]; exact inv_quad_nonneg hQ u)
  refine (inv_quad_le hQ hτ hge ρ).trans (le_of_eq ?_)
  congr 1
  exact Finset.sum_congr rfl fun i _ => (sq _).symm

/-- C83: vague measurements: with noise of at least variance `τ` in every direction the posterior variance of a functional lies below
the prior variance by at most `Σ cov² / τ`, and the posterior mean is correspondingly close to the prior mean. -/
theorem vague (e : Env) (he : e.CholOK) (hP : P.Regular) (b : Batch P) (l : List (Batch P)) (hG : (jG (b :: l)).PosDef)
    {τ : ℝ} (hτ : 0 < τ) (hN : NoiseAtLeast τ (b :: l)) (c : Cond P) (hc : run e b l = .ok c) (L : P.Λ) :
    ∃ v, c.functlCov e (fun _ : Fin 1 => L) = .ok !![v] ∧
      P.cov L L - v ≤ ((b :: l).map fun d => ∑ i, P.cov L (d.L i) ^ 2).sum / τ ∧
      (c.functlMean (fun _ : Fin 1 => L) 0 - L.1 P.m) ^ 2 ≤
        (P.cov L L - v) * (((b :: l).map fun d => ∑ i, (d.Y i - (d.L i).1 P.m - d.bMean i) ^ 2).sum / τ) := by
  refine ⟨_, (functl_one e he hP hG hc L).2, ?_, ?_⟩
  · rw [posterior_cov', sub_sub_cancel]
    refine (inv_quad_le hG hτ (jG_ge hP hN) _).trans (le_of_eq ?_)
    rw [← sum_stack (fun b : Batch P => b.n) (fun d i => P.cov L (d.L i) ^ 2) (b :: l)]
    congr 1
    exact Finset.sum_congr rfl fun i _ => (sq _).symm
  · have h1 : L.1 (posterior P (b :: l)).m = _ := apply_postMeanF (b :: l) L
    rw [(functl_one e he hP hG hc L).1, h1, add_sub_cancel_left]
    refine (psd_cs hG.inv.posSemidef _ _).trans ?_
    rw [posterior_cov', sub_sub_cancel]
    refine mul_le_mul_of_nonneg_left ?_ (inv_quad_nonneg hG _)
    refine (inv_quad_le hG hτ (jG_ge hP hN) _).trans (le_of_eq ?_)
    rw [← sum_stack (fun b : Batch P => b.n) (fun d i => (d.Y i - (d.L i).1 P.m - d.bMean i) ^ 2) (b :: l)]
    congr 1
    exact Finset.sum_congr rfl fun i _ => (sq _).symm

section jitter
variable {q : (b : Batch P) × Matrix (Fin b.n) (Fin b.n) ℝ} {l : List ((b : Batch P) × Matrix (Fin b.n) (Fin b.n) ℝ)}

lemma noisier_cov (l : List ((b : Batch P) × Matrix (Fin b.n) (Fin b.n) ℝ)) (L L' : P.Λ) :
    (posterior P (l.map noisier)).cov L L' = P.cov L L' -
      (fun i : QIdx (fun q : (b : Batch P) × Matrix (Fin b.n) (Fin b.n) ℝ => q.1.n) l => P.cov L ((l.get i.1).1.L i.2)) ⬝ᵥ
        ((qG (fun q => q.1) (fun q => q.1.n) (fun _ => rfl) l + blk (fun q => q.1.n) (fun q => q.2) l)⁻¹ *ᵥ
          fun i => P.cov L' ((l.get i.1).1.L i.2)) := by
  rw [← noisier_gram]
  exact map_cov noisier (fun q => q.1.n) (fun _ => rfl) l L L'

lemma noisier_mean (l : List ((b : Batch P) × Matrix (Fin b.n) (Fin b.n) ℝ)) (L : P.Λ) :
    L.1 (posterior P (l.map noisier)).m = L.1 P.m +
      (fun i : QIdx (fun q : (b : Batch P) × Matrix (Fin b.n) (Fin b.n) ℝ => q.1.n) l => P.cov L ((l.get i.1).1.L i.2)) ⬝ᵥ
        ((qG (fun q => q.1) (fun q => q.1.n) (fun _ => rfl) l + blk (fun q => q.1.n) (fun q => q.2) l)⁻¹ *ᵥ
          fun i => (l.get i.1).1.Y i.2 - ((l.get i.1).1.L i.2).1 P.m - (l.get i.1).1.bMean i.2) := by
  rw [← noisier_gram]
  exact map_mean noisier (fun q => q.1.n) (fun _ => rfl) l L

/-- C83: additional independent noise never lowers a posterior variance. -/
theorem noise_monotone (e : Env) (he : e.CholOK) (hP : P.Regular) (hG : (jG ((q :: l).map fun q => q.1)).PosDef)
    (hD : ∀ d ∈ q :: l, d.2.PosSemidef) :
    ∃ c c', run e q.1 (l.map fun q => q.1) = .ok c ∧ run e (noisier q) (l.map noisier) = .ok c' ∧
      ∀ L : P.Λ, ∃ v v', c.functlCov e (fun _ : Fin 1 => L) = .ok !![v] ∧ c'.functlCov e (fun _ : Fin 1 => L) = .ok !![v'] ∧ v ≤ v' := by
  have hG' : (jG (q.1 :: l.map fun q => q.1)).PosDef := hG
  obtain ⟨c, h0, -, -, -⟩ := run_all e he hP q.1 (l.map fun q => q.1) hG'
  have hM : (jG (noisier q :: l.map noisier)).PosDef := noisier_posDef hG hD
  obtain ⟨c', k0, -, -, -⟩ := run_all e he hP (noisier q) (l.map noisier) hM
  refine ⟨c, c', h0, k0, fun L => ⟨_, _, (functl_one e he hP hG' h0 L).2, (functl_one e he hP hM k0 L).2, ?_⟩⟩
  have e1 := map_cov (fun q : (b : Batch P) × Matrix (Fin b.n) (Fin b.n) ℝ => q.1) (fun q => q.1.n) (fun _ => rfl) (q :: l) L L
  have e2 := noisier_cov (q :: l) L L
  have hQ := qG_of_posDef (fun q : (b : Batch P) × Matrix (Fin b.n) (Fin b.n) ℝ => q.1) (fun q => q.1.n) (fun _ => rfl) (q :: l) hG
  have h := add_mono hQ (blk_psd (fun q : (b : Batch P) × Matrix (Fin b.n) (Fin b.n) ℝ => q.1.n) (fun q => q.2) (q :: l) hD)
    fun i => P.cov L (((q :: l).get i.1).1.L i.2)
  refine (le_of_eq e1).trans (le_trans ?_ (le_of_eq e2.symm))
  exact sub_le_sub_left h _

lemma solve_sub {ι κ : Type} [Fintype ι] [DecidableEq ι] [Fintype κ] [DecidableEq κ] (f : ι ≃ κ) (G : Matrix κ κ ℝ) (v : κ → ℝ) :
    (G.submatrix f f)⁻¹ *ᵥ (v ∘ f) = (G⁻¹ *ᵥ v) ∘ f := by
  rw [inv_submatrix_equiv, submatrix_mulVec_equiv]
  congr 2
  funext i
  simp

lemma qsolve_sq (l : List ((b : Batch P) × Matrix (Fin b.n) (Fin b.n) ℝ)) (v : Idx (l.map fun q => q.1) → ℝ) :
    ((qG (fun q => q.1) (fun q => q.1.n) (fun _ => rfl) l)⁻¹ *ᵥ fun i => v (mapEquiv (fun q => q.1) (fun q => q.1.n) (fun _ => rfl) l i)) ⬝ᵥ
      ((qG (fun q => q.1) (fun q => q.1.n) (fun _ => rfl) l)⁻¹ *ᵥ fun i => v (mapEquiv (fun q => q.1) (fun q => q.1.n) (fun _ => rfl) l i)) =
    ((jG (l.map fun q => q.1))⁻¹ *ᵥ v) ⬝ᵥ ((jG (l.map fun q => q.1))⁻¹ *ᵥ v) := by
  have h := solve_sub (mapEquiv (fun q : (b : Batch P) × Matrix (Fin b.n) (Fin b.n) ℝ => q.1) (fun q => q.1.n) (fun _ => rfl) l)
    (jG (l.map fun q => q.1)) v
  have h' : ((qG (fun q => q.1) (fun q => q.1.n) (fun _ => rfl) l)⁻¹ *ᵥ
    fun i => v (mapEquiv (fun q => q.1) (fun q => q.1.n) (fun _ => rfl) l i)) = _ := h
  rw [h']
  exact comp_equiv_dotProduct_comp_equiv _ _ _

lemma jitter_cov (l : List ((b : Batch P) × Matrix (Fin b.n) (Fin b.n) ℝ)) (hG : (jG (l.map fun q => q.1)).PosDef) (L : P.Λ) {τ : ℝ}
    (hD : ∀ d ∈ l, d.2.PosSemidef ∧ ∀ a, a ⬝ᵥ (d.2 *ᵥ a) ≤ τ * (a ⬝ᵥ a)) :
    (posterior P (l.map fun q => q.1)).cov L L ≤ (posterior P (l.map noisier)).cov L L ∧
    (posterior P (l.map noisier)).cov L L - (posterior P (l.map fun q => q.1)).cov L L ≤
      τ * (((jG (l.map fun q => q.1))⁻¹ *ᵥ uvec (l.map fun q => q.1) L) ⬝ᵥ ((jG (l.map fun q => q.1))⁻¹ *ᵥ uvec (l.map fun q => q.1) L)) := by
  have e1 := map_cov (fun q : (b : Batch P) × Matrix (Fin b.n) (Fin b.n) ℝ => q.1) (fun q => q.1.n) (fun _ => rfl) l L L
  have hQ := qG_of_posDef (fun q : (b : Batch P) × Matrix (Fin b.n) (Fin b.n) ℝ => q.1) (fun q => q.1.n) (fun _ => rfl) l hG
  have hB := blk_psd (fun q : (b : Batch P) × Matrix (Fin b.n) (Fin b.n) ℝ => q.1.n) (fun q => q.2) l fun d hd => (hD d hd).1
  have hu : (fun i => uvec (l.map fun q => q.1) L (mapEquiv (fun q : (b : Batch P) × Matrix (Fin b.n) (Fin b.n) ℝ => q.1) (fun q => q.1.n)
      (fun _ => rfl) l i)) = fun i => P.cov L ((l.get i.1).1.L i.2) :=
    funext fun i => uvec_map (fun q : (b : Batch P) × Matrix (Fin b.n) (Fin b.n) ℝ => q.1) (fun q => q.1.n) (fun _ => rfl) l L i
  rw [noisier_cov, e1]
  refine ⟨sub_le_sub_left (add_mono hQ hB _) _, ?_⟩
  rw [← qsolve_sq, hu, sub_sub_sub_cancel_left]
  exact (add_close hQ hB _).trans (blk_le _ _ l (fun d hd => (hD d hd).2) _)

lemma jitter_mean (l : List ((b : Batch P) × Matrix (Fin b.n) (Fin b.n) ℝ)) (hG : (jG (l.map fun q => q.1)).PosDef) (L : P.Λ) {τ : ℝ}
    (hD : ∀ d ∈ l, d.2.PosSemidef ∧ ∀ a, a ⬝ᵥ (d.2 *ᵥ a) ≤ τ * (a ⬝ᵥ a)) :
    (L.1 (posterior P (l.map noisier)).m - L.1 (posterior P (l.map fun q => q.1)).m) ^ 2 ≤
      (P.cov L L - (posterior P (l.map noisier)).cov L L) *
        (τ * (((jG (l.map fun q => q.1))⁻¹ *ᵥ jR (l.map fun q => q.1)) ⬝ᵥ ((jG (l.map fun q => q.1))⁻¹ *ᵥ jR (l.map fun q => q.1)))) := by
  have e1 := map_mean (fun q : (b : Batch P) × Matrix (Fin b.n) (Fin b.n) ℝ => q.1) (fun q => q.1.n) (fun _ => rfl) l L
  have hQ := qG_of_posDef (fun q : (b : Batch P) × Matrix (Fin b.n) (Fin b.n) ℝ => q.1) (fun q => q.1.n) (fun _ => rfl) l hG
  have hB := blk_psd (fun q : (b : Batch P) × Matrix (Fin b.n) (Fin b.n) ℝ => q.1.n) (fun q => q.2) l fun d hd => (hD d hd).1
  have hr : (fun i => jR (l.map fun q => q.1) (mapEquiv (fun q : (b : Batch P) × Matrix (Fin b.n) (Fin b.n) ℝ => q.1) (fun q => q.1.n)
      (fun _ => rfl) l i)) = fun i => (l.get i.1).1.Y i.2 - ((l.get i.1).1.L i.2).1 P.m - (l.get i.1).1.bMean i.2 :=
    funext fun i => jR_map (fun q : (b : Batch P) × Matrix (Fin b.n) (Fin b.n) ℝ => q.1) (fun q => q.1.n) (fun _ => rfl) l i
  have e2 := noisier_mean l L
  refine (le_of_eq (congrArg₂ (fun a b : ℝ => (a - b) ^ 2) e2 e1)).trans ?_
  rw [noisier_cov, sub_sub_cancel, ← qsolve_sq, hr, add_sub_add_left_eq_sub]
  refine (add_solve_close hQ hB _ _).trans (mul_le_mul_of_nonneg_left ?_ (inv_quad_nonneg (hQ.add_posSemidef hB) _))
  exact blk_le _ _ l (fun d hd => (hD d hd).2) _

lemma jitter_aux (e : Env) (he : e.CholOK) (hP : P.Regular) {b : Batch P} {bs : List (Batch P)}
    (q : (b : Batch P) × Matrix (Fin b.n) (Fin b.n) ℝ) (l : List ((b : Batch P) × Matrix (Fin b.n) (Fin b.n) ℝ)) {τ : ℝ}
    (hl : ((q :: l).map fun q => q.1) = b :: bs) (hG : (jG (b :: bs)).PosDef) {c : Cond P} (h0 : run e b bs = .ok c) (L : P.Λ)
    (hD : ∀ d ∈ q :: l, d.2.PosSemidef ∧ ∀ a, a ⬝ᵥ (d.2 *ᵥ a) ≤ τ * (a ⬝ᵥ a)) (hτ : 0 ≤ τ) (hN : NoisePSD (b :: bs)) :
    ∃ c' v', run e (noisier q) (l.map noisier) = .ok c' ∧ c'.functlCov e (fun _ : Fin 1 => L) = .ok !![v'] ∧
      (posterior P (b :: bs)).cov L L ≤ v' ∧ v' ≤ (posterior P (b :: bs)).cov L L + (((jG (b :: bs))⁻¹ *ᵥ uvec (b :: bs) L) ⬝ᵥ ((jG (b :: bs))⁻¹ *ᵥ uvec (b :: bs) L) +
    ((jG (b :: bs))⁻¹ *ᵥ jR (b :: bs)) ⬝ᵥ ((jG (b :: bs))⁻¹ *ᵥ jR (b :: bs))) * τ ∧
      (c'.functlMean (fun _ : Fin 1 => L) 0 - c.functlMean (fun _ : Fin 1 => L) 0) ^ 2 ≤ P.cov L L * ((((jG (b :: bs))⁻¹ *ᵥ uvec (b :: bs) L) ⬝ᵥ ((jG (b :: bs))⁻¹ *ᵥ uvec (b :: bs) L) +
    ((jG (b :: bs))⁻¹ *ᵥ jR (b :: bs)) ⬝ᵥ ((jG (b :: bs))⁻¹ *ᵥ jR (b :: bs))) * τ) := by
  obtain ⟨rfl, rfl⟩ := List.cons.inj hl
  have hM : (jG (noisier q :: l.map noisier)).PosDef := noisier_posDef (l := q :: l) hG fun d hd => (hD d hd).1
  obtain ⟨c', k0, -, -, -⟩ := run_all e he hP (noisier q) (l.map noisier) hM
  obtain ⟨a1, a2⟩ := jitter_cov (q :: l) hG L hD
  have a3 := jitter_mean (q :: l) hG L hD
  set U := ((jG ((q :: l).map fun q => q.1))⁻¹ *ᵥ uvec ((q :: l).map fun q => q.1) L) ⬝ᵥ
    ((jG ((q :: l).map fun q => q.1))⁻¹ *ᵥ uvec ((q :: l).map fun q => q.1) L) with hU
  set R := ((jG ((q :: l).map fun q => q.1))⁻¹ *ᵥ jR ((q :: l).map fun q => q.1)) ⬝ᵥ
    ((jG ((q :: l).map fun q => q.1))⁻¹ *ᵥ jR ((q :: l).map fun q => q.1)) with hR
  have hU0 : 0 ≤ U := dot_self_nonneg _
  have hR0 : 0 ≤ R := dot_self_nonneg _
  have m1 := (functl_one e he hP hG h0 L).1
  have m2 := (functl_one e he hP hM k0 L).1
  refine ⟨c', _, k0, (functl_one e he hP hM k0 L).2, a1, ?_, ?_⟩
  · have : (posterior P ((q :: l).map noisier)).cov L L ≤ (posterior P ((q :: l).map fun q => q.1)).cov L L + (U + R) * τ := by nlinarith
    exact this
  · rw [m1, m2]
    have h1 : (L.1 (posterior P ((q :: l).map noisier)).m - L.1 (posterior P ((q :: l).map fun q => q.1)).m) ^ 2 ≤ P.cov L L * ((U + R) * τ) := by
      have h2 : 0 ≤ P.cov L L - (posterior P ((q :: l).map noisier)).cov L L := by
        rw [posterior_cov', sub_sub_cancel]
        exact inv_quad_nonneg hM _
      have h3 : 0 ≤ (posterior P ((q :: l).map noisier)).cov L L := (posterior_nonneg hP hG hN L).trans a1
      refine a3.trans ?_
      have h4 : 0 ≤ τ * R := mul_nonneg hτ hR0
      have h5 : τ * R ≤ (U + R) * τ := by nlinarith
      exact (mul_le_mul_of_nonneg_right (by linarith) h4).trans (mul_le_mul_of_nonneg_left h5 (hP.nonneg L))
    exact h1

/-- C83: jitter: noise of variance at most `τ` added to measurements with positive definite Gram matrix changes posterior variances
by at most a constant times `τ` and posterior means by at most a constant times `√τ`; the constant does not depend on the jitter. -/
theorem jitter (e : Env) (he : e.CholOK) (hP : P.Regular) (b : Batch P) (bs : List (Batch P)) (hG : (jG (b :: bs)).PosDef)
    (hN : NoisePSD (b :: bs)) (L : P.Λ) :
    ∃ (c : Cond P) (v C : ℝ), run e b bs = .ok c ∧ c.functlCov e (fun _ : Fin 1 => L) = .ok !![v] ∧ 0 ≤ C ∧
      ∀ (q : (b : Batch P) × Matrix (Fin b.n) (Fin b.n) ℝ) (l : List ((b : Batch P) × Matrix (Fin b.n) (Fin b.n) ℝ)) (τ : ℝ),
        0 ≤ τ → ((q :: l).map fun q => q.1) = b :: bs → (∀ d ∈ q :: l, d.2.PosSemidef ∧ ∀ a, a ⬝ᵥ (d.2 *ᵥ a) ≤ τ * (a ⬝ᵥ a)) →
        ∃ c' v', run e (noisier q) (l.map noisier) = .ok c' ∧ c'.functlCov e (fun _ : Fin 1 => L) = .ok !![v'] ∧
          v ≤ v' ∧ v' ≤ v + C * τ ∧
          (c'.functlMean (fun _ : Fin 1 => L) 0 - c.functlMean (fun _ : Fin 1 => L) 0) ^ 2 ≤ P.cov L L * (C * τ) := by
  obtain ⟨c, h0, -, -, -⟩ := run_all e he hP b bs hG
  refine ⟨c, (posterior P (b :: bs)).cov L L, ((jG (b :: bs))⁻¹ *ᵥ uvec (b :: bs) L) ⬝ᵥ ((jG (b :: bs))⁻¹ *ᵥ uvec (b :: bs) L) +
    ((jG (b :: bs))⁻¹ *ᵥ jR (b :: bs)) ⬝ᵥ ((jG (b :: bs))⁻¹ *ᵥ jR (b :: bs)), h0, (functl_one e he hP hG h0 L).2,
    add_nonneg (dot_self_nonneg _) (dot_self_nonneg _), fun q l τ hτ hl hD => ?_⟩
  exact jitter_aux e he hP q l hl hG h0 L hD hτ hN

end jitter

/-! ### Examples -/

lemma noisy_posDef : (jG [noisy1 0 3, noisy1 1 5]).PosDef := by
  refine white_posDef _ (fun i => i.1.1) ?_ ?_ (ex_noisePSD _ fun b hb => ?_)
  · rintro ⟨⟨p, hp⟩, r⟩ ⟨⟨q, hq⟩, s⟩ h
    have h' : p = q := h
    subst h'
    refine Idx.ext' rfl ?_
    have hr := r.2
    have hs := s.2
    match p, hp with
    | 0, _ => have h1 : r.1 < 1 := hr; have h2 : s.1 < 1 := hs; show r.1 = s.1; omega
    | 1, _ => have h1 : r.1 < 1 := hr; have h2 : s.1 < 1 := hs; show r.1 = s.1; omega
    | (n + 2), hp => simp at hp
  · rintro ⟨⟨p, hp⟩, r⟩
    match p, hp with
    | 0, _ => rfl
    | 1, _ => rfl
    | (n + 2), hp => simp at hp
  · rcases List.mem_cons.mp hb with rfl | hb
    · exact Or.inr ⟨_, _, rfl⟩
    · rw [List.mem_singleton.mp hb]
      exact Or.inr ⟨_, _, rfl⟩

lemma noisy_atLeast : NoiseAtLeast 1 [noisy1 0 3, noisy1 1 5] := by
  intro b hb v
  rcases List.mem_cons.mp hb with rfl | hb
  · exact le_of_eq ((one_mul _).trans (congrArg (v ⬝ᵥ ·) (Matrix.one_mulVec v)).symm)
  · obtain rfl := List.mem_singleton.mp hb
    exact le_of_eq ((one_mul _).trans (congrArg (v ⬝ᵥ ·) (Matrix.one_mulVec v)).symm)

/-- Two measurements with unit noise whose values are off by 1 and 2: any functional moves by at most √5 prior standard deviations. -/
example (L : (white ℕ).Λ) : ∃ (e : Env) (c c' : Cond (white ℕ)), run e (noisy1 0 3) [noisy1 1 5] = .ok c ∧
    (c'.functlMean (fun _ : Fin 1 => L) 0 - c.functlMean (fun _ : Fin 1 => L) 0) ^ 2 ≤ (white ℕ).cov L L * 5 := by
  obtain ⟨e, he, -⟩ := exists_env false false
  obtain ⟨c, c', h1, -, h3⟩ := values_robust e he (white_regular ℕ) ⟨noisy1 0 3, fun _ => 1⟩ [⟨noisy1 1 5, fun _ => 2⟩] noisy_posDef one_pos noisy_atLeast
  obtain ⟨v, hv, -, hb⟩ := h3 L
  have h1' : run e (noisy1 0 3) [noisy1 1 5] = .ok c := h1
  refine ⟨e, c, c', h1', hb.trans ?_⟩
  have hv0 : 0 ≤ v := by
    have h := (functl_one e he (white_regular ℕ) noisy_posDef h1' L).2
    rw [hv] at h
    have h2 : v = _ := congrFun (congrFun (Except.ok.inj h) 0) 0
    rw [h2]
    refine posterior_nonneg (white_regular ℕ) noisy_posDef (ex_noisePSD _ fun b hb => ?_) L
    rcases List.mem_cons.mp hb with rfl | hb
    · exact Or.inr ⟨_, _, rfl⟩
    · rw [List.mem_singleton.mp hb]
      exact Or.inr ⟨_, _, rfl⟩
  have h5 : (([⟨noisy1 0 3, fun _ => 1⟩, ⟨noisy1 1 5, fun _ => 2⟩] : List ((b : Batch (white ℕ)) × (Fin b.n → ℝ))).map fun q => ∑ i, q.2 i ^ 2).sum / 1
      = (5 : ℝ) := by
    have a1 : (∑ _i : Fin (noisy1 0 3).n, (1 : ℝ) ^ 2) = 1 := by show (∑ _i : Fin 1, (1 : ℝ) ^ 2) = 1; simp
    have a2 : (∑ _i : Fin (noisy1 1 5).n, (2 : ℝ) ^ 2) = 4 := by show (∑ _i : Fin 1, (2 : ℝ) ^ 2) = 4; simp; norm_num
    simp only [List.map_cons, List.map_nil, List.sum_cons, List.sum_nil, a1, a2]
    norm_num
  rw [h5]
  linarith

/-- The all-zero weights: the residual is the data, so the bound is that of `vague`. -/
example (L : (white ℕ).Λ) : ∃ (e : Env) (c : Cond (white ℕ)) (v : ℝ), run e (noisy1 0 3) [noisy1 1 5] = .ok c ∧
    c.functlCov e (fun _ : Fin 1 => L) = .ok !![v] ∧
    (({ c.toCore with w := 0 } : Core (white ℕ)).functlMean (fun _ : Fin 1 => L) 0 - c.functlMean (fun _ : Fin 1 => L) 0) ^ 2 ≤
      ((white ℕ).cov L L - v) * ((∑ i, ((c.gram.toMat * (0 : Matrix c.s.Idx Unit ℝ)) i () - (c.Ys i - (c.Ls i).1 (white ℕ).m - c.bs i)) ^ 2) / 1) := by
  obtain ⟨e, he, -⟩ := exists_env false false
  obtain ⟨c, hc, -⟩ := run_posterior e he (white_regular ℕ) _ _ noisy_posDef
  obtain ⟨v, h1, h2⟩ := weights_robust e he (white_regular ℕ) _ _ noisy_posDef one_pos noisy_atLeast c hc 0 L
  exact ⟨e, c, v, hc, h1, h2⟩

/-- The two noisy measurements decrease the variance of the value at 1 by at most 1. -/
example : ∃ (e : Env) (c : Cond (white ℕ)) (v : ℝ), run e (noisy1 0 3) [noisy1 1 5] = .ok c ∧
    c.functlCov e (fun _ : Fin 1 => (white_regular ℕ).ev 1) = .ok !![v] ∧ (white ℕ).cov ((white_regular ℕ).ev 1) ((white_regular ℕ).ev 1) - v ≤ 1 := by
  obtain ⟨e, he, -⟩ := exists_env false false
  obtain ⟨c, hc, -⟩ := run_posterior e he (white_regular ℕ) _ _ noisy_posDef
  obtain ⟨v, h1, h2, -⟩ := vague e he (white_regular ℕ) _ _ noisy_posDef one_pos noisy_atLeast c hc ((white_regular ℕ).ev 1)
  refine ⟨e, c, v, hc, h1, h2.trans (le_of_eq ?_)⟩
  have a1 : (∑ i : Fin (noisy1 0 3).n, (white ℕ).cov ((white_regular ℕ).ev 1) ((noisy1 0 3).L i) ^ 2) = 0 := by
    show (∑ _i : Fin 1, (white ℕ).cov ((white_regular ℕ).ev 1) ((white_regular ℕ).ev 0) ^ 2) = 0
    rw [cov_ev]; simp [white, ofKernel]
  have a2 : (∑ i : Fin (noisy1 1 5).n, (white ℕ).cov ((white_regular ℕ).ev 1) ((noisy1 1 5).L i) ^ 2) = 1 := by
    show (∑ _i : Fin 1, (white ℕ).cov ((white_regular ℕ).ev 1) ((white_regular ℕ).ev 1) ^ 2) = 1
    rw [cov_ev]; simp [white, ofKernel]
  simp only [List.map_cons, List.map_nil, List.sum_cons, List.sum_nil, a1, a2]
  norm_num

/-- Unit noise added to an exact measurement and to a noisy one. -/
example : ∃ (e : Env) (c c' : Cond (white ℕ)), run e (exact1 0 3) [noisy1 1 5] = .ok c ∧
    run e (noisier ⟨exact1 0 3, 1⟩) [noisier ⟨noisy1 1 5, 1⟩] = .ok c' := by
  obtain ⟨e, he, -⟩ := exists_env false false
  obtain ⟨c, c', h1, h2, -⟩ := noise_monotone (q := ⟨exact1 0 3, 1⟩) (l := [⟨noisy1 1 5, 1⟩]) e he (white_regular ℕ) ex_posDef.1
    (fun d hd => by
      rcases List.mem_cons.mp hd with rfl | hd
      · exact Matrix.PosSemidef.one
      · rw [List.mem_singleton.mp hd]; exact Matrix.PosSemidef.one)
  exact ⟨e, c, c', h1, h2⟩

/-- A jitter of any size `τ` on the two measurements. -/
example (L : (white ℕ).Λ) : ∃ (e : Env) (v C : ℝ), ∀ τ : ℝ, 0 ≤ τ → ∃ c' v', run e (noisier ⟨exact1 0 3, τ • 1⟩) [noisier ⟨noisy1 1 5, τ • 1⟩] = .ok c' ∧
    c'.functlCov e (fun _ : Fin 1 => L) = .ok !![v'] ∧ v ≤ v' ∧ v' ≤ v + C * τ := by
  obtain ⟨e, he, -⟩ := exists_env false false
  obtain ⟨c, v, C, -, -, -, h⟩ := jitter e he (white_regular ℕ) _ _ ex_posDef.1 ex_posDef.2 L
  refine ⟨e, v, C, fun τ hτ => ?_⟩
  have key : ∀ (n : ℕ), ((τ • 1 : Matrix (Fin n) (Fin n) ℝ).PosSemidef ∧
      ∀ a, a ⬝ᵥ ((τ • 1 : Matrix (Fin n) (Fin n) ℝ) *ᵥ a) ≤ τ * (a ⬝ᵥ a)) := fun n =>
    ⟨Matrix.PosSemidef.one.smul hτ, fun a => le_of_eq (by rw [Matrix.smul_mulVec, Matrix.one_mulVec, dotProduct_smul, smul_eq_mul])⟩
  obtain ⟨c', v', h1, h2, h3, h4, -⟩ := h ⟨exact1 0 3, τ • 1⟩ [⟨noisy1 1 5, τ • 1⟩] τ hτ rfl (fun d hd => by
      rcases List.mem_cons.mp hd with rfl | hd
      · exact key _
      · rw [List.mem_singleton.mp hd]; exact key _)
  exact ⟨c', v', h1, h2, h3, h4⟩

end LinPDE.GP
