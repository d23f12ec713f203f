import Verif.GP.Examples

/-!
# Properties of Gaussian-process conditioning (C01–C06)

`run e b l` is the model of `prior.condition_on_observations(b).condition_on_observations(l₀)…`;
`postMean`/`postCov` are the textbook posterior for the stacked observations.  `e : Env` collects the
external numerical routines (`Env.CholOK`: the dense Cholesky factorisation is correct).
-/

namespace LinPDE.GP
open Matrix LinPDE.Block

variable {X : Type} {P : Prior X}

/-! ## C01 incremental conditioning = joint conditioning -/

/-- C01: for every history with positive definite joint Gram matrix, incremental conditioning succeeds
and produces the posterior mean and covariance functions of the stacked observations. -/
theorem run_posterior (e : Env) (he : e.CholOK) (hP : P.Regular) (b : Batch P) (l : List (Batch P))
    (hG : (jG (b :: l)).PosDef) :
    ∃ c, run e b l = .ok c ∧ (∀ x, c.mean x = postMean (b :: l) x) ∧
      ∀ x y, c.covfunc e x y = .ok (postCov (b :: l) x y) := by
  obtain ⟨c, h, ⟨I⟩⟩ := run_inv e he hP b l hG
  exact ⟨c, h, I.mean, I.covfunc e he⟩

/-- C01: conditioning batch by batch equals one call with all observations stacked into one batch with
block-diagonal noise covariance. -/
theorem incremental_eq_batch (e : Env) (he : e.CholOK) (hP : P.Regular) (b : Batch P) (l : List (Batch P))
    (hG : (jG (b :: l)).PosDef) :
    ∃ c c', run e b l = .ok c ∧ run e (merge (b :: l)) [] = .ok c' ∧ (∀ x, c.mean x = c'.mean x) ∧
      ∀ x y, c.covfunc e x y = c'.covfunc e x y := by
  obtain ⟨c, h, h1, h2⟩ := run_posterior e he hP b l hG
  obtain ⟨m1, m2, m3⟩ := post_merge (b :: l)
  obtain ⟨c', h', h1', h2'⟩ := run_posterior e he hP (merge (b :: l)) [] (m3 hG)
  refine ⟨c, c', h, h', fun x => ?_, fun x y => ?_⟩
  · rw [h1, h1', m1]
  · rw [h2, h2', m2]

/-- C01: the posterior the code computes is the best linear predictor: no other linear combination of
the (noisy) measurements has a smaller mean squared prediction error for any functional of the
process, and the reported posterior variance is that minimal error. -/
theorem posterior_optimal (l : List (Batch P)) (hG : (jG l).PosDef) (L : P.Λ) :
    (∀ a : Idx l → ℝ, (posterior P l).cov L L ≤
      P.cov L L - 2 * ∑ i, a i * L.1 (P.cross (jL l i)) + ∑ i, a i * ∑ j, jG l i j * a j) ∧
    ∃ a : Idx l → ℝ, (posterior P l).cov L L =
      P.cov L L - 2 * ∑ i, a i * L.1 (P.cross (jL l i)) + ∑ i, a i * ∑ j, jG l i j * a j ∧
      L.1 (posterior P l).m = L.1 P.m + ∑ i, a i * jR l i := by
  refine ⟨fun a => risk_ge hG L a, _, (risk_opt hG L).symm, ?_⟩
  have h1 : L.1 (posterior P l).m = L.1 P.m + uvec l L ⬝ᵥ ((jG l)⁻¹ *ᵥ jR l) := by
    show L.1 (postMeanF l) = _
    simp only [postMeanF, map_add, map_sum, map_smul, smul_eq_mul, dotProduct, uvec]
    congr 1
    exact Finset.sum_congr rfl fun i _ => mul_comm _ _
  rw [h1, dot_symm _ (by rw [Matrix.transpose_nonsing_inv, jG_symm hG]), dotProduct_comm]
  rfl

example : ∃ (e : Env) (b : Batch (white ℕ)) (l : List (Batch (white ℕ))), e.CholOK ∧ (white ℕ).Regular ∧
    l ≠ [] ∧ (jG (b :: l)).PosDef :=
  let ⟨e, he, _⟩ := exists_env false false
  ⟨e, exact1 0 3, [noisy1 1 5], he, white_regular ℕ, by simp, ex_posDef.1⟩

/-! ## C02 order independence -/

/-- C02: reordering the batches changes neither the posterior mean nor the posterior covariance. -/
theorem run_perm (e : Env) (he : e.CholOK) (hP : P.Regular) (b b' : Batch P) (l l' : List (Batch P))
    (hperm : (b :: l).Perm (b' :: l')) (hG : (jG (b :: l)).PosDef) :
    ∃ c c', run e b l = .ok c ∧ run e b' l' = .ok c' ∧ (∀ x, c.mean x = c'.mean x) ∧
      ∀ x y, c.covfunc e x y = c'.covfunc e x y := by
  obtain ⟨p1, p2, p3⟩ := post_perm hperm
  obtain ⟨c, h, h1, h2⟩ := run_posterior e he hP b l hG
  obtain ⟨c', h', h1', h2'⟩ := run_posterior e he hP b' l' (p3 hG)
  refine ⟨c, c', h, h', fun x => ?_, fun x y => ?_⟩
  · rw [h1, h1', p1]
  · rw [h2, h2', p2]

example : ∃ (b b' : Batch (white ℕ)) (l l' : List (Batch (white ℕ))), (b :: l).Perm (b' :: l') ∧ b ≠ b' ∧
    (jG (b :: l)).PosDef :=
  ⟨exact1 0 3, noisy1 1 5, [noisy1 1 5], [exact1 0 3], List.Perm.swap _ _ _, fun h => by
    have := congrArg (fun b => b.noise.isNone) h
    simp [exact1, noisy1] at this, ex_posDef.1⟩

/-! ## C05 functionals and operators -/

/-- C05: a functional applied to the conditioned process has the mean and covariance of that functional
under the posterior process. -/
theorem functl_posterior (e : Env) (he : e.CholOK) (hP : P.Regular) (b : Batch P) (l : List (Batch P))
    (hG : (jG (b :: l)).PosDef) (c : Cond P) (hc : run e b l = .ok c) {n : ℕ} (L : Fin n → P.Λ) :
    (∀ i, c.functlMean L i = (L i).1 (posterior P (b :: l)).m) ∧
      c.functlCov e L = .ok (Matrix.of fun i j => (posterior P (b :: l)).cov (L i) (L j)) := by
  obtain ⟨c', h, ⟨I⟩⟩ := run_inv e he hP b l hG
  obtain rfl : c = c' := by rw [hc] at h; exact Except.ok.inj h
  constructor
  · intro i
    show (L i).1 P.m + ∑ j, (L i).1 (c.kLas j) * c.w j () = (L i).1 (postMeanF (b :: l))
    simp only [postMeanF, map_add, map_sum, map_smul, smul_eq_mul]
    congr 1
    refine Eq.trans ?_ (Finset.sum_congr rfl fun i' _ => mul_comm _ _)
    rw [← sum_reindex I.e (jG (b :: l)) (fun i' => (L i).1 (P.cross (jL (b :: l) i'))) (jR (b :: l))]
    refine Finset.sum_congr rfl fun j _ => ?_
    rw [I.w_eq, I.kLas]
  · unfold Core.functlCov
    dsimp only
    rw [solve_eq_inv e he c.gram I.spd.valid] 
    show Except.ok _ = Except.ok _
    congr 1
    funext i j
    refine Eq.trans ?_ (I.functlCov (L i) (L j))
    rfl

/-- C05: evaluating the posterior covariance function is the special case of point evaluations. -/
theorem functl_ev (hP : P.Regular) (l : List (Batch P)) (x y : X) :
    (posterior P l).cov (hP.ev x) (hP.ev y) = postCov l x y ∧ (hP.ev x).1 (posterior P l).m = postMean l x :=
  ⟨posterior_ev hP l x y, postMeanF_apply l x⟩

/-- C05: an operator applied to the conditioned process yields mean `D (posterior mean)` and covariance
`D` applied to both arguments of the posterior covariance. -/
theorem map_posterior (e : Env) (he : e.CholOK) (hP : P.Regular) (b : Batch P) (l : List (Batch P))
    (hG : (jG (b :: l)).PosDef) (c : Cond P) (hc : run e b l = .ok c) {X' : Type} (D : FuncOp P X') :
    (∀ x', (c.toCore.map hP.symm D).mean x' = (D.D (posterior P (b :: l)).m).1 x') ∧
    ∀ x' y', (c.toCore.map hP.symm D).covfunc e x' y' =
      .ok (((posterior P (b :: l)).map (posterior_symm hP hG) (X' := X') ⟨D.F', D.D, D.ev_mem⟩).k x' y') := by
  obtain ⟨c', h, ⟨I⟩⟩ := run_inv e he hP b l hG
  obtain rfl : c = c' := by rw [hc] at h; exact Except.ok.inj h
  refine ⟨fun x' => ?_, fun x' y' => ?_⟩
  · exact (functl_posterior e he hP b l hG c hc (n := 1) fun _ => D.ev x').1 0
  · unfold Core.covfunc
    have hv : (c.toCore.map hP.symm D).gram.Valid := I.spd.valid
    rw [solve_eq_inv e he _ hv]
    exact congrArg Except.ok (I.functlCov (D.ev x') (D.ev y'))

/-- C05: conditioning after applying an operator is the same as conditioning on the composed
functionals before. -/
theorem condition_map (e : Env) (hs : ∀ L L' : P.Λ, P.cov L L' = P.cov L' L) (c : Core P) {X' : Type}
    (D : FuncOp P X') (b : Batch (P.map hs D)) :
    (c.map hs D).condition e b = (c.condition e (b.pull hs D)).map fun c' => c'.map hs D := by
  unfold Core.condition
  have hg := gramOp_pull hs D b
  have hm := predMean_pull hs D b
  dsimp only
  rw [hg, hm]
  refine bind2_map _ _ _ (fun gram w => Core.mk (.node c.s (.leaf b.n))
    (Sum.elim c.kLas fun i => P.cross (D.pull (b.L i))) gram w) _ fun gram w => ?_
  show Core.mk _ _ _ _ = Core.mk _ _ _ _
  congr 1
  funext i
  rcases i with i | i
  · rfl
  · exact cross_map hs D (b.L i)

/-- C05: the same for the first conditioning step on a transformed prior. -/
theorem fromObservations_map (e : Env) (hs : ∀ L L' : P.Λ, P.cov L L' = P.cov L' L) {X' : Type}
    (D : FuncOp P X') (b : Batch (P.map hs D)) :
    Core.fromObservations e b = (Core.fromObservations e (b.pull hs D)).map fun c' => c'.map hs D := by
  unfold Core.fromObservations
  rw [gramOp_pull hs D b, predMean_pull hs D b]
  show ((b.pull hs D).gramOp.solve e (col fun i => b.Y i - (b.pull hs D).predMean i) >>= _ : Except Err _) =
    Except.map _ ((b.pull hs D).gramOp.solve e (col fun i => b.Y i - (b.pull hs D).predMean i) >>= _ : Except Err _)
  cases (b.pull hs D).gramOp.solve e (col fun i => b.Y i - (b.pull hs D).predMean i) with
  | error x => rfl
  | ok w =>
    show Except.ok _ = Except.ok _
    congr 1
    show Core.mk _ _ _ _ = Core.mk _ _ _ _
    congr 1
    funext i
    exact cross_map hs D (b.L i)

/-- The numerical state of a history is obtained by the steps `Core.condition`. -/
theorem toCore_condition (e : Env) (c : Cond P) (b : Batch P) :
    (c.condition e b).map Cond.toCore = c.toCore.condition e b := by
  unfold Cond.condition Core.condition
  dsimp only
  refine (bind2_map _ _ _ (fun gram w => Cond.mk (Core.mk (.node c.s (.leaf b.n))
    (Sum.elim c.kLas fun i => P.cross (b.L i)) gram w) (Sum.elim c.Ls b.L) (Sum.elim c.Ys b.Y)
    (Sum.elim c.bs b.bMean)) Cond.toCore fun _ _ => ?_).symm
  rfl

/-- The shift operator `(D f)(n) = f(n + 1)` is an operator in the sense of `FuncOp`. -/
noncomputable def shiftOp : FuncOp (white ℕ) ℕ where
  F' := ⊤
  D := { toFun := fun f => ⟨fun n => f.1 (n + 1), trivial⟩
         map_add' := fun _ _ => rfl
         map_smul' := fun _ _ => rfl }
  ev_mem n := (white_regular ℕ).ev_mem (n + 1)

example : ∃ (b : Batch (white ℕ)) (f : (white ℕ).F), (jG [b]).PosDef ∧ (shiftOp.D f).1 0 ≠ f.1 0 := by
  refine ⟨exact1 0 3, ⟨fun n => n, trivial⟩, jG_prefix' (white_regular ℕ) [exact1 0 3] [noisy1 1 5] ex_posDef.1, ?_⟩
  show ((0 + 1 : ℕ) : ℝ) ≠ ((0 : ℕ) : ℝ)
  norm_num

/-! ## C03 noise-free observations are reproduced -/

/-- C03: a noise-free batch anywhere in the history is reproduced: applying its functional to the
posterior gives the observed values with zero covariance. -/
theorem exact_reproduced (e : Env) (he : e.CholOK) (hP : P.Regular) (b : Batch P) (l : List (Batch P))
    (hG : (jG (b :: l)).PosDef) (c : Cond P) (hc : run e b l = .ok c) (d : Batch P) (hd : d ∈ b :: l)
    (hn : d.noise = none) :
    (∀ i, c.functlMean d.L i = d.Y i) ∧ c.functlCov e d.L = .ok 0 := by
  obtain ⟨h1, h2⟩ := functl_posterior e he hP b l hG c hc d.L
  have key := exact_row hP hG hd hn
  refine ⟨fun i => ?_, ?_⟩
  · rw [h1]; exact (key i).1
  · rw [h2]
    congr 1
    ext i j
    exact (key i).2 _

/-- C03: it stays so under further conditioning, and the covariance with every other functional of the
process vanishes too. -/
theorem exact_reproduced_later (hP : P.Regular) (l l' : List (Batch P))
    (hG : (jG (l ++ l')).PosDef) (d : Batch P) (hd : d ∈ l) (hn : d.noise = none) (i : Fin d.n) :
    (d.L i).1 (posterior P (l ++ l')).m = d.Y i ∧ ∀ L' : P.Λ, (posterior P (l ++ l')).cov (d.L i) L' = 0 :=
  exact_row hP hG (List.mem_append_left _ hd) hn i

example : ∃ (b d : Batch (white ℕ)) (l : List (Batch (white ℕ))), (jG (b :: l)).PosDef ∧ d ∈ b :: l ∧
    d.noise = none ∧ 0 < d.n :=
  ⟨exact1 0 3, exact1 0 3, [noisy1 1 5], ex_posDef.1, List.mem_cons_self, rfl, by simp [exact1]⟩

/-! ## C04 conditioning never increases uncertainty -/

/-- C04: posterior covariance on any finite point set: positive semidefinite, and prior minus posterior
is positive semidefinite. -/
theorem postCov_loewner (hP : P.Regular) (l : List (Batch P)) (hG : (jG l).PosDef) (hN : NoisePSD l)
    {n : ℕ} (pts : Fin n → X) :
    (Matrix.of fun i j => postCov l (pts i) (pts j)).PosSemidef ∧
      (Matrix.of fun i j => P.k (pts i) (pts j) - postCov l (pts i) (pts j)).PosSemidef := by
  constructor
  · exact psd_of_cov (posterior_regular hP hG hN) pts
  · exact psd_diff (P := P) P.Λ (covBil P) (covBil (posterior P l)) hP.ev (fun _ _ => rfl)
      (posterior_ev hP l) (fun x y => hP.symm (hP.ev x) (hP.ev y)) (postCov_symm hP hG)
      (posterior_le_prior hP l hG) pts

/-- C04: every further conditioning step lowers the covariance in the Loewner order. -/
theorem postCov_antitone (hP : P.Regular) (l l' : List (Batch P)) (hG : (jG (l ++ l')).PosDef)
    {n : ℕ} (pts : Fin n → X) :
    (Matrix.of fun i j => postCov l (pts i) (pts j) - postCov (l ++ l') (pts i) (pts j)).PosSemidef :=
  psd_diff (P := P) P.Λ (covBil (posterior P l)) (covBil (posterior P (l ++ l'))) hP.ev
    (posterior_ev hP l) (posterior_ev hP (l ++ l')) (postCov_symm hP (jG_prefix' hP l l' hG)) (postCov_symm hP hG)
    (posterior_append_le hP l l' hG) pts

/-- C04: posterior variances lie between zero and the prior variance. -/
theorem postVar_bounds (hP : P.Regular) (l : List (Batch P)) (hG : (jG l).PosDef) (hN : NoisePSD l) (x : X) :
    0 ≤ postCov l x x ∧ postCov l x x ≤ P.k x x := by
  have h := posterior_ev hP l x x
  rw [← h]
  exact ⟨posterior_nonneg hP hG hN _, posterior_le_prior hP l hG _⟩

/-- C04: the same for every functional of the process, and along every extension of the history. -/
theorem posterior_var_antitone (hP : P.Regular) (l l' : List (Batch P)) (hG : (jG (l ++ l')).PosDef)
    (hN : NoisePSD (l ++ l')) (L : P.Λ) :
    0 ≤ (posterior P (l ++ l')).cov L L ∧ (posterior P (l ++ l')).cov L L ≤ (posterior P l).cov L L :=
  ⟨posterior_nonneg hP hG hN L, posterior_append_le hP l l' hG L⟩

example : ∃ l l' : List (Batch (white ℕ)), l ≠ [] ∧ l' ≠ [] ∧ (jG (l ++ l')).PosDef ∧ NoisePSD (l ++ l') :=
  ⟨[exact1 0 3], [noisy1 1 5], by simp, by simp, ex_posDef⟩

/-! ## C06 cached weights -/

/-- C06: the weights maintained by the Schur updates are the ones the lazy property would compute. -/
theorem weights_eq_lazy (e : Env) (he : e.CholOK) (hP : P.Regular) (b : Batch P) (l : List (Batch P))
    (hG : (jG (b :: l)).PosDef) (c : Cond P) (hc : run e b l = .ok c) : c.lazyWeights e = .ok c.w := by
  obtain ⟨c', h, ⟨I⟩⟩ := run_inv e he hP b l hG
  obtain rfl : c = c' := by rw [hc] at h; exact Except.ok.inj h
  unfold Cond.lazyWeights
  rw [solve_eq_inv e he c.gram I.spd.valid]
  congr 1
  rw [eq_inv_mul I.spd.valid.isUnit I.w]
  congr 2
  funext i
  exact I.r i

end LinPDE.GP
