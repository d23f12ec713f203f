import Verif.Solve.FemLemmas
import Verif.Solve.PoissonProps
import Verif.Galerkin.Props

/-! # The system of the notebooks and the processes conditioned on it -/

namespace LinPDE.Solve
open LinPDE.Domains LinPDE.Pde LinPDE.GP LinPDE.Block LinPDE.Fem LinPDE.Galerkin Matrix MeasureTheory

/-- What `femSystem` computes. -/
structure IsSys (S : FemSystem) (l r α : ℝ) (n : ℕ) (g : ℝ → ℝ) : Prop where
  trial : mkBasis (linspace l r (n + 2)) false = .ok S.trial.basis
  tn : S.trial.normalized = true
  test : mkBasis (linspace l r (n + 2)) true = .ok S.test.basis
  sn : S.test.normalized = false
  A : ∃ A, weakLaplacian S.test.basis S.trial.basis = .ok A ∧ S.A = (-α) • A
  b : ∀ i : Fin S.test.basis.len, S.b i = ∫ x, S.test.basis.phi i x * g x

lemma projFn_ok {P : Proj} (hP : Galerkin.Good P) {q : Fn} (hq : q.inS = []) {g : ℝ → ℝ} (hg : ∀ x, q.ev [x] = [g x]) :
    projFn P q = .ok (coef P g) := by
  have hconst : ∀ v : ℝ, (∀ x, g x = v) → projectConstant P.basis P.normalized v = coef P g := by
    intro v hv
    obtain ⟨grid, zb, h1, h2⟩ := hP
    have := project_constant h1 h2 P.normalized v
    rw [show g = fun _ => v from funext hv]
    unfold coef
    rw [this]
  cases q with
  | zero i o =>
    rw [projFn, hconst 0]
    intro x
    have := hg x
    simp only [Fn.ev] at this
    have hm : g x ∈ List.replicate o.prod (0 : ℝ) := by rw [this]; simp
    exact List.eq_of_mem_replicate hm
  | const i o v =>
    rw [projFn, hconst]
    intro x
    have := hg x
    simp only [Fn.ev] at this
    rw [this]
    rfl
  | sine a b cs =>
    rw [projFn, if_pos hq, show (fun x => ((Fn.sine a b cs).ev [x]).getD 0 0) = g from funext fun x => by rw [hg]; rfl,
      (projectFunction_eq hP g).1]
    · rfl
    · simp
    · simp
  | other i o f =>
    rw [projFn, if_pos hq, show (fun x => ((Fn.other i o f).ev [x]).getD 0 0) = g from funext fun x => by rw [hg]; rfl,
      (projectFunction_eq hP g).1]
    · rfl
    · simp
    · simp

lemma femSystem_ok {l r : ℝ} (hlr : l < r) {n : ℕ} (hn : n ≠ 0) (α : ℝ) {q : Fn} (hq : q.inS = []) {g : ℝ → ℝ}
    (hg : ∀ x, q.ev [x] = [g x]) (o : OpShapes) (bcs : List BC) (s : Option Fn) :
    ∃ S, femSystem ⟨⟨.interval l r, o, q⟩, bcs, s⟩ (poissonWOp α (.interval l r)) n = .ok S ∧ IsSys S l r α n g := by
  have hpw := linspace_pairwise hlr n
  have hlen := linspace_length l r (n + 2)
  obtain ⟨trial, h1, -⟩ := (basis_constructs (linspace l r (n + 2)) false).1 (by omega)
  obtain ⟨test, h2, -⟩ := (basis_constructs (linspace l r (n + 2)) true).1 (by omega)
  obtain ⟨A, hA, -⟩ := weak_laplacian_entries hpw h2 h1
  have hgood : Galerkin.Good (⟨1, 1, test, false⟩ : Proj) := ⟨_, _, hpw, h2⟩
  refine ⟨⟨⟨0, 0, trial, true⟩, ⟨1, 1, test, false⟩, (-α) • A, coef ⟨1, 1, test, false⟩ g⟩, ?_, h1, rfl, h2, rfl, ⟨A, hA, rfl⟩, fun i => ?_⟩
  · simp only [femSystem, h1, h2, liftFem, bind, Except.bind, poissonWOp, WOp.weakForm, hA, projFn_ok hgood hq hg]
  · show coef ⟨1, 1, test, false⟩ g i = _
    rw [(projectFunction_eq hgood g).2]
    show ∑ j, normalizer test false i j * _ = _
    rw [(normalizer_inverse hpw h2).2.2]
    simp [Matrix.one_apply]

variable {S : FemSystem} {l r α : ℝ} {n : ℕ} {g : ℝ → ℝ}

namespace IsSys

lemma goodTrial (h : IsSys S l r α n g) (hlr : l < r) : Galerkin.Good S.trial := ⟨_, _, linspace_pairwise hlr n, h.trial⟩

lemma goodTest (h : IsSys S l r α n g) (hlr : l < r) : Galerkin.Good S.test := ⟨_, _, linspace_pairwise hlr n, h.test⟩

lemma lens (h : IsSys S l r α n g) : n ≠ 0 ∧ S.test.basis.len = n ∧ S.trial.basis.len = n + 2 := by
  have hlen := linspace_length l r (n + 2)
  have h1 := (mkBasis_node h.test).1
  have h2 := (mkBasis_node h.trial).1
  rw [hlen] at h1 h2
  refine ⟨?_, by simpa using h1, by simpa using h2⟩
  rintro rfl
  have := (basis_constructs (linspace l r (0 + 2)) true).2 (by omega)
  rw [h.test] at this
  cases this

/-- The nodes. -/
lemma testNode (h : IsSys S l r α n g) (hlr : l < r) {c : ℕ} (hc : c < n + 2) :
    S.test.basis.g c = l + c * ((r - l) / ((n : ℝ) + 1)) := by
  obtain ⟨e1, -⟩ := two_bases (linspace_pairwise hlr n) h.test h.trial
  unfold Basis.g
  rw [e1, linspace_getD hc]

lemma trialNode (h : IsSys S l r α n g) (hlr : l < r) {c : ℕ} (hc : c < n + 2) :
    S.trial.basis.g (c + 1) = l + c * ((r - l) / ((n : ℝ) + 1)) := by
  obtain ⟨-, -, -, e4, -⟩ := two_bases (linspace_pairwise hlr n) h.test h.trial
  rw [e4 c (by rw [linspace_length]; exact hc), linspace_getD hc]

/-- The matrix is a matrix of second differences. -/
lemma diff2 (h : IsSys S l r α n g) (hlr : l < r) : ∃ A, S.A = (-α) • A ∧ Diff2 (fun _ => ((n : ℝ) + 1) / (r - l)) A := by
  obtain ⟨A, hA, hAS⟩ := h.A
  obtain ⟨A', hA', hE⟩ := weak_laplacian_entries (linspace_pairwise hlr n) h.test h.trial
  obtain rfl : A = A' := Except.ok.inj (hA.symm.trans hA')
  refine ⟨A, hAS, fun i j => ?_⟩
  obtain ⟨e1, e2, e3, e4, e5, e6⟩ := two_bases (linspace_pairwise hlr n) h.test h.trial
  have hn1 : (0 : ℝ) < (n : ℝ) + 1 := by positivity
  have hs : ∀ c, c < n + 2 → S.trial.basis.g (c + 1) - S.trial.basis.g c = (r - l) / ((n : ℝ) + 1) := by
    intro c hc
    rcases Nat.eq_zero_or_pos c with rfl | hpos
    · rw [h.trialNode hlr hc, e6, linspace_getD (by omega), linspace_getD (by omega)]
      push_cast
      ring
    · obtain ⟨c', rfl⟩ := Nat.exists_eq_succ_of_ne_zero hpos.ne'
      rw [h.trialNode hlr hc, h.trialNode hlr (c := c') (by omega)]
      push_cast
      ring
  have hi : i.val < n := by have := i.2; have := h.lens.2.1; omega
  rw [hE, hs i (by omega), show S.trial.basis.g (i.val + 2) - S.trial.basis.g (i.val + 1) = (r - l) / ((n : ℝ) + 1) from hs (i.val + 1) (by omega)]
  have hd : 1 / ((r - l) / ((n : ℝ) + 1)) = ((n : ℝ) + 1) / (r - l) := one_div_div _ _
  rw [hd]

lemma cond_pos (hlr : l < r) : ∀ i ≤ n, (0 : ℝ) < (fun _ : ℕ => ((n : ℝ) + 1) / (r - l)) i := fun _ _ =>
  div_pos (by positivity) (by linarith)

lemma len2 (h : IsSys S l r α n g) : S.trial.basis.len = S.test.basis.len + 2 := by
  obtain ⟨-, h1, h2⟩ := h.lens
  omega

lemma full (h : IsSys S l r α n g) (hlr : l < r) (hα : α ≠ 0) : RowsIndep (Sum.elim (bcRows S.trial) S.A) := by
  obtain ⟨A, hA, hd⟩ := h.diff2 hlr
  rw [hA]
  exact hd.full h.len2 (fun i _ => cond_pos (n := n) hlr 0 (by omega)) (neg_ne_zero.mpr hα)

lemma rows (h : IsSys S l r α n g) (hlr : l < r) (hα : α ≠ 0) : RowsIndep S.A := RowsIndep.right (h.full hlr hα)

/-- The system has at most one solution. -/
lemma unique (h : IsSys S l r α n g) (hlr : l < r) (hα : α ≠ 0) {c c' : Fin S.trial.basis.len → ℝ}
    (h0 : ∀ i, ∑ j, bcRows S.trial i j * c j = ∑ j, bcRows S.trial i j * c' j)
    (h1 : ∀ i, ∑ j, S.A i j * c j = ∑ j, S.A i j * c' j) : c = c' := by
  obtain ⟨A, hA, hd⟩ := h.diff2 hlr
  rw [hA] at h1
  exact hd.full_inj h.len2 (fun i _ => cond_pos (n := n) hlr 0 (by omega)) (neg_ne_zero.mpr hα) h0 h1

end IsSys

/-! ## Gram matrices -/

variable {k : ℝ → ℝ → ℝ}

lemma gram_posDef (hk : IStrict k) (m : lbF) (bs : List (Batch (lbPrior hk.feature m))) (hn : ∀ b ∈ bs, b.noise = none)
    (hind : ∀ g : (p : Fin bs.length) → Fin (bs.get p).n → ℝ, ∑ p, ∑ i, g p i • (bs.get p).L i = 0 → ∀ p i, g p i = 0) :
    (jG bs).PosDef := by
  unfold jG
  rw [jN_zero hn, add_zero, lb_gram_iff hk]
  intro g hg i
  exact hind (fun p i => g ⟨p, i⟩) (by rw [← hg, Fintype.sum_sigma]; rfl) i.1 i.2

/-- The observations of the finite element notebook. -/
lemma IsSys.fem_gram (h : IsSys S l r α n g) (hlr : l < r) (hα : α ≠ 0) (hk : IStrict k) (m : lbF) (yb : List (List ℝ)) :
    (jG ((femObs S [l, r] yb).1.batch hk.feature m :: (femObs S [l, r] yb).2.map (FObs.batch hk.feature m))).PosDef := by
  refine gram_posDef hk m _ (by simp [femObs, bcPoints, FemSystem.equation, FObs.batch]) fun γ h0 => ?_
  have hx : Function.Injective fun i : Fin 2 => [l, r].get i := by
    intro i j hij
    fin_cases i <;> fin_cases j <;> simp at hij ⊢ <;> linarith
  have key := indep_points_rows (h.goodTrial hlr) h.tn hx (h.full hlr hα)
    (Sum.elim (fun i => γ 0 i) (Sum.elim (fun i => γ 1 i) fun i => γ 2 i)) (by
      rw [Fintype.sum_sum_type, Fintype.sum_sum_type, ← add_assoc, ← h0]
      exact (Fin.sum_univ_three (M := lbΛ) fun p => ∑ i, γ p i •
        (List.get ((femObs S [l, r] yb).1.batch hk.feature m :: (femObs S [l, r] yb).2.map (FObs.batch hk.feature m)) p).L i).symm)
  intro p i
  match p with
  | 0 => exact key (.inl i)
  | 1 => exact key (.inr (.inl i))
  | 2 => exact key (.inr (.inr i))

/-- The observations of the other notebook. -/
lemma IsSys.gp_gram (h : IsSys S l r α n g) (hlr : l < r) (hα : α ≠ 0) (hk : IStrict k) (m : lbF) (yb : List (List ℝ)) :
    (jG ((gpFemObs S [l, r] yb).1.batch hk.feature m :: (gpFemObs S [l, r] yb).2.map (FObs.batch hk.feature m))).PosDef := by
  refine gram_posDef hk m _ (by simp [gpFemObs, bcPoints, FemSystem.equation, FObs.batch]) fun γ h0 => ?_
  have hx : Function.Injective fun i : Fin 2 => [l, r].get i := by
    intro i j hij
    fin_cases i <;> fin_cases j <;> simp at hij ⊢ <;> linarith
  have key := indep_points_rows (h.goodTrial hlr) h.tn hx (h.rows hlr hα)
    (Sum.elim (fun i => γ 0 i) (fun i => γ 1 i)) (by
      rw [Fintype.sum_sum_type, ← h0]
      exact (Fin.sum_univ_two (M := lbΛ) fun p => ∑ i, γ p i •
        (List.get ((gpFemObs S [l, r] yb).1.batch hk.feature m :: (gpFemObs S [l, r] yb).2.map (FObs.batch hk.feature m)) p).L i).symm)
  intro p i
  match p with
  | 0 => exact key (.inl i)
  | 1 => exact key (.inr i)

end LinPDE.Solve
