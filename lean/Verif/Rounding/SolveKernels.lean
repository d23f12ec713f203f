import Verif.Rounding.Solve
import Verif.Rounding.DerivGram
import Verif.GP.JetKernels

/-!
# C91: histories of observations of squared exponential processes in floating point, and exact arithmetic
-/

namespace LinPDE.Rounding
open Finset Matrix LinPDE.GP LinPDE.Block
open LinPDE.ExpQuad (EK sf)
open LinPDE.Matern (DOp OpAt MK Par)

/-! ## Exact arithmetic -/

section
variable {X α : Type} {P : Prior X} {F : Fmt} {K : FlKer X α}

lemma step_err_exact (hu : F.u = 0) {slv : Solver} (hs : slv.Exact) (tr : ∀ s : Shape, Option (Tree s.Idx)) {f f' : FlSt α} {o : FlObs α}
    (h : f.step F slv tr K o = .ok f') (hf : f.gram.toMat.PosDef) (hf' : f'.gram.toMat.PosDef) (h0 : f.err = 0) : f'.err = 0 := by
  set lower : Matrix (Fin o.n) f.s.Idx ℝ := Matrix.of fun i j => K.g (o.at_ i) (f.at_ j) with hlower
  unfold FlSt.step at h
  simp only at h
  rw [← hlower] at h
  cases hm : mk2x2 f.gram (some lowerᵀ) none (o.gram F K) true with
  | error x => rw [hm] at h; cases h
  | ok G =>
    have hG : G.toMat = fromBlocks f.gram.toMat lowerᵀ lower (o.gram F K).toMat := by
      unfold mk2x2 at hm
      simp only [Option.isNone_some, Bool.false_and, Bool.false_eq_true, if_false, if_true] at hm
      split_ifs at hm
      injection hm with hm
      subst hm
      rfl
    rw [hm] at h
    obtain rfl := Except.ok.inj h
    obtain ⟨D, hD⟩ : ∃ D : Matrix (Fin o.n) (Fin o.n) ℝ, D = (o.gram F K).toMat := ⟨_, rfl⟩
    have hA : IsUnit f.gram.toMat.det := (Matrix.isUnit_iff_isUnit_det _).1 hf.isUnit
    have hB : IsUnit (fromBlocks f.gram.toMat lowerᵀ lower D).det := by
      have h1 : IsUnit G.toMat.det := (Matrix.isUnit_iff_isUnit_det _).1 hf'.isUnit
      rw [hG] at h1
      subst hD
      exact h1
    have hS : IsUnit (D - lower * f.gram.toMat⁻¹ * lowerᵀ).det := by
      have := Matrix.invertibleOfIsUnitDet _ hA
      rw [det_fromBlocks₁₁, invOf_eq_nonsing_inv] at hB
      exact isUnit_of_mul_isUnit_right hB
    have h1 := stepErr_exact hu (tr f.s) (show Option (Tree (Fin o.n)) from tr (.leaf o.n)) f.gram.toMat lowerᵀ lower D
      (solveS := slv (.leaf o.n) (D - lower * f.gram.toMat⁻¹ * lowerᵀ)) (solveA := slv f.s f.gram.toMat)
      (fun r => hs (.leaf o.n) _ r hS) (fun r => hs f.s _ r hA) f.w (fun i => rhsFl F (o.Y i) (K.p (o.at_ i)) (o.bm i))
    subst hD
    show f.err + _ = 0
    rw [h0, zero_add]
    exact h1

lemma fold_err_exact (hu : F.u = 0) {slv : Solver} (hs : slv.Exact) {tr : ∀ s : Shape, Option (Tree s.Idx)} (htr : ∀ s, FullOpt (tr s)) (e : Env)
    (he : e.CholOK) (hP : P.Regular) {L : α → P.Λ} {S : Set α} {ε M σ τ : ℝ} (hg : ∀ a ∈ S, ∀ b ∈ S, |K.g a b - P.cov (L a) (L b)| ≤ ε)
    (hM : ∀ a ∈ S, ∀ b ∈ S, |P.cov (L a) (L b)| ≤ M) (hσ : 0 ≤ σ) (hδ : 0 ≤ ε + F.u * (M + ε + σ)) :
    ∀ (os : List (FlObs α)) (B : Both P α) (l : List (Batch P)), B.Ok F K L S (ε + F.u * (M + ε + σ)) l → (∀ o ∈ os, Covered K S σ o) →
      NoiseAtLeast τ (l ++ os.map (FlObs.batch L)) → (jG (l ++ os.map (FlObs.batch L))).PosDef →
      ((Fintype.card B.c.s.Idx + (os.map FlObs.n).sum : ℕ) : ℝ) * (ε + F.u * (M + ε + σ)) < τ → B.err = 0 →
      ∀ f, os.foldlM (fun c o => c.step F slv tr K o) B.fl = .ok f → f.err = 0
  | [], B, l, _, _, _, _, _, h0, f, hf => by
    obtain rfl := Except.ok.inj hf
    exact h0
  | o :: os, B, l, hB, hC, hN, hG, hc, h0, f, hf => by
    rw [List.map_cons, show l ++ o.batch L :: os.map (FlObs.batch L) = (l ++ [o.batch L]) ++ os.map (FlObs.batch L) by simp] at hG hN
    have hle : (Fintype.card B.c.s.Idx : ℝ) * (ε + F.u * (M + ε + σ)) < τ :=
      lt_of_le_of_lt (mul_le_mul_of_nonneg_right (by exact_mod_cast Nat.le_add_right _ _) hδ) hc
    have hNl : NoiseAtLeast τ l := fun b hb => hN b (by simp [hb])
    obtain ⟨B1, e1, e2, h1, h2⟩ := step_ok slv htr e he hP hg hM hσ hB hNl hδ hle (hC o (by simp)) (jG_prefix' hP _ _ hG)
    have hc1 : ((Fintype.card B1.c.s.Idx + (os.map FlObs.n).sum : ℕ) : ℝ) * (ε + F.u * (M + ε + σ)) < τ := by
      rw [h2, add_assoc]
      simpa [List.sum_cons] using hc
    have hle1 : (Fintype.card B1.c.s.Idx : ℝ) * (ε + F.u * (M + ε + σ)) < τ :=
      lt_of_le_of_lt (mul_le_mul_of_nonneg_right (by exact_mod_cast Nat.le_add_right _ _) hδ) hc1
    rw [List.foldlM_cons, e2] at hf
    refine fold_err_exact hu hs htr e he hP hg hM hσ hδ os B1 (l ++ [o.batch L]) h1 (fun o' h => hC o' (by simp [h])) hN hG hc1 ?_ f hf
    exact step_err_exact hu hs tr e2 (hB.posDef hP hδ hNl hle) (h1.posDef hP hδ (fun b hb => hN b (List.mem_append_left _ hb)) hle1) h0

/-- C91: without rounding, with exact solves and exact values of kernels and means, the computed posterior mean is the exact one. -/
theorem history_exact (hu : F.u = 0) {slv : Solver} (hs : slv.Exact) {tr : ∀ s : Shape, Option (Tree s.Idx)} (htr : ∀ s, FullOpt (tr s)) (e : Env)
    (he : e.CholOK) (hP : P.Regular) (L : α → P.Λ) {τ : ℝ} (hτ : 0 < τ) (hg : ∀ a b, K.g a b = P.cov (L a) (L b))
    (hk : ∀ x a, K.k x a = (P.cross (L a)).1 x) (hp : ∀ a, K.p a = (L a).1 P.m) (hm : ∀ x, K.m x = P.m.1 x)
    (o : FlObs α) (os : List (FlObs α)) (hb : ∀ o' ∈ o :: os, ∀ i j, o'.bc i j = o'.bc j i)
    (hN : NoiseAtLeast τ ((o :: os).map (FlObs.batch L))) :
    ∃ f c, FlSt.run F slv tr K o os = .ok f ∧ run e (o.batch L) (os.map (FlObs.batch L)) = .ok c ∧ f.err = 0 ∧
      ∀ (t : Tree f.s.Idx), t.Full → ∀ x, f.mean F K t x = c.mean x := by
  obtain ⟨S, hS⟩ : ∃ S : Set α, S = {a | ∃ o' ∈ o :: os, ∃ i, o'.at_ i = a} := ⟨_, rfl⟩
  have hfin : S.Finite := by
    have : S = ⋃ o' ∈ {o' | o' ∈ o :: os}, Set.range o'.at_ := by
      ext a
      simp [hS]
    rw [this]
    exact (List.finite_toSet _).biUnion fun o' _ => Set.finite_range _
  obtain ⟨M, hM⟩ := ((hfin.prod hfin).image fun q => |P.cov (L q.1) (L q.2)|).bddAbove
  obtain ⟨σ, hσ⟩ : ∃ σ, ∀ o' ∈ o :: os, ∀ i j, |o'.bc i j| ≤ σ := by
    have : (⋃ o' ∈ {o' | o' ∈ o :: os}, Set.range fun q : Fin o'.n × Fin o'.n => |o'.bc q.1 q.2|).Finite :=
      (List.finite_toSet _).biUnion fun o' _ => Set.finite_range _
    obtain ⟨σ, h⟩ := this.bddAbove
    exact ⟨σ, fun o' ho' i j => h (Set.mem_biUnion (show o' ∈ {o' | o' ∈ o :: os} from ho') ⟨(i, j), rfl⟩)⟩
  have hM' : ∀ a ∈ S, ∀ b ∈ S, |P.cov (L a) (L b)| ≤ max M 0 := fun a ha b hb => (hM ⟨(a, b), ⟨ha, hb⟩, rfl⟩).trans (le_max_left _ _)
  have hg' : ∀ a ∈ S, ∀ b ∈ S, |K.g a b - P.cov (L a) (L b)| ≤ 0 := fun a _ b _ => by rw [hg, sub_self, abs_zero]
  have hC : ∀ o' ∈ o :: os, Covered K S (max σ 0) o' := fun o' ho' =>
    ⟨fun i => by rw [hS]; exact ⟨o', ho', i, rfl⟩, fun i j => by rw [hg, hg, hP.symm], hb o' ho', fun i j => (hσ o' ho' i j).trans (le_max_left _ _)⟩
  have hδ : (0 : ℝ) + F.u * (max M 0 + 0 + max σ 0) = 0 := by rw [hu]; ring
  obtain ⟨f, c, e1, e2, -, -, -, h⟩ := history_mean F slv htr e he hP K L S le_rfl (le_max_right M 0) (le_max_right σ 0) hτ hg' hM' o os hC hN
    (by rw [hδ, mul_zero]; exact hτ)
  have h0 : f.err = 0 := by
    have hG : (jG (o.batch L :: os.map (FlObs.batch L))).PosDef := history_gram hP hτ (fun o' ho' => hb o' ho') hN
    obtain ⟨B0, e3, e4, hB0⟩ := start_ok slv e he hg' hM' (hC o (by simp)) (jG_prefix' hP [o.batch L] _ hG)
    have hpd : B0.gram.toMat.PosDef := hB0.posDef hP hδ.ge (fun b hb => hN b (by simp at hb; simp [hb])) (by rw [hδ, mul_zero]; exact hτ)
    have hB0e : B0.err = 0 := by
      have h1 : FlSt.err B0.fl = B0.err := rfl
      have hpd' : (FlSt.start F slv K o).gram.toMat.PosDef := by rw [e4]; exact hpd
      rw [← h1, ← e4]
      simp only [FlSt.start]
      refine Finset.sum_eq_zero fun i _ => ?_
      have := hs (.leaf o.n) (o.gram F K).toMat (fun i : Fin o.n => rhsFl F (o.Y i) (K.p (o.at_ i)) (o.bm i))
        ((Matrix.isUnit_iff_isUnit_det _).1 hpd'.isUnit)
      exact abs_eq_zero.2 (sub_eq_zero.2 (congrFun this i))
    unfold FlSt.run at e1
    rw [e4] at e1
    exact fold_err_exact hu hs htr e he hP hg' hM' (le_max_right σ 0) hδ.ge os B0 [o.batch L] hB0 (fun o' h => hC o' (by simp [h])) hN hG
      (by rw [hδ, mul_zero]; exact hτ) hB0e f e1
  refine ⟨f, c, e1, e2, h0, fun t ht x => ?_⟩
  obtain ⟨v, -, -, h3⟩ := h t ht x
  have hgam : ∀ n, gam F n = 0 := fun n => by simp [gam, hu]
  simp only [hgam, hm, hk, hp, h0, sub_self, abs_zero, zero_mul, mul_zero, sum_const_zero, add_zero, hu] at h3
  exact sub_eq_zero.1 (abs_eq_zero.1 (le_antisymm h3 (abs_nonneg _)))

end

/-! ## Squared exponential kernels -/

section
variable {d a : ℕ} {F : Fmt} {T : ℕ → Tree (Fin d)} {s l : Fin d → ℝ}

lemma apply_lens {L : DOp d} {b : Bool} {k k' : EK d} (h : ExpQuad.apply L b k = .ok k') : lens k' = lens k := by
  have hdd : ∀ u (k k' : EK d), ExpQuad.applyDD u b k = .ok k' → lens k' = lens k := fun u k k' h => by
    unfold ExpQuad.applyDD at h
    split at h <;> (try split_ifs at h) <;> (try (cases h; done)) <;> (injection h with h; subst h; rfl)
  have hwl : ∀ w (k k' : EK d), ExpQuad.applyWL w b k = .ok k' → lens k' = lens k := fun u k k' h => by
    unfold ExpQuad.applyWL at h
    split at h <;> (try split_ifs at h) <;> (try (cases h; done)) <;> (injection h with h; subst h; rfl)
  cases L with
  | dd u => exact hdd u k k' h
  | wl w => exact hwl w k k' h
  | pd n =>
    rcases ExpQuad.applyPD_inv h with ⟨rfl, e⟩ | ⟨rfl, hd, e⟩ | ⟨rfl, hd, e⟩
    all_goals first | exact hdd _ _ _ e | exact hwl _ _ _ e | (subst e; rfl)

lemma pair_inv {L0 L1 : DOp d} {k : EK d} (hk : ekPair l L0 L1 = .ok k) :
    ∃ k1, ExpQuad.apply L1 false (.expquad l) = .ok k1 ∧ ExpQuad.apply L0 true k1 = .ok k := by
  unfold ekPair at hk
  cases hb : ExpQuad.apply L1 false (.expquad l) with
  | error e => rw [hb] at hk; cases hk
  | ok k1 => rw [hb] at hk; exact ⟨k1, rfl, hk⟩

/-- The bound of `expquad_deriv_error`. -/
noncomputable def ekErr (F : Fmt) (a : ℕ) (k : EK d) (x y : Fin d → ℝ) : ℝ :=
  let q := ∑ i, (sf (lens k) i * (x i - y i)) ^ 2
  ((1 + F.u) ^ (2 * d + 8 * a + 24) * ((1 + F.v) * Real.exp (((1 + F.u) ^ (d + 2 * a + 5) - 1) * q)) - 1) * (ekMag k x y * Real.exp (-q))

/-- The operator `L` of the process at the point `x`. -/
noncomputable def ekOp (hl : ∀ i, l i ≠ 0) (m : jetF (d := d) Set.univ) (q : DOp d × (Fin d → ℝ)) : ((expquad_jet hl).prior m).Λ :=
  (expquad_jet hl).op m (coefs q.1 (orders_univ q.1)) q.2

lemma ek_cross (hl : ∀ i, l i ≠ 0) (m : jetF (d := d) Set.univ) {L : DOp d} {k : EK d} (hk : ExpQuad.apply L false (.expquad l) = .ok k) (x y : Fin d → ℝ) :
    (((expquad_jet hl).prior m).cross (ekOp hl m (L, y))).1 x = k.eval x y := by
  show ((expquad_jet hl).op m (coefs L (orders_univ L)) y).1 ⟨fun y => expK l 0 x 0 y, (expquad_jet hl).right_mem x⟩ = _
  have h1 : OpAt L (fun y => expK l 0 x 0 y) y (k.eval x y) := by
    have := ExpQuad.expquad_derivative hk x y
    simp only [expK_zero]
    exact this
  rw [op_apply, coefs_sum, opAt_eq (expquad_jet hl).lower L (orders_univ L) (univ_of_apply hk)
    (jet_spec ⟨fun y => expK l 0 x 0 y, (expquad_jet hl).right_mem x⟩) y h1]

lemma ek_close (hu : F.u ≤ 1 / 2) (hT : ∀ n, (T n).Full) (hl : ∀ i, l i ≠ 0) (hs : ∀ i, F.Near a (s i) (sf l i)) (m : jetF (d := d) Set.univ)
    (p : DOp d × (Fin d → ℝ) → ℝ) (mf : (Fin d → ℝ) → ℝ) {S : Set (DOp d × (Fin d → ℝ))} {ε M : ℝ}
    (hS : ∀ q ∈ S, ∀ r ∈ S, ∃ k, ekPair l q.1 r.1 = .ok k ∧ ekErr F a k q.2 r.2 ≤ ε ∧
      ekMag k q.2 r.2 * Real.exp (-∑ i, (sf l i * (q.2 i - r.2 i)) ^ 2) ≤ M) {q r : DOp d × (Fin d → ℝ)} (hq : q ∈ S) (hr : r ∈ S) :
    |(ekKer F T s l p mf).g q r - ((expquad_jet hl).prior m).cov (ekOp hl m q) (ekOp hl m r)| ≤ ε ∧
      |((expquad_jet hl).prior m).cov (ekOp hl m q) (ekOp hl m r)| ≤ M := by
  obtain ⟨k, h1, h2, h3⟩ := hS q hq r hr
  obtain ⟨k1, h4, h5⟩ := pair_inv h1
  have hlen : lens k = l := (apply_lens h5).trans (apply_lens h4)
  have e1 : ((expquad_jet hl).prior m).cov (ekOp hl m q) (ekOp hl m r) = k.eval q.2 r.2 := expquad_closed_form hl m q.1 r.1 h1 q.2 r.2
  have e2 : (ekKer F T s l p mf).g q r = ekFl F T s k q.2 r.2 := by simp only [ekKer, h1]
  have h6 := ek_cl hu hT k (by rw [hlen]; exact hs) q.2 r.2
  rw [e1, e2]
  refine ⟨h6.err.trans h2, h6.mag.trans ?_⟩
  rw [hlen]
  exact h3

lemma ek_covered (p : DOp d × (Fin d → ℝ) → ℝ) (mf : (Fin d → ℝ) → ℝ) {S : Set (DOp d × (Fin d → ℝ))} {ε M σ : ℝ}
    (hS : ∀ q ∈ S, ∀ r ∈ S, ∃ k, ekPair l q.1 r.1 = .ok k ∧ ekErr F a k q.2 r.2 ≤ ε ∧
      ekMag k q.2 r.2 * Real.exp (-∑ i, (sf l i * (q.2 i - r.2 i)) ^ 2) ≤ M) {o' : FlObs (DOp d × (Fin d → ℝ))} (hmem : ∀ i, o'.at_ i ∈ S)
    (hop : ∀ i j, (o'.at_ i).1 = (o'.at_ j).1) (hb : ∀ i j, o'.bc i j = o'.bc j i) (hσb : ∀ i j, |o'.bc i j| ≤ σ) :
    Covered (ekKer F T s l p mf) S σ o' := by
  refine ⟨hmem, fun i j => ?_, hb, hσb⟩
  obtain ⟨k, h1, -⟩ := hS _ (hmem i) _ (hmem j)
  have h1' : ekPair l (o'.at_ j).1 (o'.at_ i).1 = .ok k := by
    have e := hop j i
    rw [e] at h1 ⊢
    exact h1
  obtain ⟨k1, h4, h5⟩ := pair_inv h1
  rw [← hop i j] at h4
  obtain ⟨e1, e2, e3⟩ := ek_apply_same h4 h5
  have := expquad_deriv_swap (F := F) (T := T) (s := s) e1 (o'.at_ j).2 (o'.at_ i).2
  rw [e2] at this
  simp only [ekKer, h1, h1']
  exact this

/-- C91: any history of noisy observations of operators of a squared exponential process in floating point. -/
theorem expquad_history (hu : F.u ≤ 1 / 2) (hT : ∀ n, (T n).Full) (hl : ∀ i, l i ≠ 0) (hs : ∀ i, F.Near a (s i) (sf l i)) (m : jetF (d := d) Set.univ)
    (p : DOp d × (Fin d → ℝ) → ℝ) (mf : (Fin d → ℝ) → ℝ) (S : Set (DOp d × (Fin d → ℝ))) {ε M σ τ : ℝ} (hε : 0 ≤ ε) (hM : 0 ≤ M) (hσ : 0 ≤ σ) (hτ : 0 < τ)
    (hS : ∀ q ∈ S, ∀ r ∈ S, ∃ k, ekPair l q.1 r.1 = .ok k ∧ ekErr F a k q.2 r.2 ≤ ε ∧
      ekMag k q.2 r.2 * Real.exp (-∑ i, (sf l i * (q.2 i - r.2 i)) ^ 2) ≤ M)
    (slv : Solver) {tr : ∀ s : Shape, Option (Tree s.Idx)} (htr : ∀ s, FullOpt (tr s)) (e : Env) (he : e.CholOK)
    (o : FlObs (DOp d × (Fin d → ℝ))) (os : List (FlObs (DOp d × (Fin d → ℝ)))) (hmem : ∀ o' ∈ o :: os, ∀ i, o'.at_ i ∈ S)
    (hop : ∀ o' ∈ o :: os, ∀ i j, (o'.at_ i).1 = (o'.at_ j).1) (hb : ∀ o' ∈ o :: os, ∀ i j, o'.bc i j = o'.bc j i)
    (hσb : ∀ o' ∈ o :: os, ∀ i j, |o'.bc i j| ≤ σ) (hN : ∀ o' ∈ o :: os, ∀ v, τ * (v ⬝ᵥ v) ≤ v ⬝ᵥ (o'.bc *ᵥ v))
    (hc : (((o :: os).map FlObs.n).sum : ℝ) * (ε + F.u * (M + ε + σ)) < τ) :
    ∃ f c, FlSt.run F slv tr (ekKer F T s l p mf) o os = .ok f ∧ run e (o.batch (ekOp hl m)) (os.map (FlObs.batch (ekOp hl m))) = .ok c ∧ f.gram.toMat.PosDef ∧
      ∀ (t : Tree f.s.Idx), t.Full → ∀ x, ∃ v, c.covfunc e x x = .ok v ∧ v ≤ 1 ∧ ∃ k : f.s.Idx → EK d,
        (∀ j, ExpQuad.apply (f.at_ j).1 false (.expquad l) = .ok (k j)) ∧
        |f.mean F (ekKer F T s l p mf) t x - c.mean x| ≤
          gam F (((o :: os).map FlObs.n).sum + 1) * (|mf x| + ∑ j, |ekFl F T s (k j) x (f.at_ j).2| * |f.w j|) + |mf x - m.1 x| +
            ∑ j, ekErr F a (k j) x (f.at_ j).2 * |f.w j| +
            √((1 - v) / τ) * (f.err + ((o :: os).map FlObs.n).sum * (ε + F.u * (M + ε + σ)) * ∑ j, |f.w j| +
              ∑ i, (gam F 2 * (|f.Y i| + |p (f.at_ i)| + |f.b i|) + |p (f.at_ i) - (ekOp hl m (f.at_ i)).1 m|)) := by
  have hC : ∀ o' ∈ o :: os, Covered (ekKer F T s l p mf) S σ o' := fun o' ho' =>
    ek_covered p mf hS (hmem o' ho') (hop o' ho') (hb o' ho') (hσb o' ho')
  obtain ⟨f, c, e1, e2, e3, e4, e5, e6⟩ := history_mean F slv htr e he (jet_regular (expquad_jet hl) m) (ekKer F T s l p mf) (ekOp hl m) S hε hM hσ hτ
    (fun q hq r hr => (ek_close hu hT hl hs m p mf hS hq hr).1) (fun q hq r hr => (ek_close hu hT hl hs m p mf hS hq hr).2) o os hC
    (fun b hb => by
      obtain ⟨o', ho', rfl⟩ := List.mem_map.1 hb
      exact hN o' ho') hc
  refine ⟨f, c, e1, e2, e3, fun t ht x => ?_⟩
  obtain ⟨v, h1, h2, h3⟩ := e6 t ht x
  have hk1 : ((expquad_jet hl).prior m).k x x = 1 := by
    show expK l 0 x 0 x = 1
    rw [expK_zero]
    simp [EK.eval, ExpQuad.ek, ExpQuad.normSq]
  have hap : ∀ j, ∃ k, ExpQuad.apply (f.at_ j).1 false (.expquad l) = .ok k := fun j => by
    obtain ⟨k, h, -⟩ := hS _ (e4 j) _ (e4 j)
    obtain ⟨k1, h, -⟩ := pair_inv h
    exact ⟨k1, h⟩
  choose k hk using hap
  have hkf : ∀ j, (ekKer F T s l p mf).k x (f.at_ j) = ekFl F T s (k j) x (f.at_ j).2 := fun j => by simp only [ekKer, hk]
  rw [hk1] at h2 h3
  refine ⟨v, h1, h2, k, hk, h3.trans ?_⟩
  simp only [hkf]
  rw [e5]
  refine add_le_add (add_le_add le_rfl (sum_le_sum fun j _ => mul_le_mul_of_nonneg_right ?_ (abs_nonneg _))) le_rfl
  rw [show f.at_ j = ((f.at_ j).1, (f.at_ j).2) from rfl, ek_cross hl m (hk j)]
  exact expquad_deriv_error hu hT (k j) (by rw [apply_lens (hk j)]; exact hs) x (f.at_ j).2

end

/-! ## Matérn kernels -/

section
variable {a : ℕ} {F : Fmt} {T : ℕ → Tree (Fin 1)} {s : Fin 1 → ℝ} {q : ℕ} {ρ : ℝ}

lemma parOf_eq {d : ℕ} (k : MK d) : parOf k = k.par := by cases k <;> rfl

lemma mpair_inv {m : Par 1} {L0 L1 : DOp 1} {k : MK 1} (hk : mkPair m L0 L1 = .ok k) :
    ∃ k1, Matern.apply L1 false (.matern m) = .ok k1 ∧ Matern.apply L0 true k1 = .ok k ∧ parOf k1 = m ∧ parOf k = m := by
  obtain ⟨k1, h1, h0⟩ := Matern.bind_ok_inv hk
  obtain ⟨v1, -, p1⟩ := Matern.apply_inv (show (MK.matern m).Valid from trivial) h1
  obtain ⟨-, -, p0⟩ := Matern.apply_inv v1 h0
  exact ⟨k1, h1, h0, by rw [parOf_eq, p1]; rfl, by rw [parOf_eq, p0, p1]; rfl⟩

/-- The bound of `matern_deriv_error`. -/
noncomputable def mkErr (F : Fmt) (a : ℕ) (k : MK 1) (x y : Fin 1 → ℝ) : ℝ :=
  let r := Matern.norm (Matern.sdiff (parOf k).s x y)
  ((1 + F.u) ^ (4 * a + 2 * 1 + 10 + (2 * degOf k + 1 + degOf k * (1 + a + 3))) * ((1 + F.v) * Real.exp (((1 + F.u) ^ (1 + a + 3) - 1) * r)) - 1) *
    (mkMag k x y * Real.exp (-r))

/-- The operator `L` of the process at the point `x`. -/
noncomputable def mkOp (q : ℕ) (ρ : ℝ) (m : jetF (box fun _ : Fin 1 => (q : ℕ∞))) (z : {L : DOp 1 // L.order ≤ q} × (Fin 1 → ℝ)) :
    ((matern_jet (fun _ => q) fun _ => ρ).prior m).Λ :=
  (matern_jet (fun _ => q) fun _ => ρ).op m (coefs z.1.1 (mat_orders z.1.2)) z.2

lemma matK_one (x y : Fin 1 → ℝ) : matK (fun _ => q) (fun _ => ρ) 0 x 0 y = (MK.matern (⟨q, fun _ => ρ⟩ : Par 1)).eval x y := by
  rw [matK_zero, Fin.prod_univ_one]
  congr 1 <;> · funext i; rw [Subsingleton.elim i 0]

lemma mk_cross (m : jetF (box fun _ : Fin 1 => (q : ℕ∞))) {L : {L : DOp 1 // L.order ≤ q}} {k : MK 1}
    (hk : Matern.apply L.1 false (.matern ⟨q, fun _ => ρ⟩) = .ok k) (x y : Fin 1 → ℝ) :
    (((matern_jet (fun _ => q) fun _ => ρ).prior m).cross (mkOp q ρ m (L, y))).1 x = k.eval x y := by
  have hj := matern_jet (fun _ : Fin 1 => q) fun _ => ρ
  show (hj.op m (coefs L.1 (mat_orders L.2)) y).1 ⟨fun y => matK (fun _ => q) (fun _ => ρ) 0 x 0 y, hj.right_mem x⟩ = _
  have h1 : OpAt L.1 (fun y => matK (fun _ => q) (fun _ => ρ) 0 x 0 y) y (k.eval x y) := by
    have := Matern.matern_derivative .base hk x y (Or.inl (by show 0 + L.1.order ≤ 2 * q; have := L.2; omega))
    simp only [matK_one]
    exact this
  rw [op_apply, coefs_sum, opAt_eq hj.lower L.1 (mat_orders L.2) (univ_of_applyM hk)
    (jet_spec ⟨fun y => matK (fun _ => q) (fun _ => ρ) 0 x 0 y, hj.right_mem x⟩) y h1]

lemma mk_close (hT : ∀ n, (T n).Full) (hs : ∀ i, F.Near a (s i) ρ) (m : jetF (box fun _ : Fin 1 => (q : ℕ∞)))
    (p : {L : DOp 1 // L.order ≤ q} × (Fin 1 → ℝ) → ℝ) (mf : (Fin 1 → ℝ) → ℝ) {S : Set ({L : DOp 1 // L.order ≤ q} × (Fin 1 → ℝ))} {ε M : ℝ}
    (hS : ∀ z ∈ S, ∀ r ∈ S, ∃ k, mkPair ⟨q, fun _ => ρ⟩ z.1 r.1 = .ok k ∧ mkErr F a k z.2 r.2 ≤ ε ∧
      mkMag k z.2 r.2 * Real.exp (-Matern.norm (Matern.sdiff (fun _ => ρ) z.2 r.2)) ≤ M)
    {z r : {L : DOp 1 // L.order ≤ q} × (Fin 1 → ℝ)} (hz : z ∈ S) (hr : r ∈ S) :
    |(mkKer F T s ⟨q, fun _ => ρ⟩ p mf).g z r - ((matern_jet (fun _ => q) fun _ => ρ).prior m).cov (mkOp q ρ m z) (mkOp q ρ m r)| ≤ ε ∧
      |((matern_jet (fun _ => q) fun _ => ρ).prior m).cov (mkOp q ρ m z) (mkOp q ρ m r)| ≤ M := by
  obtain ⟨k, h1, h2, h3⟩ := hS z hz r hr
  obtain ⟨k1, h4, h5, -, hpar⟩ := mpair_inv h1
  have e1 : ((matern_jet (fun _ => q) fun _ => ρ).prior m).cov (mkOp q ρ m z) (mkOp q ρ m r) = k.eval z.2 r.2 := matern_closed_form q ρ m z.1.1 r.1.1 z.1.2 r.1.2 h1 z.2 r.2
  have e2 : (mkKer F T s ⟨q, fun _ => ρ⟩ p mf).g z r = mkFl F T s k z.2 r.2 := by simp only [mkKer, h1]
  have h6 := mk_cl hT k (by rw [hpar]; exact hs) z.2 r.2
  rw [e1, e2]
  refine ⟨h6.err.trans h2, h6.mag.trans ?_⟩
  rw [hpar]
  exact h3

lemma mk_covered (p : {L : DOp 1 // L.order ≤ q} × (Fin 1 → ℝ) → ℝ) (mf : (Fin 1 → ℝ) → ℝ) {S : Set ({L : DOp 1 // L.order ≤ q} × (Fin 1 → ℝ))} {ε M σ : ℝ}
    (hS : ∀ z ∈ S, ∀ r ∈ S, ∃ k, mkPair ⟨q, fun _ => ρ⟩ z.1 r.1 = .ok k ∧ mkErr F a k z.2 r.2 ≤ ε ∧
      mkMag k z.2 r.2 * Real.exp (-Matern.norm (Matern.sdiff (fun _ => ρ) z.2 r.2)) ≤ M)
    {o' : FlObs ({L : DOp 1 // L.order ≤ q} × (Fin 1 → ℝ))} (hmem : ∀ i, o'.at_ i ∈ S)
    (hop : ∀ i j, (o'.at_ i).1 = (o'.at_ j).1) (hb : ∀ i j, o'.bc i j = o'.bc j i) (hσb : ∀ i j, |o'.bc i j| ≤ σ) :
    Covered (mkKer F T s ⟨q, fun _ => ρ⟩ p mf) S σ o' := by
  refine ⟨hmem, fun i j => ?_, hb, hσb⟩
  obtain ⟨k, h1, -⟩ := hS _ (hmem i) _ (hmem j)
  have h1' : mkPair ⟨q, fun _ => ρ⟩ (o'.at_ j).1 (o'.at_ i).1 = .ok k := by
    have e := hop j i
    rw [e] at h1 ⊢
    exact h1
  obtain ⟨k1, h4, h5, -⟩ := mpair_inv h1
  rw [← hop i j] at h4
  obtain ⟨e1, e2⟩ := mk_apply_same h4 h5
  have := matern_deriv_swap (F := F) (T := T) (s := s) k (o'.at_ j).2 (o'.at_ i).2
  rw [e1, mk_trees e1] at this
  simp only [mkKer, h1, h1']
  exact this

/-- C91: any history of noisy observations of operators of a one-dimensional Matérn process in floating point. -/
theorem matern_history (hT : ∀ n, (T n).Full) (hs : ∀ i, F.Near a (s i) ρ) (m : jetF (box fun _ : Fin 1 => (q : ℕ∞)))
    (p : {L : DOp 1 // L.order ≤ q} × (Fin 1 → ℝ) → ℝ) (mf : (Fin 1 → ℝ) → ℝ) (S : Set ({L : DOp 1 // L.order ≤ q} × (Fin 1 → ℝ)))
    {ε M σ τ : ℝ} (hε : 0 ≤ ε) (hM : 0 ≤ M) (hσ : 0 ≤ σ) (hτ : 0 < τ)
    (hS : ∀ z ∈ S, ∀ r ∈ S, ∃ k, mkPair ⟨q, fun _ => ρ⟩ z.1 r.1 = .ok k ∧ mkErr F a k z.2 r.2 ≤ ε ∧
      mkMag k z.2 r.2 * Real.exp (-Matern.norm (Matern.sdiff (fun _ => ρ) z.2 r.2)) ≤ M)
    (slv : Solver) {tr : ∀ s : Shape, Option (Tree s.Idx)} (htr : ∀ s, FullOpt (tr s)) (e : Env) (he : e.CholOK)
    (o : FlObs ({L : DOp 1 // L.order ≤ q} × (Fin 1 → ℝ))) (os : List (FlObs ({L : DOp 1 // L.order ≤ q} × (Fin 1 → ℝ))))
    (hmem : ∀ o' ∈ o :: os, ∀ i, o'.at_ i ∈ S)
    (hop : ∀ o' ∈ o :: os, ∀ i j, (o'.at_ i).1 = (o'.at_ j).1) (hb : ∀ o' ∈ o :: os, ∀ i j, o'.bc i j = o'.bc j i)
    (hσb : ∀ o' ∈ o :: os, ∀ i j, |o'.bc i j| ≤ σ) (hN : ∀ o' ∈ o :: os, ∀ v, τ * (v ⬝ᵥ v) ≤ v ⬝ᵥ (o'.bc *ᵥ v))
    (hc : (((o :: os).map FlObs.n).sum : ℝ) * (ε + F.u * (M + ε + σ)) < τ) :
    ∃ f c, FlSt.run F slv tr (mkKer F T s ⟨q, fun _ => ρ⟩ p mf) o os = .ok f ∧ run e (o.batch (mkOp q ρ m)) (os.map (FlObs.batch (mkOp q ρ m))) = .ok c ∧
      f.gram.toMat.PosDef ∧
      ∀ (t : Tree f.s.Idx), t.Full → ∀ x, ∃ v, c.covfunc e x x = .ok v ∧ v ≤ 1 ∧ ∃ k : f.s.Idx → MK 1,
        (∀ j, Matern.apply (f.at_ j).1.1 false (.matern ⟨q, fun _ => ρ⟩) = .ok (k j)) ∧
        |f.mean F (mkKer F T s ⟨q, fun _ => ρ⟩ p mf) t x - c.mean x| ≤
          gam F (((o :: os).map FlObs.n).sum + 1) * (|mf x| + ∑ j, |mkFl F T s (k j) x (f.at_ j).2| * |f.w j|) + |mf x - m.1 x| +
            ∑ j, mkErr F a (k j) x (f.at_ j).2 * |f.w j| +
            √((1 - v) / τ) * (f.err + ((o :: os).map FlObs.n).sum * (ε + F.u * (M + ε + σ)) * ∑ j, |f.w j| +
              ∑ i, (gam F 2 * (|f.Y i| + |p (f.at_ i)| + |f.b i|) + |p (f.at_ i) - (mkOp q ρ m (f.at_ i)).1 m|)) := by
  set K := mkKer F T s ⟨q, fun _ => ρ⟩ p mf with hK
  have hj := matern_jet (fun _ : Fin 1 => q) fun _ => ρ
  have hC : ∀ o' ∈ o :: os, Covered K S σ o' := fun o' ho' =>
    mk_covered p mf hS (hmem o' ho') (hop o' ho') (hb o' ho') (hσb o' ho')
  obtain ⟨f, c, e1, e2, e3, e4, e5, e6⟩ := history_mean F slv htr e he (jet_regular hj m) K (mkOp q ρ m) S hε hM hσ hτ
    (fun q hq r hr => (mk_close hT hs m p mf hS hq hr).1) (fun q hq r hr => (mk_close hT hs m p mf hS hq hr).2) o os hC
    (fun b hb => by
      obtain ⟨o', ho', rfl⟩ := List.mem_map.1 hb
      exact hN o' ho') hc
  refine ⟨f, c, e1, e2, e3, fun t ht x => ?_⟩
  obtain ⟨v, h1, h2, h3⟩ := e6 t ht x
  have hk1 : (hj.prior m).k x x = 1 := by
    show matK (fun _ => q) (fun _ => ρ) 0 x 0 x = 1
    rw [matK_one, ← Matern.matern_evalNone (.base (m := ⟨q, fun _ => ρ⟩)) x]
    show Matern.pev (Matern.maternPoly q) 0 * Real.exp (-0) = 1
    rw [Matern.pev_eq, Polynomial.eval_zero_map, ← Polynomial.coeff_zero_eq_eval_zero, Matern.coeff_maternPoly, if_pos (Nat.zero_le _), Matern.maternCoeff_zero]
    simp
  have hap : ∀ j, ∃ k, Matern.apply (f.at_ j).1.1 false (.matern ⟨q, fun _ => ρ⟩) = .ok k ∧ parOf k = ⟨q, fun _ => ρ⟩ := fun j => by
    obtain ⟨k, h, -⟩ := hS _ (e4 j) _ (e4 j)
    obtain ⟨k1, h, -, h', -⟩ := mpair_inv h
    exact ⟨k1, h, h'⟩
  choose k hk hpar using hap
  have hkf : ∀ j, K.k x (f.at_ j) = mkFl F T s (k j) x (f.at_ j).2 := fun j => by simp only [hK, mkKer, hk]
  rw [hk1] at h2 h3
  refine ⟨v, h1, h2, k, hk, h3.trans ?_⟩
  simp only [hkf]
  rw [e5]
  refine add_le_add (add_le_add le_rfl (sum_le_sum fun j _ => mul_le_mul_of_nonneg_right ?_ (abs_nonneg _))) le_rfl
  rw [show f.at_ j = ((f.at_ j).1, (f.at_ j).2) from rfl, mk_cross m (hk j)]
  exact matern_deriv_error hT (k j) (by rw [hpar j]; exact hs) x (f.at_ j).2

end

end LinPDE.Rounding
