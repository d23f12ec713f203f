import Verif.Rounding.SolveCovModel
import Verif.Rounding.Solve

/-!
# C92: the posterior covariance of a whole history in floating point
-/

namespace LinPDE.Rounding
open Finset Matrix LinPDE.GP LinPDE.Block

variable {X α : Type} {P : Prior X}

/-- Both histories, with what relates them. -/
lemma history_both (F : Fmt) (slv : Solver) {tr : Orders} (htr : ∀ s, FullOpt (tr s)) (e : Env) (he : e.CholOK) (hP : P.Regular)
    (K : FlKer X α) (L : α → P.Λ) (S : Set α) {ε M σ τ : ℝ} (hε : 0 ≤ ε) (hM0 : 0 ≤ M) (hσ : 0 ≤ σ) (hτ : 0 < τ)
    (hg : ∀ a ∈ S, ∀ b ∈ S, |K.g a b - P.cov (L a) (L b)| ≤ ε) (hM : ∀ a ∈ S, ∀ b ∈ S, |P.cov (L a) (L b)| ≤ M)
    (o : FlObs α) (os : List (FlObs α)) (hC : ∀ o' ∈ o :: os, Covered K S σ o') (hN : NoiseAtLeast τ ((o :: os).map (FlObs.batch L)))
    (hc : (((o :: os).map FlObs.n).sum : ℝ) * (ε + F.u * (M + ε + σ)) < τ) :
    ∃ B : Both P α, FlSt.run F slv tr K o os = .ok B.fl ∧ run e (o.batch L) (os.map (FlObs.batch L)) = .ok B.c ∧ B.gram.toMat.PosDef ∧
      B.Ok F K L S (ε + F.u * (M + ε + σ)) ((o :: os).map (FlObs.batch L)) := by
  have hδ : 0 ≤ ε + F.u * (M + ε + σ) := by have := F.u_nonneg; positivity
  have hG : (jG (o.batch L :: os.map (FlObs.batch L))).PosDef := history_gram hP hτ (fun o' ho' => (hC o' ho').bsymm) hN
  obtain ⟨B0, e1, e2, h0⟩ := start_ok slv e he hg hM (hC o (by simp)) (jG_prefix' hP [o.batch L] _ hG)
  have hcard : Fintype.card B0.c.s.Idx = o.n := by
    have := congrArg (fun f : FlSt α => Fintype.card f.s.Idx) e2
    exact this.symm.trans (Fintype.card_fin _)
  obtain ⟨B, e3, e4, hB, h4⟩ := fold_ok slv htr e he hP hg hM hσ hδ os B0 [o.batch L] h0 (fun o' h => hC o' (by simp [h])) hN hG
    (by rw [hcard]; simpa [List.sum_cons] using hc)
  have hrun : run e (o.batch L) (os.map (FlObs.batch L)) = .ok B.c := by unfold run; rw [e1]; exact e3
  have hsum : Fintype.card B.c.s.Idx = ((o :: os).map FlObs.n).sum := by rw [h4, hcard]; simp
  exact ⟨B, by unfold FlSt.run; rw [e2]; exact e4, hrun, hB.posDef hP hδ hN (by rw [hsum]; exact_mod_cast hc), hB⟩

/-- C92: after a history of any length on floats, evaluating the posterior covariance succeeds and is near the one of the exact history. -/
theorem history_cov (F : Fmt) (slv : Solver) (lib : Lib) {tr : Orders} (htr : ∀ s, FullOpt (tr s)) (e : Env) (he : e.CholOK) (hP : P.Regular)
    (K : FlKer X α) (kk : X → X → ℝ) (L : α → P.Λ) (S : Set α) {ε M σ τ : ℝ} (hε : 0 ≤ ε) (hM0 : 0 ≤ M) (hσ : 0 ≤ σ) (hτ : 0 < τ)
    (hg : ∀ a ∈ S, ∀ b ∈ S, |K.g a b - P.cov (L a) (L b)| ≤ ε) (hM : ∀ a ∈ S, ∀ b ∈ S, |P.cov (L a) (L b)| ≤ M)
    (o : FlObs α) (os : List (FlObs α)) (hC : ∀ o' ∈ o :: os, Covered K S σ o') (hN : NoiseAtLeast τ ((o :: os).map (FlObs.batch L)))
    (hc : (((o :: os).map FlObs.n).sum : ℝ) * (ε + F.u * (M + ε + σ)) < τ) :
    ∃ f c, FlSt.run F slv tr K o os = .ok f ∧ run e (o.batch L) (os.map (FlObs.batch L)) = .ok c ∧ (∀ i, f.at_ i ∈ S) ∧
      ∀ (t : Tree f.s.Idx), t.Full → ∀ x y, ∃ z C v V, solveFl F lib tr e f.gram (fun j => K.k y (f.at_ j)) = .ok z ∧
        (∀ i, |(f.gram.toMat *ᵥ z) i - K.k y (f.at_ i)| ≤ solveErr F lib tr e f.gram (fun j => K.k y (f.at_ j)) i) ∧ f.cov F lib tr e K kk t x y = .ok C ∧
        c.covfunc e x x = .ok v ∧ 0 ≤ v ∧ v ≤ P.k x x ∧ c.covfunc e x y = .ok V ∧
        |C - V| ≤
          gam F (Fintype.card f.s.Idx + 1) * (|kk x y| + ∑ j, |K.k x (f.at_ j)| * |z j|) + |kk x y - P.k x y| +
            ∑ j, |K.k x (f.at_ j) - (P.cross (L (f.at_ j))).1 x| * |z j| +
            √((P.k x x - v) / τ) * (∑ i, solveErr F lib tr e f.gram (fun j => K.k y (f.at_ j)) i +
              Fintype.card f.s.Idx * (ε + F.u * (M + ε + σ)) * ∑ j, |z j| + ∑ i, |K.k y (f.at_ i) - (P.cross (L (f.at_ i))).1 y|) := by
  have hG : (jG (o.batch L :: os.map (FlObs.batch L))).PosDef := history_gram hP hτ (fun o' ho' => (hC o' ho').bsymm) hN
  obtain ⟨B, e1, hrun, hpd, hB⟩ := history_both F slv htr e he hP K L S hε hM0 hσ hτ hg hM o os hC hN hc
  obtain ⟨I⟩ := hB.inv
  refine ⟨B.fl, B.c, e1, hrun, hB.mem, fun t ht x y => ?_⟩
  obtain ⟨z, h1, h2⟩ := solve_residual (F := F) (lib := lib) (e := e) htr B.gram (hB.like.spd hpd).valid fun j => K.k y (B.at_ j)
  obtain ⟨v, V, h3, h4, h5⟩ := posterior_cov_error F e he hP (o.batch L) (os.map (FlObs.batch L)) hG hτ hN B.c hrun ht x y (kk x y)
    (fun j => K.k x (B.at_ j)) z
  have hk : ∀ j, B.c.kLas j = P.cross (L (B.at_ j)) := fun j => by rw [← hB.Ls, I.Ls, I.kLas]
  have hpsd : NoisePSD (o.batch L :: os.map (FlObs.batch L)) := fun b hb => by
    obtain ⟨o', ho', rfl⟩ : ∃ o' ∈ o :: os, o'.batch L = b := by simpa [eq_comm] using hb
    refine Matrix.PosSemidef.of_dotProduct_mulVec_nonneg (Matrix.IsHermitian.ext fun i j => (hC o' ho').bsymm j i) fun a => ?_
    rw [star_trivial]
    exact le_trans (mul_nonneg hτ.le (sum_nonneg fun i _ => mul_self_nonneg _)) (hN _ hb a)
  obtain ⟨hv0, hv⟩ : 0 ≤ v ∧ v ≤ P.k x x := by
    obtain ⟨c', h', -, h6, -⟩ := run_all e he hP (o.batch L) (os.map (FlObs.batch L)) hG
    obtain rfl : B.c = c' := by rw [hrun] at h'; exact Except.ok.inj h'
    obtain rfl := Except.ok.inj (h3.symm.trans (h6 x x))
    exact ⟨(posterior_regular hP hG hpsd).nonneg (hP.ev x), (posterior_le_prior hP _ hG _).trans (le_of_eq (cov_ev hP x x))⟩
  refine ⟨z, postCov F t (kk x y) (fun j => K.k x (B.at_ j)) z, v, V, h1, h2, ?_, h3, hv0, hv, h4, h5.trans (add_le_add (add_le_add le_rfl (le_of_eq ?_)) ?_)⟩
  · unfold FlSt.cov
    erw [h1]
    rfl
  · exact sum_congr rfl fun j _ => by rw [hk]; rfl
  · set E := ∑ i, solveErr F lib tr e B.fl.gram (fun j => K.k y (B.fl.at_ j)) i +
      Fintype.card B.fl.s.Idx * (ε + F.u * (M + ε + σ)) * ∑ j, |z j| + ∑ i, |K.k y (B.fl.at_ i) - (P.cross (L (B.fl.at_ i))).1 y| with hE
    have hres : ∑ i, |(B.c.gram.toMat *ᵥ z) i - (B.c.kLas i).1 y| ≤ E := by
      have h7 : ∀ i, |(B.c.gram.toMat *ᵥ z) i - (B.c.kLas i).1 y| ≤
          solveErr F lib tr e B.gram (fun j => K.k y (B.at_ j)) i + |((B.gram.toMat - B.c.gram.toMat) *ᵥ z) i| +
            |K.k y (B.at_ i) - (P.cross (L (B.at_ i))).1 y| := fun i => by
        rw [hk, sub_mulVec, Pi.sub_apply]
        have h8 := h2 i
        set a := (B.gram.toMat *ᵥ z) i
        set a' := (B.c.gram.toMat *ᵥ z) i
        have e5 : a' - (P.cross (L (B.at_ i))).1 y = (a - K.k y (B.at_ i)) + -(a - a') + (K.k y (B.at_ i) - (P.cross (L (B.at_ i))).1 y) := by ring
        rw [e5]
        refine (abs_add_three _ _ _).trans ?_
        rw [abs_neg]
        exact add_le_add (add_le_add h8 le_rfl) le_rfl
      refine (sum_le_sum fun i _ => h7 i).trans ?_
      rw [sum_add_distrib, sum_add_distrib, hE]
      exact add_le_add (add_le_add le_rfl (card_le_sum hB.gerr z)) le_rfl
    have hE0 : 0 ≤ E := (sum_nonneg fun i _ => abs_nonneg _).trans hres
    change _ ≤ _ * E
    rw [← Real.sqrt_sq hE0, ← Real.sqrt_mul (by have := sub_nonneg.2 hv; positivity)]
    refine Real.sqrt_le_sqrt ?_
    have hs : ∑ i, ((B.c.gram.toMat *ᵥ z) i - (B.c.kLas i).1 y) ^ 2 ≤ E ^ 2 := by
      refine le_trans ?_ (pow_le_pow_left₀ (sum_nonneg fun i _ => abs_nonneg _) hres 2)
      simp only [← sq_abs (_ - _ : ℝ)]
      exact sum_sq_le_sq_sum_of_nonneg fun i _ => abs_nonneg _
    rw [mul_div_assoc', div_mul_eq_mul_div]
    exact div_le_div_of_nonneg_right (mul_le_mul_of_nonneg_left hs (sub_nonneg.2 hv)) hτ.le

/-- C92: computed variances may be negative, but not by more than the bound. -/
theorem history_variance (F : Fmt) (slv : Solver) (lib : Lib) {tr : Orders} (htr : ∀ s, FullOpt (tr s)) (e : Env) (he : e.CholOK) (hP : P.Regular)
    (K : FlKer X α) (kk : X → X → ℝ) (L : α → P.Λ) (S : Set α) {ε M σ τ : ℝ} (hε : 0 ≤ ε) (hM0 : 0 ≤ M) (hσ : 0 ≤ σ) (hτ : 0 < τ)
    (hg : ∀ a ∈ S, ∀ b ∈ S, |K.g a b - P.cov (L a) (L b)| ≤ ε) (hM : ∀ a ∈ S, ∀ b ∈ S, |P.cov (L a) (L b)| ≤ M)
    (o : FlObs α) (os : List (FlObs α)) (hC : ∀ o' ∈ o :: os, Covered K S σ o') (hN : NoiseAtLeast τ ((o :: os).map (FlObs.batch L)))
    (hc : (((o :: os).map FlObs.n).sum : ℝ) * (ε + F.u * (M + ε + σ)) < τ) :
    ∃ f, FlSt.run F slv tr K o os = .ok f ∧ ∀ (t : Tree f.s.Idx), t.Full → ∀ x, ∃ z C,
      solveFl F lib tr e f.gram (fun j => K.k x (f.at_ j)) = .ok z ∧ f.cov F lib tr e K kk t x x = .ok C ∧
        let β := gam F (Fintype.card f.s.Idx + 1) * (|kk x x| + ∑ j, |K.k x (f.at_ j)| * |z j|) + |kk x x - P.k x x| +
            ∑ j, |K.k x (f.at_ j) - (P.cross (L (f.at_ j))).1 x| * |z j| +
            √(P.k x x / τ) * (∑ i, solveErr F lib tr e f.gram (fun j => K.k x (f.at_ j)) i +
              Fintype.card f.s.Idx * (ε + F.u * (M + ε + σ)) * ∑ j, |z j| + ∑ i, |K.k x (f.at_ i) - (P.cross (L (f.at_ i))).1 x|);
        -β ≤ C ∧ C ≤ P.k x x + β := by
  obtain ⟨f, c, h1, -, -, h2⟩ := history_cov F slv lib htr e he hP K kk L S hε hM0 hσ hτ hg hM o os hC hN hc
  refine ⟨f, h1, fun t ht x => ?_⟩
  obtain ⟨z, C, v, V, h3, hr, h4, h5, h6, h7, h8, h9⟩ := h2 t ht x x
  obtain rfl := Except.ok.inj (h5.symm.trans h8)
  refine ⟨z, C, h3, h4, ?_⟩
  have hδ : 0 ≤ ε + F.u * (M + ε + σ) := by have := F.u_nonneg; positivity
  set E := ∑ i, solveErr F lib tr e f.gram (fun j => K.k x (f.at_ j)) i +
    Fintype.card f.s.Idx * (ε + F.u * (M + ε + σ)) * ∑ j, |z j| + ∑ i, |K.k x (f.at_ i) - (P.cross (L (f.at_ i))).1 x| with hE
  have hE0 : 0 ≤ E := by
    have h0 : 0 ≤ ∑ i, solveErr F lib tr e f.gram (fun j => K.k x (f.at_ j)) i :=
      sum_nonneg fun i _ => (abs_nonneg _).trans (hr i)
    rw [hE]
    positivity
  have h10 : √((P.k x x - v) / τ) * E ≤ √(P.k x x / τ) * E := by
    refine mul_le_mul_of_nonneg_right (Real.sqrt_le_sqrt ?_) hE0
    exact div_le_div_of_nonneg_right (by linarith) hτ.le
  have h11 := h9.trans (add_le_add le_rfl h10)
  rw [abs_le] at h11
  intro β
  exact ⟨by linarith [h11.1], by linarith [h11.2]⟩

/-- C92: without rounding, with exact factorisations, solves and values of kernels, the computed posterior covariance is the exact one. -/
theorem history_cov_exact {F : Fmt} (hu : F.u = 0) (slv : Solver) {tr : Orders} (htr : ∀ s, FullOpt (tr s)) (e : Env) (he : e.CholOK) (hP : P.Regular)
    {K : FlKer X α} {kk : X → X → ℝ} (L : α → P.Λ) {τ : ℝ} (hτ : 0 < τ) (hg : ∀ a b, K.g a b = P.cov (L a) (L b))
    (hk : ∀ x a, K.k x a = (P.cross (L a)).1 x) (hkk : ∀ x y, kk x y = P.k x y)
    (o : FlObs α) (os : List (FlObs α)) (hb : ∀ o' ∈ o :: os, ∀ i j, o'.bc i j = o'.bc j i)
    (hN : NoiseAtLeast τ ((o :: os).map (FlObs.batch L))) :
    ∃ f c, FlSt.run F slv tr K o os = .ok f ∧ run e (o.batch L) (os.map (FlObs.batch L)) = .ok c ∧
      ∀ (t : Tree f.s.Idx), t.Full → ∀ x y, f.cov F (.exact e) tr e K kk t x y = c.covfunc e x y := by
  obtain ⟨S, hS⟩ : ∃ S : Set α, S = {a | ∃ o' ∈ o :: os, ∃ i, o'.at_ i = a} := ⟨_, rfl⟩
  have hfin : S.Finite := by
    have : S = ⋃ o' ∈ {o' | o' ∈ o :: os}, Set.range o'.at_ := by
      ext a
      simp [hS]
    rw [this]
    exact (List.finite_toSet _).biUnion fun o' _ => Set.finite_range _
  obtain ⟨M, hM⟩ := ((hfin.prod hfin).image fun q => |P.cov (L q.1) (L q.2)|).bddAbove
  obtain ⟨σ, hσ⟩ : ∃ σ, ∀ o' ∈ o :: os, ∀ i j, |o'.bc i j| ≤ σ := by
    have : (⋃ o' ∈ {o' | o' ∈ o :: os}, Set.range fun q : Fin o'.n × Fin o'.n => |o'.bc q.1 q.2|).Finite :=
      (List.finite_toSet _).biUnion fun o' _ => Set.finite_range _
    obtain ⟨σ, h⟩ := this.bddAbove
    exact ⟨σ, fun o' ho' i j => h (Set.mem_biUnion (show o' ∈ {o' | o' ∈ o :: os} from ho') ⟨(i, j), rfl⟩)⟩
  have hM' : ∀ a ∈ S, ∀ b ∈ S, |P.cov (L a) (L b)| ≤ max M 0 := fun a ha b hb => (hM ⟨(a, b), ⟨ha, hb⟩, rfl⟩).trans (le_max_left _ _)
  have hg' : ∀ a ∈ S, ∀ b ∈ S, |K.g a b - P.cov (L a) (L b)| ≤ 0 := fun a _ b _ => by rw [hg, sub_self, abs_zero]
  have hC : ∀ o' ∈ o :: os, Covered K S (max σ 0) o' := fun o' ho' =>
    ⟨fun i => by rw [hS]; exact ⟨o', ho', i, rfl⟩, fun i j => by rw [hg, hg, hP.symm], hb o' ho', fun i j => (hσ o' ho' i j).trans (le_max_left _ _)⟩
  have hδ : (0 : ℝ) + F.u * (max M 0 + 0 + max σ 0) = 0 := by rw [hu]; ring
  have hG : (jG (o.batch L :: os.map (FlObs.batch L))).PosDef := history_gram hP hτ (fun o' ho' => hb o' ho') hN
  obtain ⟨B, e1, hrun, hpd, hB⟩ := history_both F slv htr e he hP K L S le_rfl (le_max_right M 0) (le_max_right σ 0) hτ hg' hM' o os hC hN
    (by rw [hδ, mul_zero]; exact hτ)
  obtain ⟨I⟩ := hB.inv
  have hkL : ∀ j, B.c.kLas j = P.cross (L (B.at_ j)) := fun j => by rw [← hB.Ls, I.Ls, I.kLas]
  have hGr : B.gram.toMat = B.c.gram.toMat := by
    ext i j
    have := hB.gerr i j
    rw [hδ] at this
    exact sub_eq_zero.1 (abs_eq_zero.1 (le_antisymm this (abs_nonneg _)))
  refine ⟨B.fl, B.c, e1, hrun, fun t ht x y => ?_⟩
  obtain ⟨z, h1, h2⟩ := solve_spec e he B.gram (hB.like.spd hpd).valid (col fun j => K.k y (B.at_ j))
  obtain ⟨v, V, h3, h4, h5⟩ := posterior_cov_error F e he hP (o.batch L) (os.map (FlObs.batch L)) hG hτ hN B.c hrun ht x y (kk x y)
    (fun j => K.k x (B.at_ j)) fun i => z i ()
  have h6 : ∀ i, (B.c.gram.toMat *ᵥ fun i => z i ()) i = (B.c.kLas i).1 y := fun i => by
    rw [hkL, ← hk, ← hGr]
    exact congrFun (congrFun h2 i) ()
  rw [h4]
  have h7 : postCov F t (kk x y) (fun j => K.k x (B.at_ j)) (fun i => z i ()) = V := by
    simp only [h6, hkL, hk, hkk, hu, sub_self, abs_zero, zero_mul, mul_zero, sum_const_zero, add_zero, one_pow, zero_div, Real.sqrt_zero,
      ne_eq, OfNat.ofNat_ne_zero, not_false_eq_true, zero_pow] at h5
    simp only [hk, hkk]
    exact sub_eq_zero.1 (abs_eq_zero.1 (le_antisymm h5 (abs_nonneg _)))
  have h8 : solveFl F (.exact e) tr e B.gram (fun j => K.k y (B.at_ j)) = .ok fun i => z i () := by
    rw [solve_exact hu htr, h1]
    rfl
  unfold FlSt.cov
  erw [h8]
  exact congrArg Except.ok h7

end LinPDE.Rounding
