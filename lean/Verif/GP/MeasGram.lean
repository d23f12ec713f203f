import Verif.GP.MessageProps

/-! # C71: the Gram matrices of a process with random right-hand sides and of the joint process -/

namespace LinPDE.GP
open Matrix LinPDE.Block

variable {X ι : Type} [DecidableEq ι] {P : ι → Prior X} {i j : ι}

lemma onComp_zero : onComp P j (0 : (P j).Λ) = 0 := by
  apply Subtype.ext
  ext f
  rfl

/-- The functionals of a step: a part on `f_i`, which is that of the process alone, and a part on `f_j`. -/
lemma meas_parts (hij : i ≠ j) (m : Meas P i j) : ∃ (φ : Fin m.alone.n ≃ Fin m.joint.n) (N : Fin m.alone.n → (P j).Λ),
    (∀ r, m.joint.L (φ r) = onComp P i (m.alone.L r) - onComp P j (N r)) ∧ (∀ r, N r = 0 ∨ N r ∈ m.rhs) ∧
    ∀ r s, gram1 m.joint (φ r) (φ s) = gram1 m.alone r s := by
  cases m with
  | own b =>
    refine ⟨Equiv.refl _, fun _ => 0, fun r => ?_, fun _ => .inl rfl, fun r s => ?_⟩
    · show onComp P i (b.L r) = onComp P i (b.L r) - onComp P j 0
      rw [onComp_zero]
      exact (sub_zero (onComp P i (b.L r))).symm
    · show (indep P).cov (onComp P i (b.L r)) (onComp P i (b.L s)) + (b.onComp i).noiseCov r s = (P i).cov (b.L r) (b.L s) + b.noiseCov r s
      have n1 : (b.onComp i).noiseCov = b.noiseCov := by
        obtain ⟨n, L, noise, Y⟩ := b
        cases noise <;> rfl
      rw [cov_onComp, n1]
  | @equation n L M Y =>
    refine ⟨Equiv.refl _, M, fun r => rfl, fun r => .inr ⟨r, rfl⟩, fun r s => ?_⟩
    show (indep P).cov (onComp P i (L r) - onComp P j (M r)) (onComp P i (L s) - onComp P j (M s)) + 0 =
      (P i).cov (L r) (L s) + (P j).cov (M r) (M s)
    rw [cov_equation hij, add_zero]

lemma snoc_step [Fintype ι] (hP : ∀ i, (P i).Regular) (hij : i ≠ j) (l : List (Batch (P i))) (l' : List (Batch (indep P))) (b : Batch (P i))
    (b' : Batch (indep P)) (φ : Idx l ≃ Idx l') (N : Idx l → (P j).Λ) (A B : Set (P j).Λ)
    (h1 : ∀ a, jL l' (φ a) = onComp P i (jL l a) - onComp P j (N a)) (h2 : ∀ a, N a = 0 ∨ N a ∈ A) (h3 : ∀ a a', jG l' (φ a) (φ a') = jG l a a')
    (σ : Fin b.n ≃ Fin b'.n) (K : Fin b.n → (P j).Λ) (k1 : ∀ r, b'.L (σ r) = onComp P i (b.L r) - onComp P j (K r))
    (k2 : ∀ r, K r = 0 ∨ K r ∈ B) (k3 : ∀ r s, gram1 b' (σ r) (σ s) = gram1 b r s) (hp : ∀ M' ∈ A, ∀ M ∈ B, (P j).cov M M' = 0) :
    ∃ (φ : Idx (l ++ [b]) ≃ Idx (l' ++ [b'])) (N : Idx (l ++ [b]) → (P j).Λ),
      (∀ a, jL (l' ++ [b']) (φ a) = onComp P i (jL (l ++ [b]) a) - onComp P j (N a)) ∧ (∀ a, N a = 0 ∨ N a ∈ A ∨ N a ∈ B) ∧
      ∀ a a', jG (l' ++ [b']) (φ a) (φ a') = jG (l ++ [b]) a a' := by
  let ψ : Idx (l ++ [b]) ≃ Idx (l' ++ [b']) := (snocEquiv l b).symm.trans ((Equiv.sumCongr φ σ).trans (snocEquiv l' b'))
  let N' : Idx (l ++ [b]) → (P j).Λ := fun a => Sum.elim N K ((snocEquiv l b).symm a)
  have q1 : ∀ a, ψ (inlI l b a) = inlI l' b' (φ a) := fun a =>
    congrArg (fun z => snocEquiv l' b' (Equiv.sumCongr φ σ z)) ((snocEquiv l b).symm_apply_apply (.inl a))
  have q2 : ∀ r, ψ (inrI l b r) = inrI l' b' (σ r) := fun r =>
    congrArg (fun z => snocEquiv l' b' (Equiv.sumCongr φ σ z)) ((snocEquiv l b).symm_apply_apply (.inr r))
  have w1 : ∀ a, N' (inlI l b a) = N a := fun a => congrArg (Sum.elim N K) ((snocEquiv l b).symm_apply_apply (.inl a))
  have w2 : ∀ r, N' (inrI l b r) = K r := fun r => congrArg (Sum.elim N K) ((snocEquiv l b).symm_apply_apply (.inr r))
  have hz : ∀ r a, (P j).cov (K r) (N a) = 0 := by
    intro r a
    rcases k2 r with h | h
    · rw [h]
      rfl
    · rcases h2 a with h' | h'
      · rw [h']
        exact ((hP j).symm (K r) 0).trans rfl
      · exact hp _ h' _ h
  have hcross : ∀ r a, (indep P).cov (b'.L (σ r)) (jL l' (φ a)) = (P i).cov (b.L r) (jL l a) := by
    intro r a
    rw [k1, h1, cov_equation hij, hz, add_zero]
  refine ⟨ψ, N', fun a => ?_, fun a => ?_, fun a a' => ?_⟩
  · obtain ⟨a | r, rfl⟩ := (snocEquiv l b).surjective a
    · rw [snocEquiv_inl, q1, jL_inl, jL_inl, h1, w1]
    · rw [snocEquiv_inr, q2, jL_inr, jL_inr, k1, w2]
  · obtain ⟨a | r, rfl⟩ := (snocEquiv l b).surjective a
    · rw [snocEquiv_inl, w1]
      exact (h2 a).imp id .inl
    · rw [snocEquiv_inr, w2]
      exact (k2 r).imp id .inr
  · have g2 := fun a a' => congrFun (congrFun (jG_snoc (indep_regular hP) l' b') a) a'
    have g1 := fun a a' => congrFun (congrFun (jG_snoc (hP i) l b) a) a'
    obtain ⟨a | r, rfl⟩ := (snocEquiv l b).surjective a <;> obtain ⟨a' | r', rfl⟩ := (snocEquiv l b).surjective a'
    · rw [snocEquiv_inl, snocEquiv_inl, q1, q1]
      exact (g2 (.inl (φ a)) (.inl (φ a'))).trans ((h3 a a').trans (g1 (.inl a) (.inl a')).symm)
    · rw [snocEquiv_inl, snocEquiv_inr, q1, q2]
      refine (g2 (.inl (φ a)) (.inr (σ r'))).trans (Eq.trans ?_ (g1 (.inl a) (.inr r')).symm)
      exact hcross r' a
    · rw [snocEquiv_inl, snocEquiv_inr, q1, q2]
      refine (g2 (.inr (σ r)) (.inl (φ a'))).trans (Eq.trans ?_ (g1 (.inr r) (.inl a')).symm)
      exact hcross r a'
    · rw [snocEquiv_inr, snocEquiv_inr, q2, q2]
      refine (g2 (.inr (σ r)) (.inr (σ r'))).trans (Eq.trans ?_ (g1 (.inr r) (.inr r')).symm)
      exact k3 r r'

/-- The two Gram matrices agree. -/
lemma meas_reindex [Fintype ι] (hP : ∀ i, (P i).Regular) (hij : i ≠ j) (ms : List (Meas P i j))
    (hp : ms.Pairwise fun m m' => ∀ M ∈ m'.rhs, ∀ M' ∈ m.rhs, (P j).cov M M' = 0) :
    ∃ (φ : Idx (ms.map Meas.alone) ≃ Idx (ms.map Meas.joint)) (N : Idx (ms.map Meas.alone) → (P j).Λ),
      (∀ a, jL (ms.map Meas.joint) (φ a) = onComp P i (jL (ms.map Meas.alone) a) - onComp P j (N a)) ∧
      (∀ a, N a = 0 ∨ ∃ m ∈ ms, N a ∈ m.rhs) ∧
      ∀ a a', jG (ms.map Meas.joint) (φ a) (φ a') = jG (ms.map Meas.alone) a a' := by
  induction ms using List.reverseRecOn with
  | nil => exact ⟨⟨fun a => a.1.elim0, fun a => a.1.elim0, fun a => a.1.elim0, fun a => a.1.elim0⟩, fun a => a.1.elim0, fun a => a.1.elim0,
      fun a => a.1.elim0, fun a => a.1.elim0⟩
  | append_singleton ms m ih =>
    rw [List.pairwise_append] at hp
    obtain ⟨hp1, -, hp3⟩ := hp
    obtain ⟨φ, N, h1, h2, h3⟩ := ih hp1
    obtain ⟨σ, K, k1, k2, k3⟩ := meas_parts hij m
    obtain ⟨ψ, N', w1, w2, w3⟩ := snoc_step hP hij (ms.map Meas.alone) (ms.map Meas.joint) m.alone m.joint φ N {M | ∃ m ∈ ms, M ∈ m.rhs} m.rhs
      h1 h2 h3 σ K k1 k2 k3 (fun M' ⟨m', hm', h'⟩ M hM => hp3 m' hm' m (by simp) M hM M' h')
    rw [List.map_append, List.map_append]
    refine ⟨ψ, N', w1, fun a => ?_, w3⟩
    rcases w2 a with h | ⟨m', hm', h⟩ | h
    · exact .inl h
    · exact .inr ⟨m', by simp [hm'], h⟩
    · exact .inr ⟨m, by simp, h⟩

/-- C71: for right-hand sides that are uncorrelated between the steps, the joint process can be conditioned exactly when the
process alone can. -/
theorem meas_posDef_iff [Fintype ι] (hP : ∀ i, (P i).Regular) (hij : i ≠ j) (ms : List (Meas P i j))
    (hp : ms.Pairwise fun m m' => ∀ M ∈ m'.rhs, ∀ M' ∈ m.rhs, (P j).cov M M' = 0) :
    (jG (ms.map Meas.joint)).PosDef ↔ (jG (ms.map Meas.alone)).PosDef := by
  obtain ⟨φ, -, -, -, h⟩ := meas_reindex hP hij ms hp
  have e1 : jG (ms.map Meas.alone) = (jG (ms.map Meas.joint)).submatrix φ φ := by
    ext a a'
    rw [submatrix_apply, h]
  have e2 : jG (ms.map Meas.joint) = (jG (ms.map Meas.alone)).submatrix φ.symm φ.symm := by
    rw [e1, submatrix_submatrix]
    simp
  exact ⟨fun h => e1 ▸ h.submatrix φ.injective, fun h => e2 ▸ h.submatrix φ.symm.injective⟩

/-- C71: the result of conditioning with random right-hand sides, through the joint process: both can be conditioned, the output
`i` is the result, and the means of the two outputs satisfy every equation. -/
theorem random_rhs_means [Fintype ι] (hP : ∀ i, (P i).Regular) (hij : i ≠ j) (e : Env) (he : e.CholOK) (m : Meas P i j) (ms : List (Meas P i j))
    (hp : (m :: ms).Pairwise fun m m' => ∀ M ∈ m'.rhs, ∀ M' ∈ m.rhs, (P j).cov M M' = 0)
    (hG : (jG ((m :: ms).map Meas.alone)).PosDef) :
    ∃ u c, run e m.alone (ms.map Meas.alone) = .ok u ∧ run e m.joint (ms.map Meas.joint) = .ok c ∧
      (∀ x, u.mean x = c.mean (i, x)) ∧ (∀ x y, u.covfunc e x y = c.covfunc e (i, x) (i, y)) ∧
      ∃ (g : (P i).F) (h : (P j).F), (∀ x, g.1 x = u.mean x) ∧ (∀ x, h.1 x = c.mean (j, x)) ∧
        (∀ {n : ℕ} (L : Fin n → (P i).Λ) a, u.functlMean L a = (L a).1 g) ∧
        ∀ (n : ℕ) (L : Fin n → (P i).Λ) (M : Fin n → (P j).Λ) (Y : Fin n → ℝ), Meas.equation L M Y ∈ m :: ms →
          ∀ r, (L r).1 g - (M r).1 h = Y r := by
  have hR := indep_regular hP
  have hG' := (meas_posDef_iff hP hij _ hp).mpr hG
  obtain ⟨c, hc, c1, c2⟩ := run_posterior e he hR m.joint (ms.map Meas.joint) hG'
  obtain ⟨u, hu, u1, u2⟩ := run_posterior e he (hP i) m.alone (ms.map Meas.alone) hG
  have hur := uncertain_rhs (P := P) hij e m ms hp
  rw [hc, hu] at hur
  have hcu : c.toCore.comp i = u.toCore := Except.ok.inj hur
  have hm : ∀ x, u.mean x = c.mean (i, x) := fun x => by
    show u.toCore.mean x = _
    rw [← hcu]
    rfl
  set F := postMeanF (m.joint :: ms.map Meas.joint) with hF
  have hFv : ∀ p, F.1 p = c.mean p := fun p => by rw [hF, postMeanF_apply]; exact (c1 p).symm
  refine ⟨u, c, hu, hc, hm, fun x y => ?_, sel P i F, sel P j F, fun x => ?_, fun x => hFv (j, x), fun {n} L a => ?_, fun n L M Y hm' r => ?_⟩
  · show u.toCore.covfunc e x y = _
    rw [← hcu]
    have h : (indep P).k (i, x) (i, y) = (P i).k x y := by
      show (if i = i then (P i).k x y else 0) = _
      rw [if_pos rfl]
    unfold Core.covfunc
    rw [h]
    rfl
  · rw [hm]
    exact hFv (i, x)
  · have h1 := (functl_posterior e he (hP i) m.alone (ms.map Meas.alone) hG u hu L).1 a
    have h2 := (functl_posterior e he hR m.joint (ms.map Meas.joint) hG' c hc fun a => onComp P i (L a)).1 a
    have h3 : u.functlMean L a = c.functlMean (fun a => onComp P i (L a)) a := by
      show u.toCore.functlMean L a = _
      rw [← hcu]
      rfl
    exact h3.trans h2
  · have hmem : equationBatch P i j L M Y ∈ m.joint :: ms.map Meas.joint := by
      have := List.mem_map_of_mem (f := Meas.joint) hm'
      exact this
    exact (exact_row hR hG' hmem rfl r).1

/-- Non-vacuity: `u(0) = 3`, `u(1) - f(0) = 2`, `u(2) - f(1) = 5` for two white processes. -/
example (e : Env) (he : e.CholOK) := random_rhs_means (P := twoWhite) twoWhite_regular (i := true) (j := false) (by decide) e he
  (.equation (n := 1) ![(white_regular ℕ).ev 1] ![(white_regular ℕ).ev 0] ![2]) [.equation (n := 1) ![(white_regular ℕ).ev 2] ![(white_regular ℕ).ev 1] ![5]]
  (by
    simp only [List.pairwise_cons, List.mem_singleton, List.not_mem_nil, false_implies, implies_true, List.Pairwise.nil, and_true]
    rintro _ rfl M ⟨a, rfl⟩ M' ⟨a', rfl⟩
    fin_cases a
    fin_cases a'
    exact (white_ev_cov 1 0).trans (if_neg (by decide)))
  (by
    refine white_posDef _ (fun i => i.1.1 + 1) ?_ ?_ ?_
    · rintro ⟨⟨p, hp⟩, r⟩ ⟨⟨q, hq⟩, s⟩ h
      have h' : p + 1 = q + 1 := h
      obtain rfl : p = q := by omega
      refine Idx.ext' rfl ?_
      have hr := r.2
      have hs := s.2
      match p, hp with
      | 0, _ => have h1 : r.1 < 1 := hr; have h2 : s.1 < 1 := hs; show r.1 = s.1; omega
      | 1, _ => have h1 : r.1 < 1 := hr; have h2 : s.1 < 1 := hs; show r.1 = s.1; omega
      | (n + 2), hp => simp at hp
    · rintro ⟨⟨p, hp⟩, ⟨r, hr⟩⟩
      match p, hp with
      | 0, _ => have h1 : r < 1 := hr; interval_cases r; rfl
      | 1, _ => have h1 : r < 1 := hr; interval_cases r; rfl
      | (n + 2), hp => simp at hp
    · intro b hb
      simp only [List.map_cons, List.map_nil, List.mem_cons, List.not_mem_nil, or_false] at hb
      rcases hb with rfl | rfl
      · exact cov_psd (white_regular ℕ) ![(white_regular ℕ).ev 0]
      · exact cov_psd (white_regular ℕ) ![(white_regular ℕ).ev 1])

end LinPDE.GP
