import Verif.CovAlg.Props

/-!
# When the application succeeds
-/

namespace LinPDE.CovAlg
open LinPDE.Nd LinPDE.Ops
variable {X : Type}

mutual
/-- Kernels built from JAX kernels by scaling, summing and stacking in the other argument. -/
def K.Reg (arg : Bool) : K X → Prop
  | .base _ _ j _ => j = true
  | .scaled k _ => K.Reg arg k
  | .sum _ ks => allReg arg ks
  | .stack _ _ _ idx ks => arg ≠ idx ∧ allReg arg ks
  | .imo .. => False
  | .zero _ => True
/-- Every kernel of a list. -/
def allReg (arg : Bool) : List (K X) → Prop
  | [] => True
  | k :: ks => K.Reg arg k ∧ allReg arg ks
end

lemma allReg_iff (arg : Bool) : ∀ ks : List (K X), allReg arg ks ↔ ∀ m ∈ ks, m.Reg arg
  | [] => by simp [allReg]
  | k :: ks => by simp [allReg, allReg_iff arg ks]

mutual
lemma reg_jax (arg : Bool) : ∀ k : K X, k.Reg arg → k.isJax = true
  | .base _ _ _ _, h => h
  | .scaled k _, h => by rw [K.isJax]; exact reg_jax arg k h
  | .sum _ ks, h => by rw [K.isJax]; exact allReg_jax arg ks h
  | .stack .., _ => rfl
  | .imo .., h => h.elim
  | .zero _, _ => rfl
lemma allReg_jax (arg : Bool) : ∀ ks : List (K X), allReg arg ks → allJax ks = true
  | [], _ => rfl
  | k :: ks, h => by rw [allJax, reg_jax arg k h.1, allReg_jax arg ks h.2]; rfl
end

lemma smul_reg (arg : Bool) (c : ℝ) (k : K X) : (k.smul c).Reg arg ↔ k.Reg arg := by
  cases k <;> simp [K.smul, K.Reg]

lemma expandK_reg (arg : Bool) : ∀ ks : List (K X), (∀ k ∈ ks, k.Reg arg) → ∀ m ∈ expandK ks, m.Reg arg
  | [], _, m, hm => by simp [expandK] at hm
  | k :: ks, hk, m, hm => by
    have ih := expandK_reg arg ks fun n hn => hk n (List.mem_cons_of_mem _ hn)
    have h0 := hk k List.mem_cons_self
    have key : (∃ sh gs, k = .sum sh gs ∧ expandK (k :: ks) = gs ++ expandK ks) ∨ expandK (k :: ks) = k :: expandK ks := by
      cases k <;> simp [expandK]
    rcases key with ⟨sh, gs, rfl, he⟩ | he
    · rw [he] at hm
      rcases List.mem_append.mp hm with hm | hm
      · exact (allReg_iff arg gs).mp h0 m hm
      · exact ih m hm
    · rw [he] at hm
      rcases List.mem_cons.mp hm with rfl | hm
      · exact h0
      · exact ih m hm

lemma mkJaxSum_total (arg : Bool) (ks : List (K X)) (sh : KSh) (hne : ks ≠ []) (hr : ∀ k ∈ ks, k.Reg arg)
    (hs : ∀ k ∈ ks, k.sh = sh) : ∃ k, mkJaxSum ks = .ok k ∧ k.Reg arg := by
  cases ks with
  | nil => exact absurd rfl hne
  | cons m ms =>
    refine ⟨.sum m.sh (expandK (m :: ms)), ?_, ?_⟩
    · unfold mkJaxSum
      rw [if_pos (allReg_jax arg _ ((allReg_iff arg _).mpr hr)), mkPnSum, if_pos]
      simp only [List.all_eq_true, decide_eq_true_eq]
      intro n hn
      rw [hs n hn, hs m List.mem_cons_self]
    · rw [K.Reg, allReg_iff]
      exact expandK_reg arg _ hr

lemma add_total (arg : Bool) (k m : K X) (hk : k.Reg arg) (hm : m.Reg arg) (hs : m.sh = k.sh) :
    ∃ n, k.add m = .ok n ∧ n.Reg arg := by
  unfold K.add
  rw [if_pos (reg_jax arg k hk)]
  refine mkJaxSum_total arg [k, m] k.sh (by simp) ?_ ?_
  · intro x hx; rcases List.mem_pair.mp hx with rfl | rfl <;> assumption
  · intro x hx; rcases List.mem_pair.mp hx with rfl | rfl
    · rfl
    · exact hs

lemma wrap_own {h : H X} {k : K X} {g r : Except Err (K X)} (ho : h.own k = some r) : h.wrap k g = r := by
  unfold H.wrap; rw [ho]

lemma wrap_noRule {h : H X} {k : K X} {arg : Bool} (hf : Fit h.i arg k) (ho : h.own k = none) :
    h.wrap k (h.noRule k arg) = h.rescue k := by
  have h2 : h.noRule k arg = .error .notImplemented := by
    unfold H.noRule
    split_ifs
    · rw [validate_ok _ _ _ hf]; rfl
    · rfl
  unfold H.wrap; rw [ho, h2]

/-- The class answers for JAX base kernels and passes composite kernels on (or returns them). -/
structure H.Tot (h : H X) (s : Option Shp) (arg : Bool) : Prop where
  base : ∀ sh cls ev, Fit h.i arg (.base sh cls true ev : K X) → Side s arg (.base sh cls true ev : K X) →
    ∃ k', h.call arg (.base sh cls true ev) = .ok k' ∧ k'.Reg arg
  other : ∀ k : K X, (∃ sh cls j ev, k = .base sh cls j ev) ∨ h.own k = none ∨ h.own k = some (.ok k)

lemma other_cases {h : H X} {s : Option Shp} {arg : Bool} (ht : h.Tot s arg) {k : K X} {g : Except Err (K X)}
    (hk : ¬∃ sh cls j ev, k = .base sh cls j ev) (hr : k.Reg arg) (hg : ∃ k', g = .ok k' ∧ k'.Reg arg) :
    ∃ k', h.wrap k g = .ok k' ∧ k'.Reg arg := by
  rcases ht.other k with h1 | h1 | h1
  · exact absurd h1 hk
  · obtain ⟨k', rfl, h3⟩ := hg
    exact ⟨k', by simp [H.wrap, h1], h3⟩
  · exact ⟨k, by simp [H.wrap, h1], hr⟩

mutual
lemma call_total (h : H X) (T : Val X →ₗ[ℝ] Val X) (s : Option Shp) (arg : Bool) (hs : h.Sound T s arg) (ht : h.Tot s arg)
    (ho : h.o.2 = []) : ∀ k : K X, k.Reg arg → k.WF → Fit h.i arg k → Side s arg k →
      ∃ k', h.call arg k = .ok k' ∧ k'.Reg arg
  | .base sh cls j ev, hr, hw, hf, hp => by
    have hj : j = true := hr
    subst hj
    exact ht.base sh cls ev hf hp
  | .scaled m c, hr, hw, hf, hp => by
    rw [H.call]
    refine other_cases ht (by simp) hr ?_
    obtain ⟨m', h1, h2⟩ := call_total h T s arg hs ht ho m hr hw hf hp
    refine ⟨m'.smul c, ?_, (smul_reg arg c m').mpr h2⟩
    rw [if_pos (reg_jax arg m hr), validate_ok _ _ _ hf, h1]
    rfl
  | .sum sh ks, hr, hw, hf, hp => by
    rw [H.call]
    refine other_cases ht (by simp) hr ?_
    have hsh : ∀ m ∈ ks, m.sh = (K.sum sh ks).sh := hw.2.1
    have hf' : ∀ m ∈ ks, Fit h.i arg m := fun m hm => by unfold Fit; rw [hsh m hm]; exact hf
    have hp' : ∀ m ∈ ks, Side s arg m := fun m hm d hd => by
      have := hp d hd
      rw [hsh m hm]
      exact ⟨(allSafe_iff arg ks).mp this.1 m hm, this.2⟩
    obtain ⟨ks', h1, h2⟩ := callAll_total h T s arg hs ht ho ks hr ((allWF_iff ks).mp hw.2.2) hf' hp'
    have hg := callAll_good h T s arg hs ks ks' h1 ((allWF_iff ks).mp hw.2.2) hf' hp'
    obtain ⟨k', h3, h4⟩ := mkJaxSum_total arg ks' (sh.set arg h.o)
      (fun hc => hw.1 (List.length_eq_zero_iff.mp (by rw [hg.length_eq, hc]; rfl))) h2 fun m hm => by
        obtain ⟨k, hk, hgk⟩ := forall2_mem hg m hm
        rw [hgk.sh, hsh k hk]; rfl
    refine ⟨k', ?_, h4⟩
    rw [if_pos (allReg_jax arg ks hr), validate_ok _ _ _ hf, h1]
    exact h3
  | .stack i0 i1 sp idx ks, hr, hw, hf, hp => by
    rw [H.call]
    refine other_cases ht (by simp) hr ?_
    have hsh := hw.2.2.1
    have ho' := hr.1
    have hf' : ∀ m ∈ ks, Fit h.i arg m := fun m hm => by
      unfold Fit; rw [hsh m hm]
      clear hp hs hsh ht hw
      revert hf ho'
      unfold Fit
      cases arg <;> cases idx <;> simp [K.sh, KSh.inA, KSh.outA]
    have hp' : ∀ m ∈ ks, Side s arg m := fun m hm d hd => by
      have := hp d hd
      rw [hsh m hm]
      refine ⟨(allSafe_iff arg ks).mp this.1.2 m hm, ?_⟩
      rw [← this.2]
      cases arg <;> rfl
    obtain ⟨ks', h1, h2⟩ := callAll_total h T s arg hs ht ho ks hr.2 ((allWF_iff ks).mp hw.2.2.2) hf' hp'
    have hg := callAll_good h T s arg hs ks ks' h1 ((allWF_iff ks).mp hw.2.2.2) hf' hp'
    have hsh' : ∀ m ∈ ks', m.sh = (⟨i0, i1, [], []⟩ : KSh).set arg h.o := fun m hm => by
      obtain ⟨k, hk, hgk⟩ := forall2_mem hg m hm
      rw [hgk.sh, hsh k hk]
    have hout : ((⟨i0, i1, [], []⟩ : KSh).set arg h.o).out0 = [] ∧ ((⟨i0, i1, [], []⟩ : KSh).set arg h.o).out1 = [] := by
      cases arg <;> simp [KSh.set, ho]
    have hst : ∃ k', mkStack sp ks' idx = .ok k' ∧ k'.Reg arg := by
      cases ks' with
      | nil => exact absurd (List.length_eq_zero_iff.mp (by rw [hg.length_eq]; rfl)) hw.2.1
      | cons m ms =>
        refine ⟨.stack m.sh.in0 m.sh.in1 sp idx (m :: ms), ?_, ⟨ho', (allReg_iff arg _).mpr h2⟩⟩
        have hm := hsh' m List.mem_cons_self
        rw [mkStack, if_neg, if_neg, if_neg]
        all_goals
          simp only [List.all_eq_true, decide_eq_true_eq, not_not]
          intro n hn
          rw [hsh' n hn]
        · exact hout
        · rw [hm]
        · rw [hm]
    obtain ⟨k', h3, h4⟩ := hst
    refine ⟨k', ?_, h4⟩
    rw [validate_ok _ _ _ hf]
    show (if arg ≠ idx then _ else _) = _
    rw [if_pos ho', h1]
    exact h3
  | .imo .., hr, _, _, _ => hr.elim
  | .zero sh, hr, hw, hf, hp => by
    rw [H.call]
    refine other_cases ht (by simp) hr ⟨.zero (sh.set arg h.o), ?_, trivial⟩
    rw [validate_ok _ _ _ hf]
    rfl
lemma callAll_total (h : H X) (T : Val X →ₗ[ℝ] Val X) (s : Option Shp) (arg : Bool) (hs : h.Sound T s arg)
    (ht : h.Tot s arg) (ho : h.o.2 = []) : ∀ ks : List (K X), allReg arg ks → (∀ k ∈ ks, k.WF) →
      (∀ k ∈ ks, Fit h.i arg k) → (∀ k ∈ ks, Side s arg k) → ∃ ks', callAll h arg ks = .ok ks' ∧ ∀ k ∈ ks', k.Reg arg
  | [], _, _, _, _ => ⟨[], by simp [callAll], by simp⟩
  | k :: ks, hr, hw, hf, hp => by
    obtain ⟨k', h1, h2⟩ := call_total h T s arg hs ht ho k hr.1 (hw k List.mem_cons_self) (hf k List.mem_cons_self)
      (hp k List.mem_cons_self)
    obtain ⟨ks', h3, h4⟩ := callAll_total h T s arg hs ht ho ks hr.2 (fun m hm => hw m (List.mem_cons_of_mem _ hm))
      (fun m hm => hf m (List.mem_cons_of_mem _ hm)) fun m hm => hp m (List.mem_cons_of_mem _ hm)
    refine ⟨k' :: ks', by rw [callAll, h1, h3]; rfl, fun m hm => ?_⟩
    rcases List.mem_cons.mp hm with rfl | hm
    · exact h2
    · exact h4 m hm
end

/-- The closed forms of a class are JAX kernels. -/
def JaxClosed (closed : ℕ → Bool → Option (ℕ × Bool)) : Prop := ∀ c a c' j, closed c a = some (c', j) → j = true

lemma ownClosed_base {i o : Shapes} {T : Val X →ₗ[ℝ] Val X} {closed : ℕ → Bool → Option (ℕ × Bool)} (hc : JaxClosed closed)
    (arg : Bool) (sh : KSh) (cls : ℕ) (j : Bool) (ev : KVal X) (hf : Fit i arg (.base sh cls j ev)) :
    ownClosed i o T closed arg (.base sh cls j ev) = none ∨
      ∃ k', ownClosed i o T closed arg (.base sh cls j ev) = some (.ok k') ∧ k'.Reg arg := by
  rcases h : closed cls arg with _ | ⟨c', j'⟩
  · left; simp [ownClosed, h]
  · right
    refine ⟨.base (sh.set arg o) c' j' (act T arg ev), ?_, hc _ _ _ _ h⟩
    simp [ownClosed, h, validate_ok _ _ _ hf, bind, Except.bind]

lemma ownClosed_other {i o : Shapes} {T : Val X →ₗ[ℝ] Val X} {closed : ℕ → Bool → Option (ℕ × Bool)} (arg : Bool) (k : K X)
    (hk : ¬∃ sh cls j ev, k = .base sh cls j ev) : ownClosed i o T closed arg k = none := by
  cases k with
  | base sh cls j ev => exact absurd ⟨_, _, _, _, rfl⟩ hk
  | _ => rfl

lemma pd_own_base (D : PD X) (hc : JaxClosed D.closed) (arg : Bool) (sh : KSh) (cls : ℕ) (ev : KVal X)
    (hf : Fit (D.dom, []) arg (.base sh cls true ev)) :
    D.own arg (.base sh cls true ev) = none ∨ ∃ k', D.own arg (.base sh cls true ev) = some (.ok k') ∧ k'.Reg arg := by
  unfold PD.own
  rcases ownClosed_base (T := D.T) (o := (D.dom, [])) hc arg sh cls true ev hf with h | ⟨k', h, hr⟩
  · rw [h]
    dsimp only
    split_ifs
    · exact .inr ⟨_, rfl, rfl⟩
    · exact .inl rfl
  · rw [h]
    exact .inr ⟨k', rfl, hr⟩

lemma pd_own_other (D : PD X) (arg : Bool) (k : K X) (hk : ¬∃ sh cls j ev, k = .base sh cls j ev) :
    D.own arg k = none ∨ D.own arg k = some (.ok k) := by
  unfold PD.own
  rw [ownClosed_other arg k hk]
  dsimp only
  split_ifs
  · exact .inr rfl
  · exact .inl rfl

lemma pd_tot (D : PD X) (hc : JaxClosed D.closed) (arg : Bool) (s : Option Shp) : (D.h arg).Tot s arg where
  base sh cls ev hf hp := by
    rw [H.call]
    rcases pd_own_base D hc arg sh cls ev hf with h | ⟨k', h, hr⟩
    · refine ⟨jaxFallback D.dom D.T arg (.base sh cls true ev), ?_, rfl⟩
      have h' : (D.h arg).own (.base sh cls true ev) = none := h
      rw [wrap_noRule hf h']
      rfl
    · exact ⟨k', wrap_own h, hr⟩
  other k := by
    by_cases hk : ∃ sh cls j ev, k = .base sh cls j ev
    · exact .inl hk
    · exact .inr (pd_own_other D arg k hk)

/-- Result of a step that may be missing but never fails otherwise. -/
def OkOrNi (arg : Bool) (sh : KSh) (r : Except Err (K X)) : Prop :=
  r = .error .notImplemented ∨ ∃ k, r = .ok k ∧ k.Reg arg ∧ k.sh = sh

lemma fold_okni {α : Type} (arg : Bool) (sh : KSh) (f : α → Except Err (K X)) : ∀ (as : List α) (acc : K X),
    (∀ a ∈ as, OkOrNi arg sh (f a)) → acc.Reg arg → acc.sh = sh → OkOrNi arg sh (as.foldlM (fun acc b => do
        let m ← f b
        acc.add m) acc)
  | [], acc, _, hr, hs => .inr ⟨acc, rfl, hr, hs⟩
  | a :: as, acc, hf, hr, hs => by
    rw [List.foldlM_cons]
    rcases hf a List.mem_cons_self with h | ⟨m, h, hmr, hms⟩
    · left; rw [h]; rfl
    · obtain ⟨n, h1, h2⟩ := add_total arg acc m hr hmr (by rw [hms, hs])
      have h3 : n.sh = sh := by
        have := add_spec _ _ _ h1
        rw [mkPnSum] at this
        split_ifs at this
        cases this
        exact hs
      have h4 : (f a >>= fun m => acc.add m) = .ok n := by rw [h]; exact h1
      rw [h4]
      exact fold_okni arg sh f as n (fun b hb => hf b (List.mem_cons_of_mem _ hb)) h2 h3

lemma reduce_okni {α : Type} (arg : Bool) (sh : KSh) (f : α → Except Err (K X)) (as : List α) (hne : as ≠ [])
    (hf : ∀ a ∈ as, OkOrNi arg sh (f a)) : OkOrNi arg sh (reduceK f as) := by
  cases as with
  | nil => exact absurd rfl hne
  | cons a as =>
    rw [reduceK]
    rcases hf a List.mem_cons_self with h | ⟨m, h, hmr, hms⟩
    · left; rw [h]; rfl
    · rw [h]
      exact fold_okni arg sh f as m (fun b hb => hf b (List.mem_cons_of_mem _ hb)) hmr hms

/-- Requirements for totality on top of `Diff.OK`: its own JAX fallback, at least one term, JAX closed forms. -/
structure Diff.Full (D : Diff X) : Prop where
  custom : D.custom = true
  closed : JaxClosed D.closed
  terms : D.terms ≠ [] ∧ ∀ t ∈ D.terms, t.2 ≠ []
  pds : ∀ t ∈ D.terms, ∀ u ∈ t.2, JaxClosed u.1.closed

lemma diff_tot (D : Diff X) (hD : D.OK) (hF : D.Full) (arg : Bool) (s : Option Shp) : (D.h arg).Tot s arg where
  base sh cls ev hf hp := by
    rw [H.call]
    rcases ownClosed_base (T := D.T) (o := (D.i.1, [])) hF.closed arg sh cls true ev hf with h | ⟨k', h, hr⟩
    · have h' : (D.h arg).own (.base sh cls true ev) = none := h
      rw [wrap_noRule hf h']
      show ∃ k', (D.h arg).rescue _ = _ ∧ _
      have hi := hD.custom hF.custom
      have key : OkOrNi arg (sh.set arg (D.i.1, [])) (D.toSumNoJax arg (.base sh cls true ev)) := by
        unfold Diff.toSumNoJax
        rw [if_neg (by
          push Not
          exact hF.terms)]
        refine reduce_okni arg _ _ _ hF.terms.1 fun t ht => reduce_okni arg _ _ _ (hF.terms.2 t ht) fun u hu => ?_
        obtain ⟨hpd, hdom⟩ := hD.pds t ht u hu
        have ht0 : t.1 = [] := by
          have := hD.fits t ht
          rw [hi] at this
          cases hl : t.1 with
          | nil => rfl
          | cons a b => rw [hl] at this; exact this.elim
        have hf' : Fit (u.1.dom, []) arg (.base sh cls true ev : K X) := by
          have h1 := hf.1
          have h2 := hf.2
          exact ⟨by rw [h1, hdom]; rfl, by rw [h2]; exact hi⟩
        have hsum : D.summand arg (.base sh cls true ev) t.1 u = ((u.1.hNoJax arg).call arg (.base sh cls true ev) >>=
            fun m' => .ok (m'.smul u.2)) := by
          unfold Diff.summand Diff.entry
          rw [if_pos ht0]; rfl
        rw [hsum, H.call]
        rcases pd_own_base u.1 (hF.pds t ht u hu) arg sh cls ev hf' with h | ⟨k', h, hr⟩
        · left
          have h' : (u.1.hNoJax arg).own (.base sh cls true ev) = none := h
          rw [wrap_noRule hf' h']
          rfl
        · right
          have hg := pdOwn_good hpd h trivial hf'
          refine ⟨k'.smul u.2, ?_, (smul_reg arg _ _).mpr hr, ?_⟩
          · rw [wrap_own (show (u.1.hNoJax arg).own (.base sh cls true ev) = some (.ok k') from h)]; rfl
          · rw [(smul_spec u.2 k').1, hg.sh, hdom]; rfl
      rcases key with h | ⟨k', h, hr, _⟩
      · refine ⟨jaxFallback D.i.1 D.T arg (.base sh cls true ev), ?_, rfl⟩
        simp [Diff.h, h, hF.custom, K.isJax]
      · exact ⟨k', by simp [Diff.h, h], hr⟩
    · exact ⟨k', wrap_own h, hr⟩
  other k := by
    by_cases hk : ∃ sh cls j ev, k = .base sh cls j ev
    · exact .inl hk
    · exact .inr (.inl (ownClosed_other arg k hk))

mutual
/-- Operators built from partial derivatives and differential operators with their own JAX fallback. -/
def LOp.Full : LOp X → Prop
  | .ident _ => True
  | .select .. => False
  | .gen _ => False
  | .pd D => JaxClosed D.closed
  | .diff D => D.Full
  | .scaled L _ => LOp.Full L
  | .sum Ls => fullAll Ls
  | .comp Ls => fullAll Ls
/-- Every operator of a list. -/
def fullAll : List (LOp X) → Prop
  | [] => True
  | L :: Ls => LOp.Full L ∧ fullAll Ls
end

mutual
/-- Every such operator expression applies to every JAX kernel expression of fitting shapes without multiple outputs in that
argument. -/
theorem apply_total (s : Option Shp) (arg : Bool) : ∀ (L : LOp X) (i o : Shapes) (k : K X), L.Typed i o → L.Doms s → L.Full →
    k.WF → k.Reg arg → Fit i arg k → Side s arg k → ∃ k', L.call arg k = .ok k' ∧ k'.Reg arg
  | .ident t, i, o, k, ht, _, _, hw, hr, hf, hs => by
    obtain ⟨rfl, rfl⟩ := ht
    refine ⟨k, ?_, hr⟩
    rw [LOp.call]
    have : (identH t arg : H X).own k = some (.ok k) := by
      simp [identH, validate_ok _ _ _ hf, bind, Except.bind]
    cases k <;> (rw [H.call]; exact wrap_own this)
  | .select .., _, _, _, _, _, h, _, _, _, _ => h.elim
  | .gen _, _, _, _, _, _, h, _, _, _, _ => h.elim
  | .pd D, i, o, k, ht, hd, hF, hw, hr, hf, hs => by
    obtain ⟨rfl, rfl, hl⟩ := ht
    rw [LOp.Doms] at hd
    subst hd
    rw [LOp.call]
    exact call_total _ _ _ arg (pd_sound D hl arg) (pd_tot D hF arg _) rfl k hr hw hf hs
  | .diff D, i, o, k, ht, hd, hF, hw, hr, hf, hs => by
    obtain ⟨rfl, rfl, hl⟩ := ht
    rw [LOp.Doms] at hd
    subst hd
    rw [LOp.call]
    exact call_total _ _ _ arg (diff_sound D hl arg) (diff_tot D hl hF arg _) rfl k hr hw hf hs
  | .scaled L c, i, o, k, ht, hd, hF, hw, hr, hf, hs => by
    obtain ⟨m, h1, h2⟩ := apply_total s arg L i o k ht hd hF hw hr hf hs
    exact ⟨m.smul c, by rw [LOp.call, h1]; rfl, (smul_reg arg c m).mpr h2⟩
  | .sum Ls, i, o, k, ht, hd, hF, hw, hr, hf, hs => by
    rw [LOp.call]
    exact reduce_total s arg Ls i o k ht.1 ht.2 hd hF hw hr hf hs
  | .comp Ls, i, o, k, ht, hd, hF, hw, hr, hf, hs => by
    rw [LOp.call]
    exact seq_total s arg Ls i o k ht hd hF hw hr hf hs
/-- Sums. -/
theorem reduce_total (s : Option Shp) (arg : Bool) : ∀ (Ls : List (LOp X)) (i o : Shapes) (k : K X), Ls ≠ [] → typedAll Ls i o →
    domsAll s Ls → fullAll Ls → k.WF → k.Reg arg → Fit i arg k → Side s arg k →
    ∃ k', reduceOps arg none Ls k = .ok k' ∧ k'.Reg arg
  | [], _, _, _, h, _, _, _, _, _, _, _ => absurd rfl h
  | L :: Ls, i, o, k, _, ht, hd, hF, hw, hr, hf, hs => by
    obtain ⟨m, h1, h2⟩ := apply_total s arg L i o k ht.1 hd.1 hF.1 hw hr hf hs
    have hg := apply_correct s arg L i o k m ht.1 hd.1 hw hf hs h1
    obtain ⟨k', h3, h4⟩ := acc_total s arg Ls i o k m ht.2 hd.2 hF.2 hw hr hf hs h2 hg.sh
    exact ⟨k', by rw [reduceOps, h1]; exact h3, h4⟩
/-- Sums with the part already added up. -/
theorem acc_total (s : Option Shp) (arg : Bool) : ∀ (Ls : List (LOp X)) (i o : Shapes) (k acc : K X), typedAll Ls i o →
    domsAll s Ls → fullAll Ls → k.WF → k.Reg arg → Fit i arg k → Side s arg k → acc.Reg arg → acc.sh = k.sh.set arg o →
    ∃ k', reduceOps arg (some acc) Ls k = .ok k' ∧ k'.Reg arg
  | [], _, _, _, acc, _, _, _, _, _, _, _, h, _ => ⟨acc, by rw [reduceOps], h⟩
  | L :: Ls, i, o, k, acc, ht, hd, hF, hw, hr, hf, hs, ha, hsh => by
    obtain ⟨m, h1, h2⟩ := apply_total s arg L i o k ht.1 hd.1 hF.1 hw hr hf hs
    have hg := apply_correct s arg L i o k m ht.1 hd.1 hw hf hs h1
    obtain ⟨n, h3, h4⟩ := add_total arg acc m ha h2 (by rw [hsh, hg.sh])
    have h5 : n.sh = k.sh.set arg o := by
      have := add_spec _ _ _ h3
      rw [mkPnSum] at this
      split_ifs at this
      cases this
      exact hsh
    obtain ⟨k', h6, h7⟩ := acc_total s arg Ls i o k n ht.2 hd.2 hF.2 hw hr hf hs h4 h5
    refine ⟨k', ?_, h7⟩
    rw [reduceOps, h1]
    show (acc.add m >>= _) = _
    rw [h3]
    exact h6
/-- Compositions. -/
theorem seq_total (s : Option Shp) (arg : Bool) : ∀ (Ls : List (LOp X)) (i o : Shapes) (k : K X), typedSeq Ls i o →
    domsAll s Ls → fullAll Ls → k.WF → k.Reg arg → Fit i arg k → Side s arg k →
    ∃ k', callSeq arg Ls k = .ok k' ∧ k'.Reg arg
  | [], _, _, k, _, _, _, _, hr, _, _ => ⟨k, by rw [callSeq], hr⟩
  | L :: Ls, i, o, k, ht, hd, hF, hw, hr, hf, hs => by
    obtain ⟨m, h1, h2⟩ := ht
    obtain ⟨k1, h3, h4⟩ := seq_total s arg Ls i m k h1 hd.2 hF.2 hw hr hf hs
    have hg := seq_correct s arg Ls i m k k1 h1 hd.2 hw hf hs h3
    obtain ⟨k', h5, h6⟩ := apply_total s arg L m o k1 h2 hd.1 hF.1 hg.wf h4 (fit_good hg) (side_good hg hs)
    exact ⟨k', by rw [callSeq, h3]; exact h5, h6⟩
end

end LinPDE.CovAlg
