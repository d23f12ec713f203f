import Verif.XCov.FunctlProps

/-!
# Functionals applied to covariance functions: the call returns, and the values of both views
-/

namespace LinPDE.XCov
open LinPDE.Nd LinPDE.Ops LinPDE.CovAlg LinPDE.Covar
variable {X : Type}

lemma fold_total (i o r : Shp) (v : Bool) : ∀ (cs : List (PV X)) (c : PV X), (c.inS = i ∧ c.outS = o ∧ c.rv = r ∧ c.rev = v) →
    (∀ d ∈ cs, d.inS = i ∧ d.outS = o ∧ d.rv = r ∧ d.rev = v) → ∃ d, cs.foldlM PV.add c = .ok d
  | [], c, _, _ => ⟨c, rfl⟩
  | c' :: cs, c, hc, h => by
    obtain ⟨h1, h2, h3, h4⟩ := hc
    obtain ⟨g1, g2, g3, g4⟩ := h c' List.mem_cons_self
    have ha : c.add c' = .ok (.sum c.inS c.outS c.rv c.rev [c, c']) := by
      unfold PV.add
      rw [if_pos ⟨by rw [g1, h1], by rw [g2, h2], by rw [g3, h3], by rw [g4, h4]⟩]
    obtain ⟨d, hd⟩ := fold_total i o r v cs (.sum c.inS c.outS c.rv c.rev [c, c']) ⟨h1, h2, h3, h4⟩
      fun e he => h e (List.mem_cons_of_mem _ he)
    exact ⟨d, by rw [List.foldlM_cons, ha]; exact hd⟩

lemma reduce_total (i o r : Shp) (v : Bool) {cs : List (PV X)} (hne : cs ≠ [])
    (h : ∀ d ∈ cs, d.inS = i ∧ d.outS = o ∧ d.rv = r ∧ d.rev = v) : ∃ d, reducePV cs = .ok d := by
  cases cs with
  | nil => exact absurd rfl hne
  | cons c cs => exact fold_total i o r v cs c (h c List.mem_cons_self) fun e he => h e (List.mem_cons_of_mem _ he)

lemma mkStackPV_total (s i r : Shp) (v : Bool) {cs : List (PV X)} (hne : cs ≠ [])
    (h : ∀ d ∈ cs, d.inS = i ∧ d.outS = [] ∧ d.rv = r ∧ d.rev = v) : ∃ d, mkStackPV s cs = .ok d := by
  cases cs with
  | nil => exact absurd rfl hne
  | cons c cs =>
    obtain ⟨c1, c2, c3, c4⟩ := h c List.mem_cons_self
    have all : ∀ P : PV X → Bool, (∀ d ∈ c :: cs, P d = true) → (c :: cs).all P = true := fun P hP => List.all_eq_true.mpr hP
    unfold mkStackPV
    dsimp only
    rw [if_neg (not_not.mpr (all _ fun d hd => by simp [(h d hd).1, c1])),
      if_neg (not_not.mpr (all _ fun d hd => by simp [(h d hd).2.1])),
      if_neg (not_not.mpr (all _ fun d hd => by simp [(h d hd).2.2.1, c3])),
      if_neg (not_not.mpr (all _ fun d hd => by simp [(h d hd).2.2.2, c4]))]
    exact ⟨_, rfl⟩

mutual
/-- Integrals and projections of scalar functions can be applied to every kernel of the right shapes. -/
theorem bfn_total (b : BFn X) (arg : Bool) (hq : b.quad = true) (hi : b.i.2 = []) (hT : FLoc b.i.2 b.o b.T) : ∀ (k : K X), k.WF →
    k.Safe arg → Fit b.i arg k → ∃ c, b.call arg k = .ok c
  | .base sh cls j ev, _, _, hf => by
    rw [BFn.call]
    unfold BFn.noRule
    have h1 := (chk_iff _ _ _).mpr hf
    by_cases hc : b.closed cls arg = true
    · exact ⟨_, by simp only [hq, if_true, h1, hc, bind, Except.bind]; rfl⟩
    · exact ⟨_, by simp only [hq, if_true, h1, bind, Except.bind, if_neg hc, hi, ne_eq, not_true, if_false]; rfl⟩
  | .scaled m s, hw, hs, hf => by
    obtain ⟨c, hc⟩ := bfn_total b arg hq hi hT m hw hs hf
    exact ⟨.scaled c s, by rw [BFn.call]; simp only [(chk_iff _ _ _).mpr hf, hc, bind, Except.bind]⟩
  | .sum sh ks, hw, hs, hf => by
    obtain ⟨hne, hsh, hwf⟩ := hw
    have hw' := (allWF_iff ks).mp hwf
    have hs' := (allSafe_iff arg ks).mp hs
    obtain ⟨cs, hcs⟩ := bfnAll_total b arg hq hi hT ks hw' hs' fun k hk => by
      have e := hsh k hk
      exact ⟨by rw [e]; exact hf.1, by rw [e]; exact hf.2⟩
    have hall := bfnAll_correct b arg hT ks cs hw' hs' hcs
    have hlen := hall.length_eq
    obtain ⟨d, hd⟩ := reduce_total (sh.inA (!arg)) (sh.outA (!arg)) b.o (!arg) (cs := cs)
      (by intro h0; rw [h0] at hlen; exact hne (List.length_eq_zero_iff.mp hlen)) fun c hc => by
        obtain ⟨k, hk, hg⟩ := forall2_mem' hall c hc
        have e := hsh k hk
        exact ⟨by rw [hg.inS, e], by rw [hg.outS, e], hg.rv, hg.rev⟩
    exact ⟨d, by rw [BFn.call]; simp only [(chk_iff _ _ _).mpr hf, hcs, bind, Except.bind]; exact hd⟩
  | .stack i0 i1 s idx ks, hw, hs, hf => by
    obtain ⟨hl, hne, hsh, hwf⟩ := hw
    have hw' := (allWF_iff ks).mp hwf
    have hs' := (allSafe_iff arg ks).mp hs.2
    obtain ⟨cs, hcs⟩ := bfnAll_total b arg hq hi hT ks hw' hs' fun k hk => by
      have e := hsh k hk
      refine ⟨?_, ?_⟩
      · rw [e, ← hf.1]; cases arg <;> rfl
      · rw [e, hi]; cases arg <;> rfl
    have hall := bfnAll_correct b arg hT ks cs hw' hs' hcs
    have hlen := hall.length_eq
    obtain ⟨d, hd⟩ := mkStackPV_total s (if !arg then i1 else i0) b.o (!arg) (cs := cs)
      (by intro h0; rw [h0] at hlen; exact hne (List.length_eq_zero_iff.mp hlen)) fun c hc => by
        obtain ⟨k, hk, hg⟩ := forall2_mem' hall c hc
        have e := hsh k hk
        refine ⟨?_, ?_, hg.rv, hg.rev⟩
        · rw [hg.inS, e]; cases arg <;> rfl
        · rw [hg.outS, e]; cases arg <;> rfl
    exact ⟨d, by rw [BFn.call]; simp only [(chk_iff _ _ _).mpr hf, hcs, bind, Except.bind]; exact hd⟩
  | .imo i ks, _, _, hf => by
    have := hf.2
    rw [hi] at this
    cases arg <;> simp [K.sh, KSh.outA] at this
  | .zero sh, _, _, hf => ⟨_, by rw [BFn.call]; simp only [(chk_iff _ _ _).mpr hf, bind, Except.bind]; rfl⟩
/-- Every part. -/
theorem bfnAll_total (b : BFn X) (arg : Bool) (hq : b.quad = true) (hi : b.i.2 = []) (hT : FLoc b.i.2 b.o b.T) :
    ∀ (ks : List (K X)), (∀ k ∈ ks, k.WF) → (∀ k ∈ ks, k.Safe arg) → (∀ k ∈ ks, Fit b.i arg k) → ∃ cs, b.callAll arg ks = .ok cs
  | [], _, _, _ => ⟨[], by rw [BFn.callAll]⟩
  | k :: ks, hw, hs, hf => by
    obtain ⟨c, h1⟩ := bfn_total b arg hq hi hT k (hw k List.mem_cons_self) (hs k List.mem_cons_self) (hf k List.mem_cons_self)
    obtain ⟨cs, h2⟩ := bfnAll_total b arg hq hi hT ks (fun m hm => hw m (List.mem_cons_of_mem _ hm))
      (fun m hm => hs m (List.mem_cons_of_mem _ hm)) (fun m hm => hf m (List.mem_cons_of_mem _ hm))
    exact ⟨c :: cs, by rw [BFn.callAll]; simp only [h1, h2, bind, Except.bind]⟩
end

mutual
/-- All classes inside are point evaluations, or integrals and projections of scalar functions, and the operators inside can
be applied to every kernel. -/
def Fn.Full : Fn X → Prop
  | .base b => b.quad = true ∧ b.i.2 = []
  | .point _ => True
  | .comp _ _ F L => Fn.Full F ∧ (match L with | none => True | some L => L.Full)
  | .scaled F _ => Fn.Full F
  | .sum Fs => fullFs Fs
/-- Every summand. -/
def fullFs : List (Fn X) → Prop
  | [] => True
  | F :: Fs => Fn.Full F ∧ fullFs Fs
end

mutual
/-- Every such functional can be applied to every kernel of the right shapes, in both arguments. -/
theorem functional_total (dom : Shp) (s : Option Shp) (arg : Bool) : ∀ (F : Fn X) (i : Shapes) (o : Shp) (k : K X),
    F.Typed dom i o → F.Doms s → F.Full → k.WF → k.Reg arg → (F.hasBase = true → k.Safe arg) → Fit i arg k → Side s arg k →
    k.sh.inA (!arg) = dom → ∃ c, F.call arg k = .ok c
  | .base b, i, o, k, ht, _, hfu, hw, _, hsf, hf, _, _ => by
    obtain ⟨h1, h2, h3⟩ := ht
    rw [Fn.call]
    exact bfn_total b arg hfu.1 hfu.2 (by rw [h1, h2]; exact h3) k hw (hsf rfl) (by rw [h1]; exact hf)
  | .point f, i, o, k, ht, _, _, hw, _, _, hf, _, _ => by
    rw [Fn.call]
    exact ⟨_, by simp only [(chk_iff f.i k arg).mpr (by rw [ht.1]; exact hf), bind, Except.bind]; rfl⟩
  | .comp j A F L, i, o, k, ht, hD, hfu, hw, hr, hsf, hf, hs, hd => by
    obtain ⟨rfl, m, n, hL, hF, hA⟩ := ht
    rw [Fn.call]
    have hpre : ∃ k', preOp L arg k = .ok k' ∧ k'.Reg arg ∧ k'.WF ∧ k'.sh = k.sh.set arg m ∧ (k.Safe arg → k'.Safe arg) := by
      cases L with
      | none =>
        simp only at hL
        subst hL
        refine ⟨k, rfl, hr, hw, ?_, id⟩
        obtain ⟨f1, f2⟩ := hf
        cases arg
        · simp [KSh.inA, KSh.outA] at f1 f2
          simp [KSh.set, ← f1, ← f2]
        · simp [KSh.inA, KSh.outA] at f1 f2
          simp [KSh.set, ← f1, ← f2]
      | some L =>
        obtain ⟨k', h1, h2⟩ := apply_total s arg L j m k hL hD.2 hfu.2 hw hr hf hs
        have hg := apply_correct s arg L j m k k' hL hD.2 hw hf hs h1
        exact ⟨k', by unfold preOp; simp only [h1], h2, hg.wf, hg.sh, hg.safe⟩
    obtain ⟨k', p1, p2, p3, p4, p5⟩ := hpre
    have hin' : k'.sh.inA (!arg) = k.sh.inA (!arg) := by rw [p4]; cases arg <;> rfl
    have hfit' : Fit m arg k' := by rw [Fit, p4]; cases arg <;> exact ⟨rfl, rfl⟩
    have hside' : Side s arg k' := fun d hd' => ⟨p5 (hs d hd').1, by rw [hin']; exact (hs d hd').2⟩
    obtain ⟨c, hc⟩ := functional_total dom s arg F m n k' hF hD.1 hfu.1 p3 p2 (fun hb => p5 (hsf hb)) hfit' hside'
      (by rw [hin']; exact hd)
    have hg := functional_correct dom s arg F m n k' c hF hD.1 p3 (fun hb => p5 (hsf hb)) hfit' hside' (by rw [hin']; exact hd) hc
    have hpost : ∃ d, postOp A c = .ok d := by
      cases A with
      | none => exact ⟨c, rfl⟩
      | some A =>
        obtain ⟨hn, _⟩ := hA
        refine ⟨.linop A c, ?_⟩
        unfold postOp mkLinopPV
        dsimp only
        rw [if_neg (by rw [hg.rv, hn]; simp), if_neg (by rw [hg.rv, hn]; simp)]
    obtain ⟨d, hd'⟩ := hpost
    exact ⟨d, by simp only [(chk_iff j k arg).mpr hf, p1, hc, bind, Except.bind]; exact hd'⟩
  | .scaled F a, i, o, k, ht, hD, hfu, hw, hr, hsf, hf, hs, hd => by
    obtain ⟨c, hc⟩ := functional_total dom s arg F i o k ht hD hfu hw hr hsf hf hs hd
    exact ⟨.scaled c a, by rw [Fn.call]; simp only [hc, bind, Except.bind]⟩
  | .sum Fs, i, o, k, ht, hD, hfu, hw, hr, hsf, hf, hs, hd => by
    obtain ⟨cs, hcs⟩ := functionals_total dom s arg Fs i o k ht.2 hD hfu hw hr hsf hf hs hd
    have hall := functionals_correct dom s arg Fs i o k cs ht.2 hD hw hsf hf hs hd hcs
    have hlen := hall.length_eq
    obtain ⟨d, hd'⟩ := reduce_total (k.sh.inA (!arg)) (k.sh.outA (!arg)) o (!arg) (cs := cs)
      (by intro h0; rw [h0] at hlen; exact ht.1 (List.length_eq_zero_iff.mp hlen)) fun c hc => by
        obtain ⟨F, _, hg⟩ := forall2_mem' hall c hc
        exact ⟨hg.inS, hg.outS, hg.rv, hg.rev⟩
    exact ⟨d, by rw [Fn.call]; simp only [hcs, bind, Except.bind]; exact hd'⟩
/-- Every summand. -/
theorem functionals_total (dom : Shp) (s : Option Shp) (arg : Bool) : ∀ (Fs : List (Fn X)) (i : Shapes) (o : Shp) (k : K X),
    typedFs dom Fs i o → domsFs s Fs → fullFs Fs → k.WF → k.Reg arg → (hasBaseAny Fs = true → k.Safe arg) → Fit i arg k →
    Side s arg k → k.sh.inA (!arg) = dom → ∃ cs, Fn.callAll arg Fs k = .ok cs
  | [], _, _, _, _, _, _, _, _, _, _, _, _ => ⟨[], by rw [Fn.callAll]⟩
  | F :: Fs, i, o, k, ht, hD, hfu, hw, hr, hsf, hf, hs, hd => by
    obtain ⟨c, h1⟩ := functional_total dom s arg F i o k ht.1 hD.1 hfu.1 hw hr (fun hb => hsf (by rw [hasBaseAny, hb]; rfl)) hf hs hd
    obtain ⟨cs, h2⟩ := functionals_total dom s arg Fs i o k ht.2 hD.2 hfu.2 hw hr
      (fun hb => hsf (by rw [hasBaseAny, hb, Bool.or_true])) hf hs hd
    exact ⟨c :: cs, by rw [Fn.callAll]; simp only [h1, h2, bind, Except.bind]⟩
end

/-- The array view of the result: the functional applied to the kernel, at every point, in the documented layout. -/
theorem functional_array_partial (dom : Shp) (s : Option Shp) (arg : Bool) (F : Fn X) (i : Shapes) (o : Shp) (k : K X) (c : PV X)
    (ht : F.Typed dom i o) (hD : F.Doms s) (hw : k.WF) (hsf : F.hasBase = true → k.Safe arg) (hf : Fit i arg k) (hs : Side s arg k)
    (hd : k.sh.inA (!arg) = dom) (h : F.call arg k = .ok c) (hsym : c.Sym) (x : Pts X) (hx : x.inS = dom) :
    ∃ a, c.call x = .ok a ∧ a.shape = layout (!arg) o x.batch (k.sh.outA (!arg)) ∧
      ∀ r n p, Fits o r → Fits x.batch n → Fits (k.sh.outA (!arg)) p →
        a.get (pos (!arg) r n p) = actF F.T (!arg) k.eval (x.pt n) (ravel (k.sh.outA (!arg)) p) (ravel o r) := by
  have hg := functional_correct dom s arg F i o k c ht hD hw hsf hf hs hd h
  obtain ⟨a, h1, h2, h3⟩ := call_holds_partial x c hg.wf hsym (by rw [hx, hg.inS, hd])
  rw [hg.rev, hg.rv, hg.outS] at h2 h3
  exact ⟨a, h1, h2, fun r n p hr hn hp => by rw [h3 r n p hr hn hp, hg.den _ _ _ (ravel_lt hp) (ravel_lt hr)]⟩

lemma fold_sym : ∀ (cs : List (PV X)) (c d : PV X), c.Sym → (∀ e ∈ cs, e.Sym) → cs.foldlM PV.add c = .ok d → d.Sym
  | [], c, d, hc, _, h => by cases h; exact hc
  | c' :: cs, c, d, hc, hcs, h => by
    rw [List.foldlM_cons] at h
    obtain ⟨e, h1, h2⟩ := bind_ok' h
    unfold PV.add at h1
    split_ifs at h1
    cases h1
    refine fold_sym cs _ d ?_ (fun e he => hcs e (List.mem_cons_of_mem _ he)) h2
    exact (symAll_iff [c, c']).mpr fun e he => by
      rcases List.mem_cons.mp he with rfl | he
      · exact hc
      · rw [List.mem_singleton] at he; subst he; exact hcs _ List.mem_cons_self

lemma reduce_sym {cs : List (PV X)} {d : PV X} (hcs : ∀ e ∈ cs, e.Sym) (h : reducePV cs = .ok d) : d.Sym := by
  cases cs with
  | nil => cases h
  | cons c cs => exact fold_sym cs c d (hcs c List.mem_cons_self) (fun e he => hcs e (List.mem_cons_of_mem _ he)) h

mutual
lemma bfn_sym (b : BFn X) : ∀ (k : K X) (c : PV X), b.call true k = .ok c → c.Sym
  | .base sh cls j ev, c, h => by
    rw [BFn.call] at h
    obtain ⟨_, _, hc⟩ := noRule_inv h
    rcases hc with hc | ⟨_, rfl⟩
    · split_ifs at hc
      cases hc
      trivial
    · exact fun h => by cases h
  | .scaled m s, c, h => by
    rw [BFn.call] at h
    obtain ⟨u, _, h2⟩ := bind_ok' h
    obtain ⟨d, h3, h4⟩ := bind_ok' h2
    cases h4
    exact bfn_sym b m d h3
  | .sum sh ks, c, h => by
    rw [BFn.call] at h
    obtain ⟨u, _, h2⟩ := bind_ok' h
    obtain ⟨cs, h3, h4⟩ := bind_ok' h2
    exact reduce_sym (bfnAll_sym b ks cs h3) h4
  | .stack i0 i1 s idx ks, c, h => by
    rw [BFn.call] at h
    obtain ⟨u, _, h2⟩ := bind_ok' h
    obtain ⟨cs, h3, h4⟩ := bind_ok' h2
    obtain ⟨d, ds, hds, rfl⟩ := mkStackPV_inv h4
    exact (symAll_iff cs).mpr (bfnAll_sym b ks cs h3)
  | .imo i ks, c, h => by
    rw [BFn.call] at h
    obtain ⟨_, _, hc⟩ := noRule_inv h
    rcases hc with hc | ⟨_, rfl⟩
    · cases hc
    · exact fun h => by cases h
  | .zero sh, c, h => by
    rw [BFn.call] at h
    obtain ⟨u, _, h2⟩ := bind_ok' h
    cases h2
    trivial
lemma bfnAll_sym (b : BFn X) : ∀ (ks : List (K X)) (cs : List (PV X)), b.callAll true ks = .ok cs → ∀ c ∈ cs, c.Sym
  | [], cs, h => by rw [BFn.callAll] at h; cases h; simp
  | k :: ks, cs, h => by
    rw [BFn.callAll] at h
    obtain ⟨c, h1, h2⟩ := bind_ok' h
    obtain ⟨ds, h3, h4⟩ := bind_ok' h2
    cases h4
    intro e he
    rcases List.mem_cons.mp he with he | he
    · rw [he]; exact bfn_sym b k c h1
    · exact bfnAll_sym b ks ds h3 e he
end

mutual
/-- Functionals in argument 1 never give a cross-covariance whose array view exchanges the points. -/
lemma functional_sym : ∀ (F : Fn X) (k : K X) (c : PV X), F.call true k = .ok c → c.Sym
  | .base b, k, c, h => by rw [Fn.call] at h; exact bfn_sym b k c h
  | .point f, k, c, h => by
    rw [Fn.call] at h
    obtain ⟨u, _, h2⟩ := bind_ok' h
    cases h2
    exact fun h => by cases h
  | .comp j A F L, k, c, h => by
    rw [Fn.call] at h
    obtain ⟨u, _, h2⟩ := bind_ok' h
    obtain ⟨k', _, h4⟩ := bind_ok' h2
    obtain ⟨c', h5, h6⟩ := bind_ok' h4
    have ih := functional_sym F k' c' h5
    cases A with
    | none => cases h6; exact ih
    | some A =>
      unfold postOp mkLinopPV at h6
      dsimp only at h6
      split_ifs at h6
      cases h6
      exact ih
  | .scaled F a, k, c, h => by
    rw [Fn.call] at h
    obtain ⟨d, h1, h2⟩ := bind_ok' h
    cases h2
    exact functional_sym F k d h1
  | .sum Fs, k, c, h => by
    rw [Fn.call] at h
    obtain ⟨cs, h1, h2⟩ := bind_ok' h
    exact reduce_sym (functionals_sym Fs k cs h1) h2
lemma functionals_sym : ∀ (Fs : List (Fn X)) (k : K X) (cs : List (PV X)), Fn.callAll true Fs k = .ok cs → ∀ c ∈ cs, c.Sym
  | [], k, cs, h => by rw [Fn.callAll] at h; cases h; simp
  | F :: Fs, k, cs, h => by
    rw [Fn.callAll] at h
    obtain ⟨c, h1, h2⟩ := bind_ok' h
    obtain ⟨ds, h3, h4⟩ := bind_ok' h2
    cases h4
    intro e he
    rcases List.mem_cons.mp he with he | he
    · rw [he]; exact functional_sym F k c h1
    · exact functionals_sym Fs k ds h3 e he
end

/-- Functionals in argument 1: the array view contains the values of the functional for every kernel, symmetric or not. -/
theorem functional_array (dom : Shp) (s : Option Shp) (F : Fn X) (i : Shapes) (o : Shp) (k : K X) (c : PV X)
    (ht : F.Typed dom i o) (hD : F.Doms s) (hw : k.WF) (hsf : F.hasBase = true → k.Safe true) (hf : Fit i true k) (hs : Side s true k)
    (hd : k.sh.in0 = dom) (h : F.call true k = .ok c) (x : Pts X) (hx : x.inS = dom) :
    ∃ a, c.call x = .ok a ∧ a.shape = x.batch ++ k.sh.out0 ++ o ∧ ∀ n p r, Fits x.batch n → Fits k.sh.out0 p → Fits o r →
      a.get (n ++ p ++ r) = F.T (fun y q => k.eval (x.pt n) y (ravel k.sh.out0 p) q) (ravel o r) := by
  obtain ⟨a, h1, h2, h3⟩ := functional_array_partial dom s true F i o k c ht hD hw hsf hf hs hd h (functional_sym F k c h) x hx
  exact ⟨a, h1, h2, fun n p r hn hp hr => h3 r n p hr hn hp⟩

end LinPDE.XCov
