import Verif.CovAlg.Lift

/-!
# The classes of operators are right
-/

namespace LinPDE.CovAlg
open LinPDE.Nd LinPDE.Ops
variable {X : Type}

/-! ## Combining correct results -/

lemma good_congrT {S T : Val X →ₗ[ℝ] Val X} {o : Shapes} {arg : Bool} {k k' : K X}
    (h : ∀ f x, ∀ p < o.2.prod, S f x p = T f x p) (hg : Good S o arg k k') : Good T o arg k k' := by
  refine ⟨hg.wf, hg.sh, fun x0 x1 p q hp hq => ?_, hg.safe⟩
  rw [hg.ev x0 x1 p q hp hq]
  rw [hg.sh] at hp hq
  cases arg
  · simp only [act, Bool.false_eq_true, ↓reduceIte]
    exact h _ _ _ (by simpa [KSh.set] using hp)
  · simp only [act, ↓reduceIte]
    exact h _ _ _ (by simpa [KSh.set] using hq)

lemma good_id {i : Shapes} {arg : Bool} {k : K X} (hw : k.WF) (hf : Fit i arg k) : Good LinearMap.id i arg k k :=
  ⟨hw, (set_self _ _ _ hf.1 hf.2).symm, fun x0 x1 p q _ _ => by rw [act_id], id⟩

lemma good_comp {S T : Val X →ₗ[ℝ] Val X} {m o : Shapes} {arg : Bool} {k k1 k2 : K X} (h1 : Good S m arg k k1)
    (hl : Loc m.2 o.2 T) (h2 : Good T o arg k1 k2) : Good (T ∘ₗ S) o arg k k2 := by
  refine ⟨h2.wf, by rw [h2.sh, h1.sh, set_set], fun x0 x1 p q hp hq => ?_, fun hs => h2.safe (h1.safe hs)⟩
  rw [h2.ev x0 x1 p q hp hq, act_comp]
  have hs := h2.sh
  have hs1 := h1.sh
  rw [hs] at hp hq
  refine act_congr m.2 o.2 T hl arg _ _ x0 x1 p q ?_ fun y r hr => ?_
  · cases arg
    · simpa [KSh.set] using hp
    · simpa [KSh.set] using hq
  · cases arg
    · refine h1.ev y x1 r q ?_ ?_
      · rw [hs1]; simpa [KSh.set] using hr
      · simpa [KSh.set] using hq
    · refine h1.ev x0 y p r ?_ ?_
      · simpa [KSh.set] using hp
      · rw [hs1]; simpa [KSh.set] using hr

lemma good_addT {S T : Val X →ₗ[ℝ] Val X} {o : Shapes} {arg : Bool} {k m n l : K X} (h1 : Good S o arg k m)
    (h2 : Good T o arg k n) (h : m.add n = .ok l) : Good (S + T) o arg k l := by
  obtain ⟨a, b, c, d⟩ := mkPnSum_spec _ _ (add_spec _ _ _ h) (by
    intro x hx
    rcases List.mem_pair.mp hx with rfl | rfl
    · exact h1.wf
    · exact h2.wf)
  have hm := b m (by simp)
  have hn := b n (by simp)
  refine ⟨a, by rw [← hm, h1.sh], fun x0 x1 p q hp hq => ?_, fun hs => d arg ?_⟩
  · rw [c, act_addT]
    simp only [List.map_cons, List.map_nil, List.sum_cons, List.sum_nil, add_zero]
    rw [h1.ev x0 x1 p q (by rwa [hm]) (by rwa [hm]), h2.ev x0 x1 p q (by rwa [hn]) (by rwa [hn])]
  · intro x hx
    rcases List.mem_pair.mp hx with rfl | rfl
    · exact h1.safe hs
    · exact h2.safe hs

lemma good_smulT {T : Val X →ₗ[ℝ] Val X} {o : Shapes} {arg : Bool} {k m : K X} (c : ℝ) (h : Good T o arg k m) :
    Good (c • T) o arg k (m.smul c) := by
  obtain ⟨h1, h2, h3, h4, _⟩ := smul_spec c m
  refine ⟨h3.mpr h.wf, by rw [h1, h.sh], fun x0 x1 p q hp hq => ?_, fun hs => (h4 arg).mpr (h.safe hs)⟩
  rw [h1] at hp hq
  rw [h2, h.ev x0 x1 p q hp hq, act_smulT]

lemma good_fold {α : Type} {f : α → Except Err (K X)} {T : α → Val X →ₗ[ℝ] Val X} {o : Shapes} {arg : Bool} {k : K X} :
    ∀ (as : List α) (S : Val X →ₗ[ℝ] Val X) (acc n : K X), (∀ a ∈ as, ∀ m, f a = .ok m → Good (T a) o arg k m) →
      Good S o arg k acc → as.foldlM (fun acc b => do
        let m ← f b
        acc.add m) acc = .ok n → Good (S + (as.map T).sum) o arg k n
  | [], S, acc, n, _, hg, h => by
    cases h
    simpa using hg
  | a :: as, S, acc, n, hf, hg, h => by
    rw [List.foldlM_cons] at h
    obtain ⟨b, h1, h2⟩ := bind_ok h
    obtain ⟨m, h3, h4⟩ := bind_ok h1
    have := good_fold as (S + T a) b n (fun c hc => hf c (List.mem_cons_of_mem _ hc))
      (good_addT hg (hf a List.mem_cons_self m h3) h4) h2
    rw [List.map_cons, List.sum_cons, ← add_assoc]
    exact this

lemma good_reduce {α : Type} {f : α → Except Err (K X)} {T : α → Val X →ₗ[ℝ] Val X} {o : Shapes} {arg : Bool} {k n : K X}
    (as : List α) (hf : ∀ a ∈ as, ∀ m, f a = .ok m → Good (T a) o arg k m) (h : reduceK f as = .ok n) :
    Good ((as.map T).sum) o arg k n := by
  cases as with
  | nil => cases h
  | cons a as =>
    rw [reduceK] at h
    obtain ⟨m, h1, h2⟩ := bind_ok h
    rw [List.map_cons, List.sum_cons]
    exact good_fold as (T a) m n (fun c hc => hf c (List.mem_cons_of_mem _ hc)) (hf a List.mem_cons_self m h1) h2

/-! ## Classes -/

lemma identH_sound (s : Shapes) (arg : Bool) (sd : Option Shp) : (identH s arg : H X).Sound LinearMap.id sd arg where
  loc f g h x p hp := h x p hp
  own k k' hk hw hf _ := by
    simp only [identH, Option.some.injEq] at hk
    obtain ⟨_, _, h2⟩ := bind_ok hk
    cases h2
    exact good_id hw hf
  ni := .inl fun _ => rfl

lemma ownClosed_good {i o : Shapes} {T : Val X →ₗ[ℝ] Val X} {closed : ℕ → Bool → Option (ℕ × Bool)} {arg : Bool} {k k' : K X}
    (h : ownClosed i o T closed arg k = some (.ok k')) : Good T o arg k k' := by
  cases k with
  | base sh cls j ev =>
    simp only [ownClosed] at h
    split at h
    · simp only [Option.some.injEq] at h
      obtain ⟨_, _, h2⟩ := bind_ok h
      cases h2
      refine ⟨trivial, rfl, fun x0 x1 p q _ _ => by simp [K.eval, K.evalG], fun hs => ?_⟩
      simp only [K.Safe] at hs ⊢
      rw [set_outA_other, hs]
    · cases h
  | _ => cases h

lemma ownClosed_ne_ni {i o : Shapes} {T : Val X →ₗ[ℝ] Val X} {closed : ℕ → Bool → Option (ℕ × Bool)} {arg : Bool} {k : K X} :
    ownClosed i o T closed arg k ≠ some (.error .notImplemented) := by
  cases k with
  | base sh cls j ev =>
    simp only [ownClosed]
    split
    · simp only [ne_eq, Option.some.injEq]
      exact bind_ni (validate_ne_ni _ _ _) (by simp)
    · simp
  | _ => simp [ownClosed]

lemma genH_sound (g : Gen X) (hl : Loc g.i.2 g.o.2 g.T) (arg : Bool) (sd : Option Shp) : (g.h arg).Sound g.T sd arg where
  loc := hl
  own _ _ hk _ _ _ := ownClosed_good hk
  ni := .inl fun _ => rfl

/-- Requirements on a partial derivative: it looks at one entry, and the one of order 0 is the identity. -/
structure PD.OK (D : PD X) : Prop where
  loc : Loc [] [] D.T
  zero : D.order = 0 → ∀ f x, D.T f x 0 = f x 0

lemma pdOwn_good {D : PD X} (hD : D.OK) {arg : Bool} {k k' : K X} (h : D.own arg k = some (.ok k')) (hw : k.WF)
    (hf : Fit (D.dom, []) arg k) : Good D.T (D.dom, []) arg k k' := by
  unfold PD.own at h
  split at h
  · rename_i r hr
    cases h
    exact ownClosed_good hr
  · split_ifs at h with ho
    cases h
    refine good_congrT (fun f x p hp => ?_) (good_id hw hf)
    have : p = 0 := by simpa using hp
    subst this
    exact (hD.zero ho f x).symm

lemma pdOwn_ne_ni {D : PD X} {arg : Bool} {k : K X} : D.own arg k ≠ some (.error .notImplemented) := by
  unfold PD.own
  split
  · rename_i r hr
    rw [← hr]
    exact ownClosed_ne_ni
  · split_ifs <;> simp

lemma pdNoJax_sound (D : PD X) (hD : D.OK) (arg : Bool) (sd : Option Shp) : (D.hNoJax arg).Sound D.T sd arg where
  loc := hD.loc
  own _ _ hk hw hf _ := pdOwn_good hD hk hw hf
  ni := .inl fun _ => rfl

lemma jaxFallback_good {dom : Shp} {T : Val X →ₗ[ℝ] Val X} {arg : Bool} {k : K X} (hl : k.Leaf arg) (hj : k.isJax)
    (hf : Fit (dom, []) arg k) (hp : Side (some dom) arg k) : Good T (dom, []) arg k (jaxFallback dom T arg k) := by
  obtain ⟨hs, hd⟩ := hp dom rfl
  cases k with
  | base sh cls j ev =>
    refine ⟨trivial, ?_, fun x0 x1 p q _ _ => by simp [jaxFallback, K.eval, K.evalG, K.evalJax], fun _ => ?_⟩
    · refine sh_ext _ _ arg ?_ ?_ ?_ ?_
      · rw [set_inA]; cases arg <;> rfl
      · rw [set_outA]; cases arg <;> rfl
      · rw [set_inA_other, hd]; cases arg <;> rfl
      · rw [set_outA_other]
        simp only [K.Safe] at hs
        show _ = sh.outA (!arg)
        rw [hs]; cases arg <;> rfl
    · cases arg <;> rfl
  | stack i0 i1 s idx ks =>
    exfalso
    have ha : arg = idx := hl
    subst ha
    refine hs.1 rfl ?_
    have := hf.2
    cases arg <;> simpa [K.sh, KSh.outA] using this
  | imo i ks =>
    exfalso
    have := hf.2
    cases arg <;> simp [K.sh, KSh.outA] at this
  | scaled m c =>
    exfalso
    have h1 : m.isJax = false := hl
    simp [K.isJax, h1] at hj
  | sum sh ks =>
    exfalso
    have h1 : allJax ks = false := hl
    simp [K.isJax, h1] at hj
  | zero sh => exact absurd hl (by simp [K.Leaf])

lemma pd_sound (D : PD X) (hD : D.OK) (arg : Bool) : (D.h arg).Sound D.T (some D.dom) arg where
  loc := hD.loc
  own _ _ hk hw hf _ := pdOwn_good hD hk hw hf
  ni := by
    refine .inr ⟨⟨fun k => pdOwn_ne_ni, fun k => ?_⟩, fun k k' hl hr hw hf hp => ?_⟩
    · simp only [PD.h]; split_ifs <;> simp
    · simp only [PD.h] at hr
      split_ifs at hr with hj
      cases hr
      exact jaxFallback_good hl hj hf hp

/-! ## `SelectOutput` -/

lemma normIdx_nonneg {m : ℕ} {n : ℤ} {a : ℕ} (h : normIdx m n = .ok a) (hn : 0 ≤ n) : (a : ℤ) = n ∧ a < m := by
  unfold normIdx at h
  split_ifs at h with h1 h2
  · cases h; omega
  · omega

lemma normIdx_lt {m : ℕ} {n : ℤ} {a : ℕ} (h : normIdx m n = .ok a) : a < m := by
  unfold normIdx at h
  split_ifs at h with h1 h2 <;> cases h <;> omega

lemma normAll_lt : ∀ (s : Shp) (l : List ℤ) (a : List ℕ), normAll s l = .ok a → ravel s a < s.prod
  | [], [], a, h => by cases h; simp [ravel]
  | m :: s, n :: l, a, h => by
    rw [normAll] at h
    obtain ⟨b, h1, h2⟩ := bind_ok h
    obtain ⟨c, h3, h4⟩ := bind_ok h2
    cases h4
    have hb := normIdx_lt h1
    have hc := normAll_lt s l c h3
    simp only [ravel, List.prod_cons]
    nlinarith
  | [], _ :: _, a, h => by cases h
  | _ :: _, [], a, h => by cases h

lemma resolve_lt (s : Shp) (idx : SIdx) (a : List ℕ) (h : idx.resolve s = .ok a) : ravel s a < s.prod := by
  cases idx <;> exact normAll_lt _ _ _ h

lemma selLin_loc (s o : Shp) (n : ℕ) (h : n < s.prod) : Loc s o (selLin X n) := fun _ _ hfg x _ _ => hfg x n h

lemma act_selLin (n : ℕ) (arg : Bool) (k : KVal X) (x0 x1 : X) (p q : ℕ) :
    act (selLin X n) arg k x0 x1 p q = if arg then k x0 x1 p n else k x0 x1 n q := by
  cases arg <;> simp [act, selLin]

lemma select_sound (i : Shapes) (idx : SIdx) (a : List ℕ) (ha : idx.resolve i.2 = .ok a) (hn : ∀ n, idx = .int n → 0 ≤ n)
    (arg : Bool) (sd : Option Shp) : (selectH i idx arg : H X).Sound (selLin X (ravel i.2 a)) sd arg where
  loc := selLin_loc _ _ _ (resolve_lt _ _ _ ha)
  own k k' hk hw hf _ := by
    replace hf : Fit i arg k := hf
    cases k with
    | stack i0 i1 s j ks =>
      simp only [selectH] at hk
      split_ifs at hk with hj
      subst hj
      have hs : i.2 = s := by
        rw [← hf.2]; cases arg <;> simp [K.sh, KSh.outA]
      rw [hs] at ha ⊢
      simp only [Option.some.injEq] at hk
      obtain ⟨_, _, h2⟩ := bind_ok hk
      obtain ⟨b, h3, h4⟩ := bind_ok h2
      rw [ha] at h3
      cases h3
      obtain ⟨hlen, hne, hsh, hwf⟩ := hw
      split at h4
      · rename_i m hm
        cases h4
        have hmem := List.mem_of_getElem? hm
        refine ⟨(allWF_iff ks).mp hwf _ hmem, ?_, fun x0 x1 p q hp hq => ?_, fun hs => (allSafe_iff arg ks).mp hs.2 _ hmem⟩
        · rw [hsh _ hmem]
          have := hf.1
          cases arg <;> simp_all [K.sh, KSh.set, selectH, KSh.inA]
        · rw [hsh _ hmem] at hp hq
          have hp0 : p = 0 := by simpa using hp
          have hq0 : q = 0 := by simpa using hq
          subst hp0 hq0
          rw [act_selLin]
          cases arg <;> simp [eval_stack, hm]
      · cases h4
    | imo inS ks =>
      simp only [selectH, Option.some.injEq] at hk
      obtain ⟨_, _, h2⟩ := bind_ok hk
      obtain ⟨hne, hsh, hwf⟩ := hw
      have hs : i.2 = [ks.length] := by
        rw [← hf.2]; cases arg <;> rfl
      cases idx with
      | tup l => cases h2
      | int n =>
        have hn0 := hn n rfl
        obtain ⟨b, h3, h4⟩ := bind_ok h2
        obtain ⟨hb, hlt⟩ := normIdx_nonneg h3 hn0
        have hra : ravel i.2 a = b := by
          rw [hs] at ha ⊢
          simp only [SIdx.resolve, normAll, h3] at ha
          cases ha
          simp [ravel]
        rw [hra]
        have hbn : n.toNat = b := by omega
        have hbl : ((ks.length : ℤ) - n - 1).toNat = ks.length - b - 1 := by omega
        rw [hbn, hbl] at h4
        split at h4
        · cases h4
        · rename_i m hm
          obtain ⟨j0, j1, rfl, -, hp⟩ := mkStack_spec _ _ _ _ h4
          have hmem := List.mem_of_getElem? hm
          have hms := hsh m hmem
          have hj := hp m (by simp)
          rw [hms] at hj
          simp only [KSh.mk.injEq, and_true] at hj
          obtain ⟨rfl, rfl⟩ := hj
          have hlen : (List.replicate b (K.zero ⟨inS, inS, [], []⟩) ++ [m] ++
              List.replicate (ks.length - b - 1) (K.zero ⟨inS, inS, [], []⟩)).length = ks.length := by
            simp only [List.length_append, List.length_replicate, List.length_cons, List.length_nil]; omega
          refine ⟨?_, ?_, fun x0 x1 p q hp' hq' => ?_, fun hs => ?_⟩
          · rw [K.WF, allWF_iff]
            refine ⟨by simp, by simp, hp, fun x hx => ?_⟩
            simp only [List.mem_append, List.mem_replicate, List.mem_singleton] at hx
            rcases hx with (⟨_, rfl⟩ | rfl) | ⟨_, rfl⟩
            · trivial
            · exact (allWF_iff ks).mp hwf _ hmem
            · trivial
          · have := hf.1
            simp only [K.sh, hlen]
            cases arg <;> simp_all [K.sh, KSh.set, selectH, KSh.inA]
          · have key : ∀ t, ((List.replicate b (K.zero ⟨inS, inS, [], []⟩) ++ [m] ++
                List.replicate (ks.length - b - 1) (K.zero ⟨inS, inS, [], []⟩))[t]?.map
                  fun k => k.eval x0 x1 0 0).getD 0 = if t = b then m.eval x0 x1 0 0 else 0 := by
              intro t
              rcases lt_trichotomy t b with h | h | h
              · rw [if_neg (by omega), List.append_assoc, List.getElem?_append_left (by simpa using h)]
                simp [h, eval_zero]
              · subst h
                rw [if_pos rfl, List.append_assoc, List.getElem?_append_right (by simp)]
                simp
              · rw [if_neg (by omega), List.getElem?_append_right (by simp; omega)]
                simp only [List.getElem?_replicate]
                split_ifs <;> simp [eval_zero]
            rw [eval_stack, key, act_selLin]
            cases arg
            · simp only [Bool.not_false, ↓reduceIte, Bool.false_eq_true, eval_imo, hm, Option.map_some, Option.getD_some]
              exact if_congr eq_comm rfl rfl
            · simp only [Bool.not_true, ↓reduceIte, Bool.false_eq_true, eval_imo]
              by_cases h : p = b
              · subst h; simp [hm]
              · simp [h]
          · simp only [K.Safe, allSafe_iff] at hs ⊢
            refine ⟨fun hc => by cases arg <;> simp at hc, fun x hx => ?_⟩
            simp only [List.mem_append, List.mem_replicate, List.mem_singleton] at hx
            rcases hx with (⟨_, rfl⟩ | rfl) | ⟨_, rfl⟩
            · trivial
            · exact hs _ hmem
            · trivial
    | _ => cases hk
  ni := .inl fun _ => rfl

end LinPDE.CovAlg
