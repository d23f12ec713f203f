import Verif.CovAlg.Spec

/-!
# The general rules are right whenever the rules of the class are
-/

namespace LinPDE.CovAlg
open LinPDE.Nd LinPDE.Ops
variable {X : Type}

/-- The cases for which the general rules raise `NotImplementedError`. -/
def K.Leaf (arg : Bool) : K X → Prop
  | .base .. => True
  | .imo .. => True
  | .stack _ _ _ idx _ => arg = idx
  | .scaled k _ => k.isJax = false
  | .sum _ ks => allJax ks = false
  | .zero .. => False

/-- The class never raises `NotImplementedError` itself. -/
def H.Never (h : H X) : Prop :=
  (∀ k, h.own k ≠ some (.error .notImplemented)) ∧ ∀ k, h.rescue k ≠ .error .notImplemented

/-- What is required of a class of operators for the map `T`. -/
structure H.Sound (h : H X) (T : Val X →ₗ[ℝ] Val X) (s : Option Shp) (arg : Bool) : Prop where
  loc : Loc h.i.2 h.o.2 T
  own : ∀ k k', h.own k = some (.ok k') → k.WF → Fit h.i arg k → Side s arg k → Good T h.o arg k k'
  ni : (∀ k, h.rescue k = .error .notImplemented) ∨
    (h.Never ∧ ∀ k k', k.Leaf arg → h.rescue k = .ok k' → k.WF → Fit h.i arg k → Side s arg k → Good T h.o arg k k')

lemma wrap_ne_ni (h : H X) (hn : h.Never) (k : K X) (g : Except Err (K X)) : h.wrap k g ≠ .error .notImplemented := by
  unfold H.wrap
  rcases ho : h.own k with _ | r
  · rcases g with e | a
    · cases e <;> simp [hn.2 k]
    · simp
  · have := hn.1 k
    rw [ho] at this
    simpa using this

lemma call_ne_ni (h : H X) (hn : h.Never) (arg : Bool) (k : K X) : h.call arg k ≠ .error .notImplemented := by
  cases k <;> rw [H.call] <;> exact wrap_ne_ni h hn _ _

lemma callAll_ne_ni (h : H X) (hn : h.Never) (arg : Bool) : ∀ ks : List (K X), callAll h arg ks ≠ .error .notImplemented
  | [] => by simp [callAll]
  | k :: ks => by
    rw [callAll]
    have h1 := call_ne_ni h hn arg k
    have h2 := callAll_ne_ni h hn arg ks
    rcases ha : h.call arg k with e | a
    · rw [ha] at h1
      simpa [bind, Except.bind] using h1
    · rcases hb : callAll h arg ks with e | a
      · rw [hb] at h2
        simpa [bind, Except.bind] using h2
      · simp [bind, Except.bind]

/-- Analysis of one call. -/
lemma wrap_cases {h : H X} {T : Val X →ₗ[ℝ] Val X} {s : Option Shp} {arg : Bool} (hs : h.Sound T s arg) {k k' : K X}
    {g : Except Err (K X)} (hc : h.wrap k g = .ok k') (hw : k.WF) (hf : Fit h.i arg k) (hp : Side s arg k)
    (hg : h.Never → ¬k.Leaf arg → g ≠ .error .notImplemented) : Good T h.o arg k k' ∨ g = .ok k' := by
  unfold H.wrap at hc
  rcases ho : h.own k with _ | r
  · rw [ho] at hc
    rcases g with e | a
    · by_cases he : e = .notImplemented
      · subst he
        replace hc : h.rescue k = .ok k' := hc
        rcases hs.ni with hr | ⟨hn, hr⟩
        · rw [hr k] at hc; cases hc
        · by_cases hl : k.Leaf arg
          · exact .inl (hr k k' hl hc hw hf hp)
          · exact absurd rfl (hg hn hl)
      · cases e <;> simp_all
    · exact .inr hc
  · rw [ho] at hc
    exact .inl (hs.own k k' (by rw [ho]; exact congrArg some hc) hw hf hp)

lemma forall2_map_sum {T : Val X →ₗ[ℝ] Val X} {o : Shapes} {arg : Bool} {sh : KSh} (x0 x1 : X) (p q : ℕ)
    (hp : p < sh.out0.prod) (hq : q < sh.out1.prod) :
    ∀ {ks ks' : List (K X)}, List.Forall₂ (Good T o arg) ks ks' → (∀ m ∈ ks', m.sh = sh) →
      (ks'.map fun m => m.eval x0 x1 p q).sum = (ks.map fun m => act T arg m.eval x0 x1 p q).sum
  | [], [], _, _ => rfl
  | k :: ks, k' :: ks', .cons h t, hsh => by
    rw [List.map_cons, List.map_cons, List.sum_cons, List.sum_cons,
      forall2_map_sum x0 x1 p q hp hq t fun m hm => hsh m (List.mem_cons_of_mem _ hm),
      h.ev x0 x1 p q (by rw [hsh k' List.mem_cons_self]; exact hp) (by rw [hsh k' List.mem_cons_self]; exact hq)]

lemma forall2_get {R : K X → K X → Prop} : ∀ {ks ks' : List (K X)}, List.Forall₂ R ks ks' → ∀ (n : ℕ) (k' : K X), ks'[n]? = some k' →
    ∃ k, ks[n]? = some k ∧ R k k'
  | _, _, .nil, n, k', h => by simp at h
  | _, _, .cons hr t, 0, k', h => by
    simp only [List.length_cons, Nat.zero_lt_succ, getElem?_pos, List.getElem_cons_zero, Option.some.injEq] at h
    subst h
    exact ⟨_, rfl, hr⟩
  | _, _, .cons hr t, n + 1, k', h => by
    simpa using forall2_get t n k' (by simpa using h)

lemma forall2_mem {R : K X → K X → Prop} {ks ks' : List (K X)} (hr : List.Forall₂ R ks ks') (k' : K X) (hk : k' ∈ ks') :
    ∃ k ∈ ks, R k k' := by
  obtain ⟨n, hn⟩ := List.mem_iff_getElem?.mp hk
  obtain ⟨k, h1, h2⟩ := forall2_get hr n k' hn
  exact ⟨k, List.mem_of_getElem? h1, h2⟩

lemma good_smul {T : Val X →ₗ[ℝ] Val X} {o : Shapes} {arg : Bool} {m m' : K X} (c : ℝ) (h : Good T o arg m m') :
    Good T o arg (.scaled m c) (m'.smul c) := by
  obtain ⟨h1, h2, h3, h4, _⟩ := smul_spec c m'
  refine ⟨h3.mpr h.wf, by rw [h1, h.sh]; rfl, fun x0 x1 p q hp hq => ?_, fun hs => (h4 arg).mpr (h.safe hs)⟩
  rw [h1] at hp hq
  rw [h2, h.ev x0 x1 p q hp hq]
  have : (K.scaled m c).eval = fun x0 x1 p q => c * m.eval x0 x1 p q := by funext x0 x1 p q; exact eval_scaled ..
  rw [this, act_mul]

lemma good_sum {T : Val X →ₗ[ℝ] Val X} {o : Shapes} {arg : Bool} {sh : KSh} {ks ks' : List (K X)} {k' : K X}
    (hw : (K.sum sh ks).WF) (h : List.Forall₂ (Good T o arg) ks ks') (hk : mkPnSum ks' = .ok k') :
    Good T o arg (.sum sh ks) k' := by
  obtain ⟨hne, hsh, _⟩ := hw
  obtain ⟨h1, h2, h3, h4⟩ := mkPnSum_spec ks' k' hk fun m hm => by
    obtain ⟨_, _, hg⟩ := forall2_mem h m hm; exact hg.wf
  have hk' : k'.sh = sh.set arg o := by
    cases h with
    | nil => exact absurd rfl hne
    | cons hg t => rw [← h2 _ List.mem_cons_self, hg.sh, hsh _ List.mem_cons_self]
  refine ⟨h1, hk', fun x0 x1 p q hp hq => ?_, fun hs => ?_⟩
  · rw [h3, forall2_map_sum x0 x1 p q hp hq h h2]
    have : (K.sum sh ks).eval = fun x0 x1 p q => ((ks.map K.eval).map fun e => e x0 x1 p q).sum := by
      funext x0 x1 p q; rw [eval_sum, List.map_map]; rfl
    rw [this, act_listsum]; dsimp only; rw [List.map_map]; rfl
  · rw [K.Safe, allSafe_iff] at hs
    refine h4 arg fun m hm => ?_
    obtain ⟨k, hk, hg⟩ := forall2_mem h m hm
    exact hg.safe (hs k hk)

lemma good_stack {T : Val X →ₗ[ℝ] Val X} {o : Shapes} {arg idx : Bool} {i0 i1 s : Shp} {ks ks' : List (K X)} {k' : K X}
    {i : Shapes} (hl : Loc i.2 o.2 T) (hf : Fit i arg (.stack i0 i1 s idx ks)) (ho : arg ≠ idx)
    (hw : (K.stack i0 i1 s idx ks).WF) (h : List.Forall₂ (Good T o arg) ks ks') (hk : mkStack s ks' idx = .ok k') :
    Good T o arg (.stack i0 i1 s idx ks) k' := by
  obtain ⟨hlen, hne, hsh, _⟩ := hw
  obtain ⟨j0, j1, rfl, hne', hsh'⟩ := mkStack_spec s ks' idx k' hk
  have hi : i.2 = [] := by
    rw [← hf.2]; cases arg <;> cases idx <;> simp_all [K.sh, KSh.outA]
  have hpart : ∃ k ∈ ks, ∃ m ∈ ks', m.sh = k.sh.set arg o := by
    cases h with
    | nil => exact absurd rfl hne
    | cons hg t => exact ⟨_, List.mem_cons_self, _, List.mem_cons_self, hg.sh⟩
  obtain ⟨k, hk0, m, hm, hkm⟩ := hpart
  rw [hsh k hk0, hsh' m hm] at hkm
  refine ⟨?_, ?_, fun x0 x1 p q hp hq => ?_, fun hs => ?_⟩
  · rw [K.WF, allWF_iff]
    refine ⟨by rw [← h.length_eq, hlen], hne', hsh', fun m hm => ?_⟩
    obtain ⟨_, _, hg⟩ := forall2_mem h m hm; exact hg.wf
  · cases arg <;> cases idx <;> simp_all [K.sh, KSh.set]
  · rw [eval_stack]
    have hpos : (if idx then q else p) < ks'.length := by
      rw [← h.length_eq, hlen]; cases idx <;> simpa [K.sh] using by assumption
    obtain ⟨k1, hk1⟩ : ∃ k1, ks'[if idx then q else p]? = some k1 := ⟨_, List.getElem?_eq_getElem hpos⟩
    obtain ⟨k2, hk2, hg⟩ := forall2_get h _ _ hk1
    have hs1 := hsh' k1 (List.mem_of_getElem? hk1)
    rw [hk1, Option.map_some, Option.getD_some, hg.ev x0 x1 0 0 (by rw [hs1]; simp) (by rw [hs1]; simp)]
    have hkm' : o.2 = [] := by
      have := congrArg (KSh.outA · arg) hkm
      simp only [set_outA] at this
      rw [← this]; cases arg <;> rfl
    cases arg
    · have : idx = true := by cases idx <;> simp_all
      subst this
      simp only [↓reduceIte] at hk2
      have hp0 : p = 0 := by simpa [K.sh] using hp
      subst hp0
      simp only [act, Bool.false_eq_true, ↓reduceIte]
      refine hl _ _ (fun y r hr => ?_) x0 0 (by rw [hkm']; simp)
      have hr0 : r = 0 := by rw [hi] at hr; simpa using hr
      subst hr0
      rw [eval_stack]; simp [hk2]
    · have : idx = false := by cases idx <;> simp_all
      subst this
      simp only [Bool.false_eq_true, ↓reduceIte] at hk2
      have hq0 : q = 0 := by simpa [K.sh] using hq
      subst hq0
      simp only [act, ↓reduceIte]
      refine hl _ _ (fun y r hr => ?_) x1 0 (by rw [hkm']; simp)
      have hr0 : r = 0 := by rw [hi] at hr; simpa using hr
      subst hr0
      rw [eval_stack]; simp [hk2]
  · rw [K.Safe, allSafe_iff] at hs ⊢
    refine ⟨fun he => absurd he.symm ho, fun m hm => ?_⟩
    obtain ⟨k, hk, hg⟩ := forall2_mem h m hm
    exact hg.safe (hs.2 k hk)

lemma good_zero {T : Val X →ₗ[ℝ] Val X} {o : Shapes} {arg : Bool} (sh : KSh) :
    Good T o arg (.zero sh) (.zero (sh.set arg o)) := by
  refine ⟨trivial, rfl, fun x0 x1 p q _ _ => ?_, fun _ => trivial⟩
  have : (K.zero sh : K X).eval = fun _ _ _ _ => 0 := by funext x0 x1 p q; exact eval_zero ..
  rw [eval_zero, this, act_zero]

lemma bind_ok {α β : Type} {x : Except Err α} {f : α → Except Err β} {b : β} (h : (x >>= f) = .ok b) :
    ∃ a, x = .ok a ∧ f a = .ok b := by
  rcases x with e | a
  · cases h
  · exact ⟨a, rfl, h⟩

lemma bind_ni {α β : Type} {x : Except Err α} {f : α → Except Err β} (hx : x ≠ .error .notImplemented)
    (hf : ∀ a, f a ≠ .error .notImplemented) : (x >>= f) ≠ .error .notImplemented := by
  rcases x with e | a
  · simpa [bind, Except.bind] using hx
  · exact hf a

lemma noRule_ne_ok (h : H X) (k k' : K X) (arg : Bool) : h.noRule k arg ≠ .ok k' := by
  unfold H.noRule
  split_ifs
  · intro hc; obtain ⟨_, _, h2⟩ := bind_ok hc; cases h2
  · simp

mutual
/-- If the rules of the class are right, so is every call. -/
theorem call_good (h : H X) (T : Val X →ₗ[ℝ] Val X) (s : Option Shp) (arg : Bool) (hs : h.Sound T s arg) :
    ∀ k k' : K X, h.call arg k = .ok k' → k.WF → Fit h.i arg k → Side s arg k → Good T h.o arg k k'
  | .base sh cls j ev, k', hc, hw, hf, hp => by
    rw [H.call] at hc
    rcases wrap_cases hs hc hw hf hp (fun _ hl => absurd trivial hl) with hg | hg
    · exact hg
    · exact absurd hg (noRule_ne_ok _ _ _ _)
  | .scaled m c, k', hc, hw, hf, hp => by
    rw [H.call] at hc
    rcases wrap_cases hs hc hw hf hp (fun hn hl => by
      rw [if_pos (by simpa [K.Leaf] using hl)]
      exact bind_ni (validate_ne_ni _ _ _) fun _ => bind_ni (call_ne_ni h hn arg m) (by simp)) with hg | hg
    · exact hg
    · split_ifs at hg
      obtain ⟨_, _, h2⟩ := bind_ok hg
      obtain ⟨m', h3, h4⟩ := bind_ok h2
      cases h4
      exact good_smul c (call_good h T s arg hs m m' h3 hw hf hp)
  | .sum sh ks, k', hc, hw, hf, hp => by
    rw [H.call] at hc
    rcases wrap_cases hs hc hw hf hp (fun hn hl => by
      rw [if_pos (by simpa [K.Leaf] using hl)]
      exact bind_ni (validate_ne_ni _ _ _) fun _ => bind_ni (callAll_ne_ni h hn arg ks) mkJaxSum_ne_ni) with hg | hg
    · exact hg
    · split_ifs at hg
      obtain ⟨_, _, h2⟩ := bind_ok hg
      obtain ⟨ks', h3, h4⟩ := bind_ok h2
      have hsh : ∀ m ∈ ks, m.sh = (K.sum sh ks).sh := hw.2.1
      refine good_sum hw (callAll_good h T s arg hs ks ks' h3 ((allWF_iff ks).mp hw.2.2) (fun m hm => ?_) fun m hm d hd => ?_)
        (mkJaxSum_spec _ _ h4)
      · unfold Fit; rw [hsh m hm]; exact hf
      · have := hp d hd
        rw [hsh m hm]
        exact ⟨(allSafe_iff arg ks).mp this.1 m hm, this.2⟩
  | .stack i0 i1 sp idx ks, k', hc, hw, hf, hp => by
    rw [H.call] at hc
    rcases wrap_cases hs hc hw hf hp (fun hn hl => by
      refine bind_ni (validate_ne_ni _ _ _) fun _ => ?_
      rw [if_pos (by simpa [K.Leaf] using hl)]
      exact bind_ni (callAll_ne_ni h hn arg ks) fun _ => mkStack_ne_ni _ _ _) with hg | hg
    · exact hg
    · obtain ⟨_, _, h2⟩ := bind_ok hg
      split_ifs at h2 with ho
      obtain ⟨ks', h3, h4⟩ := bind_ok h2
      have hsh := hw.2.2.1
      refine good_stack hs.loc hf ho hw (callAll_good h T s arg hs ks ks' h3 ((allWF_iff ks).mp hw.2.2.2)
        (fun m hm => ?_) fun m hm d hd => ?_) h4
      · unfold Fit; rw [hsh m hm]
        clear hc hp hs h3 hsh
        revert hf ho
        unfold Fit
        cases arg <;> cases idx <;> simp [K.sh, KSh.inA, KSh.outA]
      · have := hp d hd
        rw [hsh m hm]
        refine ⟨(allSafe_iff arg ks).mp this.1.2 m hm, ?_⟩
        rw [← this.2]
        cases arg <;> rfl
  | .imo i ks, k', hc, hw, hf, hp => by
    rw [H.call] at hc
    rcases wrap_cases hs hc hw hf hp (fun _ hl => absurd trivial hl) with hg | hg
    · exact hg
    · exact absurd hg (noRule_ne_ok _ _ _ _)
  | .zero sh, k', hc, hw, hf, hp => by
    rw [H.call] at hc
    rcases wrap_cases hs hc hw hf hp (fun _ _ => bind_ni (validate_ne_ni _ _ _) (by simp)) with hg | hg
    · exact hg
    · obtain ⟨_, _, h2⟩ := bind_ok hg
      cases h2
      exact good_zero sh
/-- The same for every part. -/
theorem callAll_good (h : H X) (T : Val X →ₗ[ℝ] Val X) (s : Option Shp) (arg : Bool) (hs : h.Sound T s arg) :
    ∀ ks ks' : List (K X), callAll h arg ks = .ok ks' → (∀ k ∈ ks, k.WF) → (∀ k ∈ ks, Fit h.i arg k) →
      (∀ k ∈ ks, Side s arg k) → List.Forall₂ (Good T h.o arg) ks ks'
  | [], ks', hc, _, _, _ => by
    rw [callAll] at hc; cases hc; exact .nil
  | k :: ks, ks', hc, hw, hf, hp => by
    rw [callAll] at hc
    obtain ⟨k', h1, h2⟩ := bind_ok hc
    obtain ⟨ms, h3, h4⟩ := bind_ok h2
    cases h4
    exact .cons (call_good h T s arg hs k k' h1 (hw k List.mem_cons_self) (hf k List.mem_cons_self) (hp k List.mem_cons_self))
      (callAll_good h T s arg hs ks ms h3 (fun m hm => hw m (List.mem_cons_of_mem _ hm))
        (fun m hm => hf m (List.mem_cons_of_mem _ hm)) fun m hm => hp m (List.mem_cons_of_mem _ hm))
end

end LinPDE.CovAlg
