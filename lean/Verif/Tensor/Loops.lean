import Verif.Tensor.Props

/-!
# The loops of `TensorProduct_LinDiffOp_LinDiffOp`
-/

namespace LinPDE.Tensor
open LinPDE.Nd LinPDE.Grid LinPDE.Coeff

/-! ## Dictionaries -/

lemma get?_put {α : Type} (d : OrdDict α) (key key' : ℕ × ℕ) (v : α) :
    (d.put key v).get? key' = if key = key' then some v else d.get? key' := by
  induction d with
  | nil =>
    by_cases h : key = key'
    · subst h; simp [OrdDict.put, OrdDict.get?]
    · simp [OrdDict.put, OrdDict.get?, h]
  | cons kv d ih =>
    obtain ⟨k, w⟩ := kv
    unfold OrdDict.put
    by_cases hk : k = key
    · subst hk
      rw [if_pos rfl]
      by_cases h : k = key'
      · subst h; simp [OrdDict.get?]
      · simp [OrdDict.get?, h]
    · rw [if_neg hk]
      by_cases h : k = key'
      · subst h
        have hk' : ¬ key = k := fun h => hk h.symm
        simp [OrdDict.get?, hk']
      · have e : ∀ (r : OrdDict α), OrdDict.get? ((k, w) :: r) key' = r.get? key' := by
          intro r; simp [OrdDict.get?, h]
        rw [e, e, ih]

lemma look_put {α : Type} (c : Cache α) (i i' : ℕ) (key key' : ℕ × ℕ) (v : α) (hi : i < c.length) :
    (c.put i key v).look i' key' = if i = i' ∧ key = key' then some v else c.look i' key' := by
  unfold Cache.put Cache.look
  by_cases h : i = i'
  · subst h
    rw [List.getD_eq_getElem?_getD, List.getElem?_set_self hi, Option.getD_some, get?_put]
    simp
  · rw [List.getD_eq_getElem?_getD, List.getElem?_set_ne h, ← List.getD_eq_getElem?_getD]
    simp [h]

lemma put_length {α : Type} (c : Cache α) (i : ℕ) (key : ℕ × ℕ) (v : α) : (c.put i key v).length = c.length := by
  simp [Cache.put]

lemma look_replicate {α : Type} (n i : ℕ) (key : ℕ × ℕ) : Cache.look (List.replicate n ([] : OrdDict α)) i key = none := by
  unfold Cache.look
  rw [List.getD_eq_getElem?_getD]
  by_cases h : i < n
  · simp [OrdDict.get?, h]
  · simp [OrdDict.get?, h]

/-! ## Construction -/

/-- A factor differentiated in both arguments. -/
def getFac (pd : PDFac) (fs : List Fac) (i : ℕ) (key : ℕ × ℕ) : Except Err Fac :=
  match fs[i]? with
  | none => .error .indexError
  | some k => do
    let k1 ← applyPD pd true key.2 k
    applyPD pd false key.1 k1

/-- Its value if there is one. -/
def facD (pd : PDFac) (fs : List Fac) (i : ℕ) (key : ℕ × ℕ) : Fac :=
  match getFac pd fs i key with
  | .ok k => k
  | .error _ => ⟨[], [], [], fun _ _ _ => 0⟩

/-- Orders of two multi-indices in dimension `i`. -/
def keyAt (a b : MI) (i : ℕ) : ℕ × ℕ := (a.data.getD i 0, b.data.getD i 0)

/-- Invariant of the dictionaries of differentiated factors. -/
def InvF (pd : PDFac) (fs : List Fac) (c : Cache Fac) : Prop :=
  ∀ i key v, c.look i key = some v → v = facD pd fs i key

lemma innerLoop_spec (pd : PDFac) (fs : List Fac) (a b : MI) : ∀ (is : List ℕ) (c : Cache Fac) (ks : List Fac) (c' : Cache Fac),
    innerLoop pd fs a b is c = .ok (ks, c') → InvF pd fs c → (∀ i ∈ is, i < c.length) →
    ks = is.map (fun i => facD pd fs i (keyAt a b i)) ∧
    (∀ i ∈ is, getFac pd fs i (keyAt a b i) = .ok (facD pd fs i (keyAt a b i))) ∧
    InvF pd fs c' ∧ c'.length = c.length ∧
    (∀ i key, (c.look i key).isSome → (c'.look i key).isSome) ∧ (∀ i ∈ is, (c'.look i (keyAt a b i)).isSome)
  | [], c, ks, c', h, hI, _ => by
    simp only [innerLoop, Except.ok.injEq, Prod.mk.injEq] at h
    obtain ⟨rfl, rfl⟩ := h
    simp [hI]
  | i :: is, c, ks, c', h, hI, hl => by
    unfold innerLoop at h
    rcases hk : fs[i]? with _ | k
    · simp [hk] at h
    simp only [hk] at h
    rcases h1 : applyPD pd true (b.data.getD i 0) k with e | k1
    · simp only [h1, bind, Except.bind, reduceCtorEq] at h
    rcases h2 : applyPD pd false (a.data.getD i 0) k1 with e | k01
    · simp only [h1, h2, bind, Except.bind, reduceCtorEq] at h
    have hg : getFac pd fs i (keyAt a b i) = .ok k01 := by
      simp only [getFac, hk, keyAt, h1, bind, Except.bind, h2]
    have hf : facD pd fs i (keyAt a b i) = k01 := by simp only [facD, hg]
    simp only [h1, h2, bind, Except.bind] at h
    rcases h3 : innerLoop pd fs a b is (c.put i (a.data.getD i 0, b.data.getD i 0) k01) with e | ⟨r, c1⟩
    · simp only [h3, reduceCtorEq] at h
    simp only [h3, Except.ok.injEq, Prod.mk.injEq] at h
    obtain ⟨rfl, rfl⟩ := h
    have hi : i < c.length := hl i (by simp)
    obtain ⟨e1, e2, e3, e4, e5, e6⟩ := innerLoop_spec pd fs a b is _ r c1 h3 (by
      intro j key v hv
      rw [look_put _ _ _ _ _ _ hi] at hv
      split_ifs at hv with hh
      · obtain ⟨rfl, rfl⟩ := hh
        cases hv
        exact hf.symm
      · exact hI j key v hv) (by
      intro j hj
      rw [put_length]
      exact hl j (by simp [hj]))
    refine ⟨?_, ?_, e3, by rw [e4, put_length], ?_, ?_⟩
    · rw [List.map_cons, e1, hf]
    · intro j hj
      rcases List.mem_cons.mp hj with rfl | hj
      · rw [hg, hf]
      · exact e2 j hj
    · intro j key hs
      refine e5 j key ?_
      rw [look_put _ _ _ _ _ _ hi]
      split_ifs <;> simp [hs]
    · intro j hj
      rcases List.mem_cons.mp hj with rfl | hj
      · refine e5 _ _ ?_
        rw [look_put _ _ _ _ _ _ hi]
        simp [keyAt]
      · exact e6 j hj

lemma outerLoop_spec (pd : PDFac) (fs : List Fac) : ∀ (ps : List ((MI × ℝ) × (MI × ℝ))) (c : Cache Fac) (ss : List (ℝ × TP)) (c' : Cache Fac),
    outerLoop pd fs ps c = .ok (ss, c') → InvF pd fs c → c.length = fs.length → (∀ p ∈ ps, p.1.1.data.length = fs.length) →
    ss.length = ps.length ∧
    (∀ (n : ℕ) (p : (MI × ℝ) × (MI × ℝ)), ps[n]? = some p → ∃ t, ss[n]? = some (p.1.2 * p.2.2, t) ∧
      mkTP ((List.range fs.length).map fun i => facD pd fs i (keyAt p.1.1 p.2.1 i)) = .ok t) ∧
    (∀ p ∈ ps, ∀ i < fs.length, getFac pd fs i (keyAt p.1.1 p.2.1 i) = .ok (facD pd fs i (keyAt p.1.1 p.2.1 i))) ∧
    InvF pd fs c' ∧ (∀ i key, (c.look i key).isSome → (c'.look i key).isSome) ∧
    (∀ p ∈ ps, ∀ i < fs.length, (c'.look i (keyAt p.1.1 p.2.1 i)).isSome)
  | [], c, ss, c', h, hI, _, _ => by
    simp only [outerLoop, Except.ok.injEq, Prod.mk.injEq] at h
    obtain ⟨rfl, rfl⟩ := h
    simp [hI]
  | ((a, ca), (b, cb)) :: ps, c, ss, c', h, hI, hc, hr => by
    unfold outerLoop at h
    rcases h1 : innerLoop pd fs a b (List.range a.data.length) c with e | ⟨ks, c1⟩
    · simp [h1, bind, Except.bind] at h
    rcases h2 : mkTP ks with e | t
    · simp [h1, h2, bind, Except.bind] at h
    rcases h3 : outerLoop pd fs ps c1 with e | ⟨ss1, c2⟩
    · simp [h1, h2, h3, bind, Except.bind] at h
    simp only [h1, h2, h3, bind, Except.bind, Except.ok.injEq, Prod.mk.injEq] at h
    obtain ⟨rfl, rfl⟩ := h
    have ha : a.data.length = fs.length := hr ((a, ca), (b, cb)) (by simp)
    rw [ha] at h1
    obtain ⟨e1, e2, e3, e4, e5, e6⟩ := innerLoop_spec pd fs a b _ c ks c1 h1 hI (by
      intro i hi; rw [hc]; exact List.mem_range.mp hi)
    obtain ⟨f0, f1, f2, f3, f4, f5⟩ := outerLoop_spec pd fs ps c1 ss1 c2 h3 e3 (by rw [e4, hc]) fun p hp => hr p (by simp [hp])
    refine ⟨by simp [f0], ?_, ?_, f3, fun i key hs => f4 i key (e5 i key hs), ?_⟩
    · intro n p hp
      rcases n with _ | n
      · simp only [List.getElem?_cons_zero, Option.some.injEq] at hp
        subst hp
        exact ⟨t, by simp, by rw [← e1]; exact h2⟩
      · simp only [List.getElem?_cons_succ] at hp ⊢
        exact f1 n p hp
    · intro p hp i hi
      rcases List.mem_cons.mp hp with rfl | hp
      · exact e2 i (List.mem_range.mpr hi)
      · exact f2 p hp i hi
    · intro p hp i hi
      rcases List.mem_cons.mp hp with rfl | hp
      · exact f4 _ _ (e6 i (List.mem_range.mpr hi))
      · exact f5 p hp i hi

/-! ## Evaluation -/

/-- Invariant of the dictionaries of results. -/
def InvT {α : Type} (V : ℕ → ℕ × ℕ → α) (c : Cache α) : Prop := ∀ i key v, c.look i key = some v → v = V i key

lemma termLoop_spec {α : Type} (f : Fac → ℕ → Except Err α) (facs : Cache Fac) (a b : MI) (V : ℕ → ℕ × ℕ → α) :
    ∀ (is : List ℕ) (c : Cache α), InvT V c → (∀ i ∈ is, i < c.length) →
    (∀ i ∈ is, ∃ k, facs.look i (keyAt a b i) = some k ∧ f k i = .ok (V i (keyAt a b i))) →
    ∃ c', termLoop f facs a b is c = .ok (is.map fun i => V i (keyAt a b i), c') ∧ InvT V c' ∧ c'.length = c.length
  | [], c, hI, _, _ => ⟨c, rfl, hI, rfl⟩
  | i :: is, c, hI, hl, hf => by
    unfold termLoop
    rcases hv : c.look i (a.data.getD i 0, b.data.getD i 0) with _ | v
    · obtain ⟨k, hk, hfk⟩ := hf i (by simp)
      obtain ⟨c', h1, h2, h3⟩ := termLoop_spec f facs a b V is (c.put i (a.data.getD i 0, b.data.getD i 0) (V i (keyAt a b i)))
        (by
          intro j key w hw
          rw [look_put _ _ _ _ _ _ (hl i (by simp))] at hw
          split_ifs at hw with hh
          · obtain ⟨rfl, rfl⟩ := hh
            cases hw; rfl
          · exact hI j key w hw)
        (by intro j hj; rw [put_length]; exact hl j (by simp [hj])) (fun j hj => hf j (by simp [hj]))
      refine ⟨c', ?_, h2, by rw [h3, put_length]⟩
      have hk' : facs.look i (a.data.getD i 0, b.data.getD i 0) = some k := hk
      simp only [hv, hk', hfk, h1, bind, Except.bind, List.map_cons]
    · obtain ⟨c', h1, h2, h3⟩ := termLoop_spec f facs a b V is c hI (fun j hj => hl j (by simp [hj])) (fun j hj => hf j (by simp [hj]))
      refine ⟨c', ?_, h2, h3⟩
      simp only [hv, h1, bind, Except.bind, List.map_cons]
      rw [hI i _ v hv]
      rfl

/-- Value of one term. -/
def termVal {α : Type} [Inhabited α] (op : α → α → α) (V : ℕ → ℕ × ℕ → α) (d : ℕ) (p : (MI × ℝ) × (MI × ℝ)) : α :=
  match (List.range d).map fun i => V i (keyAt p.1.1 p.2.1 i) with
  | [] => default
  | a :: l => reduce op a l

lemma resLoop_spec {α : Type} [Inhabited α] (f : Fac → ℕ → Except Err α) (op : α → α → α) (add : ℝ → α → α → α) (facs : Cache Fac) (d : ℕ)
    (hd : 0 < d) (V : ℕ → ℕ × ℕ → α) : ∀ (ps : List ((MI × ℝ) × (MI × ℝ))) (res : α) (c : Cache α), InvT V c → c.length = d →
    (∀ p ∈ ps, ∀ i < d, ∃ k, facs.look i (keyAt p.1.1 p.2.1 i) = some k ∧ f k i = .ok (V i (keyAt p.1.1 p.2.1 i))) →
    resLoop f op add facs d ps res c = .ok (ps.foldl (fun r p => add (p.1.2 * p.2.2) (termVal op V d p) r) res)
  | [], res, c, _, _, _ => rfl
  | ((a, ca), (b, cb)) :: ps, res, c, hI, hc, hf => by
    unfold resLoop
    obtain ⟨c', h1, h2, h3⟩ := termLoop_spec f facs a b V (List.range d) c hI (by intro i hi; rw [hc]; exact List.mem_range.mp hi)
      (fun i hi => hf ((a, ca), (b, cb)) (by simp) i (List.mem_range.mp hi))
    have hr : reduceE op ((List.range d).map fun i => V i (keyAt a b i)) = .ok (termVal op V d ((a, ca), (b, cb))) := by
      obtain ⟨d', rfl⟩ := Nat.exists_eq_succ_of_ne_zero hd.ne'
      simp only [termVal, List.range_succ_eq_map, List.map_cons, reduceE]
    simp only [h1, hr, bind, Except.bind, List.foldl_cons]
    exact resLoop_spec f op add facs d hd V ps _ c' h2 (by rw [h3, hc]) fun p hp => hf p (by simp [hp])

/-- All multi-indices of a row have `d` entries. -/
def RowOK (d : ℕ) (r : Row) : Prop := ∀ mc ∈ r, mc.1.data.length = d

/-- What a successful construction provides. -/
structure Built (pd : PDFac) (k : TP) (L0 L1 : DOp) (r0 r1 : Row) (K : TPLL) : Prop where
  row0 : coeffRow L0 = .ok r0
  row1 : coeffRow L1 = .ok r1
  hk : K.k = k
  h0 : K.L0 = L0
  h1 : K.L1 = L1
  len : K.summands.length = (pairs r0 r1).length
  ne : pairs r0 r1 ≠ []
  summ : ∀ (n : ℕ) (p : (MI × ℝ) × (MI × ℝ)), (pairs r0 r1)[n]? = some p → ∃ t, K.summands[n]? = some (p.1.2 * p.2.2, t) ∧
      mkTP ((List.range k.factors.length).map fun i => facD pd k.factors i (keyAt p.1.1 p.2.1 i)) = .ok t
  ok : ∀ p ∈ pairs r0 r1, ∀ i < k.factors.length,
    getFac pd k.factors i (keyAt p.1.1 p.2.1 i) = .ok (facD pd k.factors i (keyAt p.1.1 p.2.1 i))
  cached : ∀ p ∈ pairs r0 r1, ∀ i < k.factors.length,
    K.cache.look i (keyAt p.1.1 p.2.1 i) = some (facD pd k.factors i (keyAt p.1.1 p.2.1 i))

lemma mem_pairs {r0 r1 : Row} {p : (MI × ℝ) × (MI × ℝ)} : p ∈ pairs r0 r1 ↔ p.1 ∈ r0 ∧ p.2 ∈ r1 := by
  obtain ⟨a, b⟩ := p
  simp [pairs]

lemma mkTPLL_built {pd : PDFac} {k : TP} {L0 L1 : DOp} {K : TPLL} (h : mkTPLL pd k L0 L1 = .ok K)
    (hr : ∀ r, coeffRow L0 = .ok r → RowOK k.factors.length r) : ∃ r0 r1, Built pd k L0 L1 r0 r1 K := by
  unfold mkTPLL at h
  rcases e0 : coeffRow L0 with e | r0
  · simp [e0, bind, Except.bind] at h
  rcases e1 : coeffRow L1 with e | r1
  · simp [e0, e1, bind, Except.bind] at h
  rcases e2 : outerLoop pd k.factors (pairs r0 r1) (List.replicate k.factors.length []) with e | ⟨ss, c⟩
  · simp [e0, e1, e2, bind, Except.bind] at h
  simp only [e0, e1, e2, bind, Except.bind] at h
  split_ifs at h with hne
  cases h
  obtain ⟨f0, f1, f2, f3, f4, f5⟩ := outerLoop_spec pd k.factors _ _ ss c e2 (by
    intro i key v hv
    rw [look_replicate] at hv
    cases hv) (by simp) (fun p hp => hr r0 e0 _ (mem_pairs.mp hp).1)
  refine ⟨r0, r1, ⟨e0, e1, rfl, rfl, rfl, f0, ?_, f1, f2, ?_⟩⟩
  · intro hp
    rw [hp] at f0
    simp at f0
    simp [f0] at hne
  · intro p hp i hi
    obtain ⟨v, hv⟩ := Option.isSome_iff_exists.mp (f5 p hp i hi)
    show c.look i _ = _
    rw [hv, f3 i _ v hv]

lemma computeRes_built {α : Type} [Inhabited α] {pd : PDFac} {k : TP} {L0 L1 : DOp} {r0 r1 : Row} {K : TPLL}
    (hB : Built pd k L0 L1 r0 r1 K) (f : Fac → ℕ → Except Err α) (op : α → α → α) (add : ℝ → α → α → α) (zero : α)
    (V : ℕ → ℕ × ℕ → α) (hV : ∀ p ∈ pairs r0 r1, ∀ i < k.factors.length,
      f (facD pd k.factors i (keyAt p.1.1 p.2.1 i)) i = .ok (V i (keyAt p.1.1 p.2.1 i))) :
    K.computeRes f op add zero =
      .ok ((pairs r0 r1).foldl (fun r p => add (p.1.2 * p.2.2) (termVal op V k.factors.length p) r) zero) := by
  unfold TPLL.computeRes
  simp only [hB.h0, hB.h1, hB.hk, hB.row0, hB.row1, bind, Except.bind]
  refine resLoop_spec f op add K.cache _ (by simp [TP.factors]) V _ zero _ ?_ (by simp) ?_
  · intro i key v hv
    rw [look_replicate] at hv
    cases hv
  · intro p hp i hi
    exact ⟨_, hB.cached p hp i hi, hV p hp i hi⟩

end LinPDE.Tensor
