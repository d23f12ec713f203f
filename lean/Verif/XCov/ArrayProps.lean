import Verif.XCov.ArrayView

/-!
# Cross-covariances: the array view
-/

namespace LinPDE.XCov
open LinPDE.Nd LinPDE.Ops LinPDE.CovAlg LinPDE.Covar
variable {X : Type}

lemma checked_holds {c : PV X} {x : Pts X} {e : Except Err (Nd.Arr ℝ)} (hx : x.inS = c.inS)
    (h : ∃ a, e = .ok a ∧ Holds c.rev c.rv c.outS x c.den a) :
    ∃ a, c.checked x e = .ok a ∧ Holds c.rev c.rv c.outS x c.den a := by
  obtain ⟨a, rfl, ha⟩ := h
  refine ⟨a, ?_, ha⟩
  unfold PV.checked
  rw [if_neg (by simpa using hx)]
  show (if _ then _ else _) = _
  rw [if_pos ha.1]

lemma matFold_ok (s : Shp) : ∀ (ms : List (Nd.Arr ℝ)) (m : Nd.Arr ℝ), m.shape = s → (∀ n ∈ ms, n.shape = s) →
    ∃ a, ms.foldlM matAdd m = .ok a ∧ a.shape = s ∧ ∀ i, a.get i = m.get i + (ms.map fun n => n.get i).sum
  | [], m, hm, _ => ⟨m, rfl, hm, by simp⟩
  | n :: ms, m, hm, hn => by
    obtain ⟨a, h1, h2, h3⟩ := matFold_ok s ms (addArr m n) hm fun k hk => hn k (List.mem_cons_of_mem _ hk)
    refine ⟨a, ?_, h2, fun i => ?_⟩
    · rw [List.foldlM_cons]
      have : matAdd m n = .ok (addArr m n) := if_pos (by rw [hm, hn n List.mem_cons_self])
      rw [this]
      exact h1
    · rw [h3 i]; simp [addArr, add_assoc]

lemma map_sum_forall2 {α β : Type} {f : α → ℝ} {g : β → ℝ} : ∀ {as : List α} {bs : List β},
    List.Forall₂ (fun a b => g b = f a) as bs → (bs.map g).sum = (as.map f).sum
  | _, _, .nil => rfl
  | _, _, .cons h t => by simp [h, map_sum_forall2 t]

lemma forall2_getElem? {α β : Type} {R : α → β → Prop} : ∀ {as : List α} {bs : List β}, List.Forall₂ R as bs →
    ∀ {n : ℕ} {a : α}, as[n]? = some a → ∃ b, bs[n]? = some b ∧ R a b
  | _, _, .nil, n, a, h => by simp at h
  | _, _, .cons h t, 0, a, hn => by simp at hn; subst hn; exact ⟨_, rfl, h⟩
  | _, _, .cons h t, n + 1, a, hn => by
    simp at hn
    obtain ⟨b, h1, h2⟩ := forall2_getElem? t hn
    exact ⟨b, by simpa using h1, h2⟩

lemma forall2_mem' {α β : Type} {R : α → β → Prop} {as : List α} {bs : List β} (h : List.Forall₂ R as bs) :
    ∀ b ∈ bs, ∃ a ∈ as, R a b := by
  induction h with
  | nil => simp
  | cons h t ih =>
    intro b hb
    rcases List.mem_cons.mp hb with rfl | hb
    · exact ⟨_, List.mem_cons_self, h⟩
    · obtain ⟨a, ha, hr⟩ := ih b hb
      exact ⟨a, List.mem_cons_of_mem _ ha, hr⟩

lemma forall2_imp_mem {α β : Type} {R S : α → β → Prop} {as : List α} {bs : List β} (h : List.Forall₂ R as bs)
    (hi : ∀ a ∈ as, ∀ b, R a b → S a b) : List.Forall₂ S as bs := by
  induction h with
  | nil => exact .nil
  | cons h t ih => exact .cons (hi _ List.mem_cons_self _ h) (ih fun a ha => hi a (List.mem_cons_of_mem _ ha))

lemma sum_holds {i o r : Shp} {rev : Bool} {cs : List (PV X)} {as : List (Nd.Arr ℝ)} {x : Pts X} (hw : (PV.sum i o r rev cs).WF)
    (h : List.Forall₂ (fun c a => Holds c.rev c.rv c.outS x c.den a) cs as) :
    ∃ a, arrSum as = .ok a ∧ Holds rev r o x (PV.sum i o r rev cs).den a := by
  obtain ⟨hne, hsh, _⟩ := hw
  have h' : List.Forall₂ (fun (c : PV X) a => Holds rev r o x c.den a) cs as := forall2_imp_mem h fun c hc a ha => by
    obtain ⟨_, e2, e3, e4⟩ := hsh c hc
    rwa [e2, e3, e4] at ha
  cases as with
  | nil => cases h'; exact absurd rfl hne
  | cons m ms =>
    have hs : ∀ n ∈ m :: ms, n.shape = layout rev r x.batch o := fun n hn => by
      obtain ⟨c, _, hc⟩ := forall2_mem' h' n hn
      exact hc.1
    obtain ⟨a, h1, h2, h3⟩ := matFold_ok _ ms m (hs m List.mem_cons_self) fun n hn => hs n (List.mem_cons_of_mem _ hn)
    refine ⟨a, h1, h2, fun rr n p hr hn hp => ?_⟩
    rw [h3]
    have : m.get (pos rev rr n p) + (ms.map fun n' => n'.get (pos rev rr n p)).sum =
        ((m :: ms).map fun n' => n'.get (pos rev rr n p)).sum := by simp
    rw [this, map_sum_forall2 (f := fun c : PV X => c.den (x.pt n) (ravel o p) (ravel r rr))
      (h'.imp fun c a ha => ha.2 rr n p hr hn hp), PV.den, denAll_eq]
    dsimp only
    rw [List.map_map]
    rfl

lemma fits_one {m : ℕ} {i : List ℕ} (h : Fits [m] i) : ∃ j, i = [j] ∧ j < m := by
  match i, h with
  | [j], h => exact ⟨j, rfl, h.1⟩
  | _ :: _ :: _, h => exact h.2.elim

lemma ravel_one (m j : ℕ) : ravel [m] [j] = j := by simp [ravel]

lemma linop_holds {A : LMat} {c : PV X} {x : Pts X} {a : Nd.Arr ℝ} (hw : c.rv = [A.cols]) (h : Holds c.rev c.rv c.outS x c.den a) :
    Holds c.rev [A.rows] c.outS x (PV.linop A c).den (if c.rev then mulFirst A a else mulLast A a) := by
  rw [hw] at h
  obtain ⟨h1, h2⟩ := h
  cases hr : c.rev
  · rw [hr] at h1 h2
    simp only [layout, Bool.false_eq_true, if_false] at h1
    refine ⟨?_, fun r n p hrr hn hp => ?_⟩
    · simp [mulLast, layout, h1]
    · obtain ⟨j, rfl, hj⟩ := fits_one hrr
      simp only [Bool.false_eq_true, if_false, mulLast]
      rw [PV.den, ravel_one]
      refine Finset.sum_congr rfl fun t ht => ?_
      have := h2 [t] n p ⟨Finset.mem_range.mp ht, trivial⟩ hn hp
      rw [ravel_one] at this
      simp only [pos, Bool.false_eq_true, if_false] at this ⊢
      rw [← this]
      congr 2
      · rw [List.getD_eq_getElem?_getD]; simp
      · simp
  · rw [hr] at h1 h2
    simp only [layout, if_true] at h1
    refine ⟨?_, fun r n p hrr hn hp => ?_⟩
    · simp [mulFirst, layout, h1]
    · obtain ⟨j, rfl, hj⟩ := fits_one hrr
      simp only [if_true, mulFirst]
      rw [PV.den, ravel_one]
      refine Finset.sum_congr rfl fun t ht => ?_
      have := h2 [t] n p ⟨Finset.mem_range.mp ht, trivial⟩ hn hp
      rw [ravel_one] at this
      simp only [pos, if_true] at this ⊢
      rw [← this]
      congr 2

lemma perm3 {A B C : List ℕ} {a b c : ℕ} (ha : a = A.length) (hb : b = B.length) (hc : c = C.length) :
    ((rng 0 a).map fun ax => (A ++ B ++ C).getD ax 0) = A ∧ ((rng a b).map fun ax => (A ++ B ++ C).getD ax 0) = B ∧
    ((rng (a + b) c).map fun ax => (A ++ B ++ C).getD ax 0) = C :=
  ⟨rng_blk (P := []) (R := B ++ C) (by simp) rfl ha, rng_blk (P := A) (R := C) (by simp) ha hb,
    rng_blk (P := A ++ B) (R := []) (by simp) (by simp [ha, hb]) hc⟩

lemma mem3 {ax a b c : ℕ} (h : ax < a + b + c) : ax ∈ rng 0 a ∨ ax ∈ rng a b ∨ ax ∈ rng (a + b) c := by
  simp only [mem_rng]; omega

lemma den_stack (i r : Shp) (rev : Bool) (s : Shp) (cs : List (PV X)) (x : X) (p rr : ℕ) {c : PV X} (h : cs[p]? = some c) :
    (PV.stack i r rev s cs).den x p rr = c.den x 0 rr := by
  rw [PV.den, denAll_eq]
  dsimp only
  rw [List.getElem?_map, h]; rfl

lemma stack_holds {i r : Shp} {rev : Bool} {s : Shp} {cs : List (PV X)} {as : List (Nd.Arr ℝ)} {x : Pts X}
    (hw : (PV.stack i r rev s cs).WF) (h : List.Forall₂ (fun c a => Holds c.rev c.rv c.outS x c.den a) cs as) :
    ∃ a, stackEval false r rev s as = .ok a ∧ Holds rev r s x (PV.stack i r rev s cs).den a := by
  obtain ⟨hne, hlen, hsh, _⟩ := hw
  have h' : List.Forall₂ (fun (c : PV X) a => Holds rev r [] x c.den a) cs as := forall2_imp_mem h fun c hc a ha => by
    obtain ⟨_, e2, e3, e4⟩ := hsh c hc
    rwa [e2, e3, e4] at ha
  have hget : ∀ p, Fits s p → ∃ c a, cs[ravel s p]? = some c ∧ as[ravel s p]? = some a ∧ Holds rev r [] x c.den a := by
    intro p hp
    have hlt : ravel s p < cs.length := by rw [hlen]; exact ravel_lt hp
    obtain ⟨a, ha, hh⟩ := forall2_getElem? h' (List.getElem?_eq_getElem hlt)
    exact ⟨_, a, List.getElem?_eq_getElem hlt, ha, hh⟩
  cases as with
  | nil => cases h'; exact absurd rfl hne
  | cons m ms =>
    have hm : m.shape = layout rev r x.batch [] := by
      obtain ⟨c, _, hc⟩ := forall2_mem' h' m List.mem_cons_self
      exact hc.1
    cases rev
    · simp only [layout, Bool.false_eq_true, if_false, List.append_nil] at hm
      have hbs : m.shape.take (m.shape.length - r.length) = x.batch := by rw [hm]; simp
      unfold stackEval
      simp only [Bool.false_eq_true, if_false, hbs]
      obtain ⟨s1, s2, s3⟩ := perm3 (A := s) (B := x.batch) (C := r) rfl rfl rfl
      refine ⟨_, rfl, ?_, fun rr n p hr hn hp => ?_⟩
      · show List.map _ _ = _
        simp only [List.map_append, s1, s2, s3, layout, Bool.false_eq_true, if_false]
      · obtain ⟨c, a, hc, ha, hh⟩ := hget p hp
        obtain ⟨t1, t2, t3⟩ := perm3 hp.length.symm hn.length.symm hr.length.symm
        rw [permute_get (l := p ++ n ++ rr)]
        · rw [den_stack _ _ _ _ _ _ _ _ hc]
          have h3 : ((m :: ms)[ravel s ((p ++ n ++ rr).take s.length)]?).map (fun e => e.get ((p ++ n ++ rr).drop s.length)) =
              some (a.get (n ++ rr)) := by
            rw [List.append_assoc, take_app hp.length.symm, drop_app hp.length.symm, ha]; rfl
          show Option.getD (Option.map _ _) 0 = _
          rw [h3]
          have := hh.2 rr n [] hr hn trivial
          simpa [pos, ravel] using this
        · simp [hn.length, hp.length, hr.length]
        · intro ax hax
          simp only [List.length_append, hn.length, hp.length, hr.length] at hax
          have := mem3 hax
          simp only [List.mem_append]
          tauto
        · simp only [List.map_append, t1, t2, t3, Bool.false_eq_true, if_false, pos]
    · simp only [layout, if_true, List.append_nil] at hm
      have hbs : m.shape.drop r.length = x.batch := by rw [hm]; simp
      unfold stackEval
      simp only [Bool.false_eq_true, if_false, if_true, hbs]
      refine ⟨_, rfl, rfl, fun rr n p hr hn hp => ?_⟩
      obtain ⟨c, a, hc, ha, hh⟩ := hget p hp
      rw [den_stack _ _ _ _ _ _ _ _ hc]
      have hl : r.length + x.batch.length = (rr ++ n).length := by simp [hr.length, hn.length]
      have h3 : ((m :: ms)[ravel s ((rr ++ n ++ p).drop (r.length + x.batch.length))]?).map
          (fun e => e.get ((rr ++ n ++ p).take (r.length + x.batch.length))) = some (a.get (rr ++ n)) := by
        rw [take_app hl, drop_app hl, ha]; rfl
      show Option.getD (Option.map _ _) 0 = _
      simp only [pos, if_true]
      rw [h3]
      have := hh.2 rr n [] hr hn trivial
      simpa [pos, ravel] using this

lemma param_holds {i : Shp} {C : LMat} {b : X → ℕ → ℝ} {nb : ℕ} {rev : Bool} {x : Pts X} (hw : (PV.param i C b nb rev).WF)
    (hs : (PV.param i C b nb rev).Sym) : ∃ a, paramEval C b nb rev x = .ok a ∧
      Holds rev (if rev then [C.rows] else [C.cols]) [] x (PV.param i C b nb rev).den a := by
  have hcols : C.cols = nb := by
    cases rev
    · have h1 : C.rows = nb := by simpa [PV.WF] using hw
      rw [← h1, (hs rfl).1]
    · simpa [PV.WF] using hw
  have key : ∀ n j, Fits x.batch n → (mulLast C ⟨x.batch ++ [nb], fun i => b (x.pt (i.take x.batch.length)) (i.getD x.batch.length 0)⟩).get
      (n ++ [j]) = ∑ t ∈ Finset.range nb, C.a j t * b (x.pt n) t := by
    intro n j hn
    simp only [mulLast]
    rw [hcols]
    refine Finset.sum_congr rfl fun t _ => ?_
    have e1 : (n ++ [j]).getD ((n ++ [j]).length - 1) 0 = j := by rw [List.getD_eq_getElem?_getD]; simp
    have e2 : (n ++ [j]).dropLast ++ [t] = n ++ [t] := by simp
    have e3 : (n ++ [t]).take x.batch.length = n := take_app hn.length.symm
    have e4 : (n ++ [t]).getD x.batch.length 0 = t := by rw [List.getD_eq_getElem?_getD, ← hn.length]; simp
    show C.a _ t * b (x.pt (List.take _ (_ ++ [t]))) (List.getD (_ ++ [t]) _ 0) = _
    rw [e1, e2, e3, e4]
  unfold paramEval
  rw [if_neg (by simpa using hcols)]
  cases rev
  · refine ⟨_, rfl, ?_, fun r n p hr hn hp => ?_⟩
    · have := (hs rfl).1
      simp [mulLast, layout, this]
    · have hp' : p = [] := by cases p with
        | nil => rfl
        | cons a b => exact hp.elim
      subst hp'
      obtain ⟨j, rfl, hj⟩ := fits_one hr
      obtain ⟨hsq, hsy⟩ := hs rfl
      show (mulLast C _).get (n ++ [] ++ [j]) = _
      rw [List.append_nil, key n j hn, PV.den]
      refine Finset.sum_congr rfl fun t ht => ?_
      have ht' := Finset.mem_range.mp ht
      simp only [Bool.false_eq_true, if_false, ravel_one]
      rw [hsy j (by omega) t (by omega)]
  · have hsh : (mulLast C ⟨x.batch ++ [nb], fun i => b (x.pt (i.take x.batch.length)) (i.getD x.batch.length 0)⟩).shape =
        x.batch ++ [C.rows] := by simp [mulLast]
    refine ⟨_, rfl, ?_, fun r n p hr hn hp => ?_⟩
    · obtain ⟨s1, s2, _⟩ := perm3 (A := x.batch) (B := [C.rows]) (C := []) rfl rfl rfl
      rw [List.append_nil] at s1 s2
      show List.map _ _ = _
      rw [hsh]
      simp only [List.length_append, List.length_singleton, Nat.add_sub_cancel] at s1 s2 ⊢
      simp only [List.map_append, s1, s2, layout, if_true, List.append_nil]
    · have hp' : p = [] := by cases p with
        | nil => rfl
        | cons a b => exact hp.elim
      subst hp'
      obtain ⟨j, rfl, hj⟩ := fits_one hr
      obtain ⟨t1, t2, _⟩ := perm3 (A := n) (B := [j]) (C := []) (a := x.batch.length) (b := 1) hn.length.symm rfl rfl
      rw [List.append_nil] at t1 t2
      simp only [if_true, lastFirst]
      rw [permute_get (l := n ++ [j])]
      · rw [key n j hn, PV.den]
        refine Finset.sum_congr rfl fun t _ => ?_
        simp only [if_true, ravel_one]
      · rw [hsh]; simp [hn.length]
      · intro ax hax
        simp only [List.length_append, List.length_singleton, hn.length] at hax
        rw [hsh]
        simp only [List.mem_append, mem_rng, List.length_append, List.length_singleton]
        omega
      · rw [hsh]
        simp only [List.length_append, List.length_singleton, Nat.add_sub_cancel]
        simp only [List.map_append, t1, t2, pos, if_true, List.append_nil]

mutual
/-- The array view of every cross-covariance expression has the documented layout and contains the covariances, in both
orders, provided that kernels with a functional in argument 0 do not change when their points are exchanged. -/
theorem call_holds_partial (x : Pts X) : ∀ c : PV X, c.WF → c.Sym → x.inS = c.inS →
    ∃ a, c.call x = .ok a ∧ Holds c.rev c.rv c.outS x c.den a
  | .base i o r rev ev, _, _, hx => by
    rw [PV.call, PV.callG]
    exact checked_holds hx ⟨_, rfl, layArr_holds rev r o x _ _ fun _ _ _ _ _ _ => rfl⟩
  | .point k f false, hw, _, hx => by
    rw [PV.call, PV.callG]
    exact checked_holds hx (pointEval1_holds k f x hw hx)
  | .point k f true, hw, hs, hx => by
    rw [PV.call, PV.callG]
    refine checked_holds hx ?_
    obtain ⟨a, h1, h2, h3⟩ := pointEval0_swapped k f x hw hx
    refine ⟨a, h1, h2, fun r n p hr hn hp => ?_⟩
    refine (h3 r n p hr hn hp).trans ?_
    obtain ⟨_, _, h4⟩ := hw
    replace h4 : f.i.2 = k.sh.out0 := h4
    have hfl : ∀ g g' : Val X, (∀ y, ∀ q < f.i.2.prod, g y q = g' y q) → f.T g (ravel f.out r) = f.T g' (ravel f.out r) := by
      intro g g' hg
      cases hd : f.dirac
      · have hr' : Fits (f.i.2 ++ f.xs.batch) r := by simpa [PV.rv, Point.out, hd] using hr
        obtain ⟨q, m, rfl, hq, hm⟩ := fits_split hr'
        rw [pointT_eval f hd _ hm hq, pointT_eval f hd _ hm hq]
        exact hg _ _ (ravel_lt hq)
      · have hr' : Fits (f.xs.batch ++ f.i.2) r := by simpa [PV.rv, Point.out, hd] using hr
        obtain ⟨m, q, rfl, hm, hq⟩ := fits_split hr'
        rw [pointT_dirac f hd _ hm hq, pointT_dirac f hd _ hm hq]
        exact hg _ _ (ravel_lt hq)
    show f.T _ _ = f.T _ _
    refine hfl _ _ fun y q hq => ?_
    exact hs rfl _ _ _ _ (by rw [← h4]; exact hq) (ravel_lt hp)
  | .quad k o T rev, hw, hs, hx => by
    rw [PV.call, PV.callG]
    refine checked_holds hx ?_
    obtain ⟨h0, h1, hl⟩ := hw
    have ho : (PV.quad k o T rev).outS = [] := by cases rev <;> simp [PV.outS, KSh.outA, h0, h1]
    rw [ho]
    refine ⟨_, by rw [if_neg (by simp), quadEval, if_neg (by simp [h0, h1])], ?_⟩
    refine layArr_holds rev o [] x _ _ fun r n p hr hn hp => ?_
    have hp' : ravel [] p = 0 := by cases p with
      | nil => rfl
      | cons a b => exact hp.elim
    rw [hp']
    show _ = actF T rev k.eval _ _ _
    unfold actF
    cases rev
    · simp only [Bool.false_eq_true, if_false]
      refine hl _ _ (fun y q hq => ?_) _ (ravel_lt hr)
      have : q = 0 := by simpa using hq
      rw [this]
    · simp only [if_true]
      refine hl _ _ (fun y q hq => ?_) _ (ravel_lt hr)
      have : q = 0 := by simpa using hq
      rw [this]
      exact hs rfl _ _ _ _ (by rw [h0]; simp) (by rw [h1]; simp)
  | .scaled c s, hw, hs, hx => by
    obtain ⟨a, h1, h2, h3⟩ := call_holds_partial x c hw hs hx
    rw [PV.call] at h1 ⊢
    rw [PV.callG]
    refine checked_holds hx ⟨smulArr s a, by rw [h1]; rfl, h2, fun r n p hr hn hp => ?_⟩
    show s * a.get _ = _
    rw [PV.den]
    exact congrArg _ (h3 r n p hr hn hp)
  | .sum i o r rev cs, hw, hs, hx => by
    obtain ⟨as, h1, h2⟩ := callAll_holds_partial x cs ((pvAll_iff cs).mp hw.2.2) ((symAll_iff cs).mp hs)
      fun c hc => by rw [(hw.2.1 c hc).1]; exact hx
    rw [PV.call, PV.callG]
    refine checked_holds hx ?_
    obtain ⟨a, h3, h4⟩ := sum_holds hw h2
    exact ⟨a, by rw [h1]; exact h3, h4⟩
  | .linop A c, hw, hs, hx => by
    obtain ⟨a, h1, h2⟩ := call_holds_partial x c hw.2 hs hx
    rw [PV.call] at h1 ⊢
    rw [PV.callG]
    refine checked_holds hx ⟨_, by rw [if_neg (by simp), h1]; rfl, ?_⟩
    exact linop_holds hw.1 h2
  | .stack i r rev s cs, hw, hs, hx => by
    obtain ⟨as, h1, h2⟩ := callAll_holds_partial x cs ((pvAll_iff cs).mp hw.2.2.2) ((symAll_iff cs).mp hs)
      fun c hc => by rw [(hw.2.2.1 c hc).1]; exact hx
    rw [PV.call, PV.callG]
    refine checked_holds hx ?_
    obtain ⟨a, h3, h4⟩ := stack_holds hw h2
    exact ⟨a, by rw [h1]; exact h3, h4⟩
  | .zero i o r rev, _, _, hx => by
    rw [PV.call, PV.callG]
    exact checked_holds hx ⟨_, rfl, layArr_holds rev r o x _ _ fun _ _ _ _ _ _ => rfl⟩
  | .param i C b n rev, hw, hs, hx => by
    rw [PV.call, PV.callG]
    refine checked_holds hx ?_
    obtain ⟨a, h1, h2⟩ := param_holds hw hs (x := x)
    exact ⟨a, by rw [if_neg (by simp)]; exact h1, h2⟩
/-- Every part. -/
theorem callAll_holds_partial (x : Pts X) : ∀ cs : List (PV X), (∀ c ∈ cs, c.WF) → (∀ c ∈ cs, c.Sym) → (∀ c ∈ cs, x.inS = c.inS) →
    ∃ as, callAllG false cs x = .ok as ∧ List.Forall₂ (fun c a => Holds c.rev c.rv c.outS x c.den a) cs as
  | [], _, _, _ => ⟨[], by rw [callAllG], .nil⟩
  | c :: cs, hw, hs, hx => by
    obtain ⟨a, h1, h2⟩ := call_holds_partial x c (hw c List.mem_cons_self) (hs c List.mem_cons_self) (hx c List.mem_cons_self)
    obtain ⟨as, h3, h4⟩ := callAll_holds_partial x cs (fun m hm => hw m (List.mem_cons_of_mem _ hm))
      (fun m hm => hs m (List.mem_cons_of_mem _ hm)) fun m hm => hx m (List.mem_cons_of_mem _ hm)
    rw [PV.call] at h1
    exact ⟨a :: as, by rw [callAllG, h1, h3]; rfl, .cons h2 h4⟩
end

end LinPDE.XCov
