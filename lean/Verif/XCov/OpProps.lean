import Verif.XCov.OpModel

/-!
# Operators on cross-covariances: correctness
-/

namespace LinPDE.XCov
open LinPDE.Nd LinPDE.Ops LinPDE.CovAlg LinPDE.Covar
variable {X : Type}

lemma kersAll_iff (s : Option Shp) : ∀ cs : List (PV X), kersAll s cs ↔ ∀ c ∈ cs, c.Kers s
  | [] => by simp [kersAll]
  | c :: cs => by simp [kersAll, kersAll_iff s cs]

/-- What is required of a class for the map `T`. -/
structure PH.Sound (h : PH X) (i : Shapes) (T : Val X →ₗ[ℝ] Val X) (s : Option Shp) : Prop where
  loc : Loc i.2 h.o.2 T
  onK : ∀ k k', h.onK k = .ok k' → k.WF → Fit i false k → Side s false k → Good T h.o false k k'
  own : ∀ c c', h.own c = some (.ok c') → c.WF → PFit i c → c.Kers s → GoodP T h.o s c c'
  rescue : ∀ c c', h.rescue c = .ok c' → c.WF → PFit i c → c.Kers s → GoodP T h.o s c c'

lemma wrapP_cases {h : PH X} {i : Shapes} {T : Val X →ₗ[ℝ] Val X} {s : Option Shp} (hs : h.Sound i T s) {c c' : PV X}
    {g : Except Err (PV X)} (hc : h.wrap c g = .ok c') (hw : c.WF) (hf : PFit i c) (hk : c.Kers s)
    (hg : g = .ok c' → GoodP T h.o s c c') : GoodP T h.o s c c' := by
  unfold PH.wrap at hc
  split at hc
  · rename_i r hr
    subst hc
    exact hs.own c c' hr hw hf hk
  · split at hc
    · exact hs.rescue c c' hc hw hf hk
    · cases hc
    · split_ifs at hc
      exact hg hc

lemma forall2_memP {α β : Type} {R : α → β → Prop} : ∀ {cs : List α} {ds : List β}, List.Forall₂ R cs ds → ∀ d ∈ ds, ∃ c ∈ cs, R c d
  | _, _, .nil, _, h => by simp at h
  | _, _, .cons (a := a) h1 h2, d, hd => by
    rcases List.mem_cons.mp hd with rfl | hd
    · exact ⟨a, List.mem_cons_self, h1⟩
    · obtain ⟨c, hc, hr⟩ := forall2_memP h2 d hd
      exact ⟨c, List.mem_cons_of_mem _ hc, hr⟩

lemma T_list_sum (T : Val X →ₗ[ℝ] Val X) (x : X) (p : ℕ) : ∀ fs : List (Val X),
    T (fun y q => (fs.map fun f => f y q).sum) x p = (fs.map fun f => T f x p).sum
  | [] => by
    have : (fun (y : X) (q : ℕ) => (([] : List (Val X)).map fun f => f y q).sum) = 0 := by funext y q; simp
    rw [this, map_zero]; rfl
  | f :: fs => by
    have : (fun (y : X) (q : ℕ) => ((f :: fs).map fun f => f y q).sum) = f + fun y q => (fs.map fun f => f y q).sum := by
      funext y q; simp
    rw [this, map_add, List.map_cons, List.sum_cons, ← T_list_sum T x p fs]
    rfl

lemma mkSumPV_inv {cs : List (PV X)} {c : PV X} (h : mkSumPV cs = .ok c) : ∃ d ds, cs = d :: ds ∧
    (∀ e ∈ cs, e.inS = d.inS ∧ e.outS = d.outS ∧ e.rv = d.rv ∧ e.rev = d.rev) ∧ c = .sum d.inS d.outS d.rv d.rev cs := by
  cases cs with
  | nil => cases h
  | cons d ds =>
    unfold mkSumPV at h
    simp only at h
    split_ifs at h with hc
    cases h
    refine ⟨d, ds, rfl, ?_, rfl⟩
    simpa only [List.all_eq_true, decide_eq_true_eq] using hc

/-- A list of images added up. -/
lemma den_sum_good {T : Val X →ₗ[ℝ] Val X} {o : Shapes} {s : Option Shp} {x : X} {p r : ℕ} (hp : p < o.2.prod) :
    ∀ {cs cs' : List (PV X)}, List.Forall₂ (GoodP T o s) cs cs' → (∀ c ∈ cs, r < c.rv.prod) →
      (cs'.map fun c => c.den x p r).sum = (cs.map fun c => T (fun y q => c.den y q r) x p).sum
  | _, _, .nil, _ => rfl
  | _, _, .cons (a := a) h1 h2, hr => by
    rw [List.map_cons, List.map_cons, List.sum_cons, List.sum_cons, den_sum_good hp h2 fun c hc => hr c (List.mem_cons_of_mem _ hc),
      h1.den x p r hp (hr a List.mem_cons_self)]

lemma point_opGood {T : Val X →ₗ[ℝ] Val X} {o : Shapes} {s : Option Shp} {k k' : K X} {f : Point X} {c : PV X}
    (hg : Good T o false k k') (hs : Side s false k) (hw : (PV.point k f false).WF) (h : mkPoint k' f = .ok c) :
    GoodP T o s (.point k f false) c := by
  unfold mkPoint at h
  split_ifs at h with h0
  cases h
  push Not at h0
  obtain ⟨w1, w2, w3⟩ := hw
  have e0 : k'.sh.in0 = o.1 := by rw [hg.sh]; rfl
  have e1 : k'.sh.in1 = k.sh.in1 := by rw [hg.sh]; rfl
  have e2 : k'.sh.out0 = o.2 := by rw [hg.sh]; rfl
  have e3 : k'.sh.out1 = k.sh.out1 := by rw [hg.sh]; rfl
  have w3' : f.i.2 = k.sh.out1 := w3
  refine ⟨⟨h0, by rw [w2, ← w1, ← e1, h0], ?_⟩, ⟨hg.wf, side_good hg hs⟩, e0, ?_, rfl, rfl, fun x p r hp hr => ?_⟩
  · show f.i.2 = k'.sh.out1
    rw [e3, w3']
  · show k'.sh.out0 = _
    rw [e2]
  · have hp' : p < k'.sh.out0.prod := by rw [e2]; exact hp
    have hloc := point_floc f
    show f.T (fun y q => k'.eval x y p q) r = _
    rw [hloc _ (fun y q => T (fun z p' => k.eval z y p' q) x p) (fun y q hq => ?_) r hr]
    · show _ = T (fun y q => f.T (fun z q' => k.eval y z q q') r) x p
      simp only [Point.T, LinearMap.coe_mk, AddHom.coe_mk]
      split_ifs <;> rfl
    · have := hg.ev x y p q hp' (by show q < k'.sh.out1.prod; rw [e3, ← w3']; exact hq)
      rw [this]
      rfl

mutual
lemma call_goodP (h : PH X) (i : Shapes) (T : Val X →ₗ[ℝ] Val X) (s : Option Shp) (hs : h.Sound i T s) : ∀ (c c' : PV X),
    h.call c = .ok c' → c.WF → PFit i c → c.Kers s → GoodP T h.o s c c'
  | .scaled d a, c', hc, hw, hf, hk => by
    rw [PH.call] at hc
    refine wrapP_cases hs hc hw hf hk fun hg => ?_
    obtain ⟨d', h1, h2⟩ := bind_ok' hg
    cases h2
    have ih := call_goodP h i T s hs d d' h1 hw hf hk
    refine ⟨ih.wf, ih.kers, ih.inS, ih.outS, ih.rv, ih.rev, fun x p r hp hr => ?_⟩
    have e : (fun y q => (PV.scaled d a).den y q r) = a • fun y q => d.den y q r := by
      funext y q; rw [PV.den]; rfl
    rw [e, map_smul, PV.den]
    show a * _ = a * _
    rw [ih.den x p r hp hr]
  | .sum j o r rev cs, c', hc, hw, hf, hk => by
    rw [PH.call] at hc
    refine wrapP_cases hs hc hw hf hk fun hg => ?_
    obtain ⟨cs', h1, h2⟩ := bind_ok' hg
    obtain ⟨w1, w2, w3⟩ := hw
    have ih := callAll_goodP h i T s hs cs cs' h1 ((pvAll_iff cs).mp w3)
      (fun c hc => by obtain ⟨e1, e2, _⟩ := w2 c hc; exact ⟨by rw [e1]; exact hf.1, by rw [e2]; exact hf.2⟩)
      ((kersAll_iff s cs).mp hk)
    obtain ⟨d, ds, rfl, h3, rfl⟩ := mkSumPV_inv h2
    have hex : ∀ e ∈ d :: ds, ∃ c ∈ cs, GoodP T h.o s c e := fun e he => forall2_memP ih e he
    obtain ⟨c0, hc0, g0⟩ := hex d List.mem_cons_self
    obtain ⟨v1, v2, v3, v4⟩ := w2 c0 hc0
    refine ⟨⟨by simp, h3, (pvAll_iff _).mpr fun e he => ?_⟩, (kersAll_iff s _).mpr fun e he => ?_, g0.inS, g0.outS,
      ?_, ?_, fun x p q hp hq => ?_⟩
    · obtain ⟨c, _, hg⟩ := hex e he; exact hg.wf
    · obtain ⟨c, _, hg⟩ := hex e he; exact hg.kers
    · show d.rv = r
      rw [g0.rv, v3]
    · show d.rev = rev
      rw [g0.rev, v4]
    · have e : (fun y t => (PV.sum j o r rev cs).den y t q) = fun y t => ((cs.map fun c : PV X => fun y t => c.den y t q).map
          fun f : Val X => f y t).sum := by
        funext y t
        rw [PV.den, denAll_eq]
        beta_reduce
        rw [List.map_map, List.map_map]
        rfl
      rw [e, T_list_sum, List.map_map, PV.den, denAll_eq]
      beta_reduce
      rw [List.map_map]
      exact den_sum_good hp ih fun c hc => by rw [(w2 c hc).2.2.1]; exact hq
  | .zero j o r rev, c', hc, hw, hf, hk => by
    rw [PH.call] at hc
    refine wrapP_cases hs hc hw hf hk fun hg => ?_
    cases hg
    refine ⟨trivial, trivial, rfl, rfl, rfl, rfl, fun x p r _ _ => ?_⟩
    simp only [PV.den]
    show (0 : ℝ) = T 0 x p
    rw [map_zero]; rfl
  | .point k f rev, c', hc, hw, hf, hk => by
    rw [PH.call] at hc
    refine wrapP_cases hs hc hw hf hk fun hg => ?_
    split_ifs at hg with hr
    have hr' : rev = false := by simpa using hr
    subst hr'
    split at hg
    · rename_i k' hk'
      exact point_opGood (hs.onK k k' hk' hk.1 hf hk.2) hk.2 hw hg
    · cases hg
  | .base .., c', hc, hw, hf, hk => by
    rw [PH.call] at hc
    exact wrapP_cases hs hc hw hf hk (by simp)
  | .quad .., c', hc, hw, hf, hk => by
    rw [PH.call] at hc
    exact wrapP_cases hs hc hw hf hk (by simp)
  | .linop .., c', hc, hw, hf, hk => by
    rw [PH.call] at hc
    exact wrapP_cases hs hc hw hf hk (by simp)
  | .stack .., c', hc, hw, hf, hk => by
    rw [PH.call] at hc
    exact wrapP_cases hs hc hw hf hk (by simp)
  | .param .., c', hc, hw, hf, hk => by
    rw [PH.call] at hc
    exact wrapP_cases hs hc hw hf hk (by simp)
lemma callAll_goodP (h : PH X) (i : Shapes) (T : Val X →ₗ[ℝ] Val X) (s : Option Shp) (hs : h.Sound i T s) :
    ∀ (cs cs' : List (PV X)), h.callAll cs = .ok cs' → (∀ c ∈ cs, c.WF) → (∀ c ∈ cs, PFit i c) → (∀ c ∈ cs, c.Kers s) →
      List.Forall₂ (GoodP T h.o s) cs cs'
  | [], _, hc, _, _, _ => by rw [PH.callAll] at hc; cases hc; exact .nil
  | c :: cs, _, hc, hw, hf, hk => by
    rw [PH.callAll] at hc
    obtain ⟨c', h1, h2⟩ := bind_ok' hc
    obtain ⟨cs', h3, h4⟩ := bind_ok' h2
    cases h4
    exact .cons (call_goodP h i T s hs c c' h1 (hw c List.mem_cons_self) (hf c List.mem_cons_self) (hk c List.mem_cons_self))
      (callAll_goodP h i T s hs cs cs' h3 (fun d hd => hw d (List.mem_cons_of_mem _ hd))
        (fun d hd => hf d (List.mem_cons_of_mem _ hd)) (fun d hd => hk d (List.mem_cons_of_mem _ hd)))
end

/-! ## Combining operators -/

lemma goodP_congrT {S T : Val X →ₗ[ℝ] Val X} {o : Shapes} {s : Option Shp} {c c' : PV X}
    (h : ∀ f x p, p < o.2.prod → S f x p = T f x p) (hg : GoodP S o s c c') : GoodP T o s c c' :=
  ⟨hg.wf, hg.kers, hg.inS, hg.outS, hg.rv, hg.rev, fun x p r hp hr => by rw [hg.den x p r hp hr, h _ x p hp]⟩

lemma goodP_smul {T : Val X →ₗ[ℝ] Val X} {o : Shapes} {s : Option Shp} {c c' : PV X} (a : ℝ) (hg : GoodP T o s c c') :
    GoodP (a • T) o s c (.scaled c' a) :=
  ⟨hg.wf, hg.kers, hg.inS, hg.outS, hg.rv, hg.rev, fun x p r hp hr => by
    rw [PV.den]
    beta_reduce
    rw [hg.den x p r hp hr]
    rfl⟩

lemma pvAdd_inv {a b e : PV X} (h : a.add b = .ok e) : (b.inS = a.inS ∧ b.outS = a.outS ∧ b.rv = a.rv ∧ b.rev = a.rev) ∧
    e = .sum a.inS a.outS a.rv a.rev [a, b] := by
  unfold PV.add at h
  split_ifs at h with hc
  cases h
  exact ⟨hc, rfl⟩

lemma goodP_add {S T : Val X →ₗ[ℝ] Val X} {o : Shapes} {s : Option Shp} {c a b e : PV X} (ha : GoodP S o s c a)
    (hb : GoodP T o s c b) (h : a.add b = .ok e) : GoodP (S + T) o s c e := by
  obtain ⟨h1, rfl⟩ := pvAdd_inv h
  refine ⟨⟨by simp, ?_, (pvAll_iff _).mpr ?_⟩, (kersAll_iff s _).mpr ?_, ha.inS, ha.outS, ha.rv, ha.rev, fun x p r hp hr => ?_⟩
  · intro d hd
    rcases List.mem_pair.mp hd with rfl | rfl
    · exact ⟨rfl, rfl, rfl, rfl⟩
    · exact h1
  · intro d hd
    rcases List.mem_pair.mp hd with rfl | rfl
    · exact ha.wf
    · exact hb.wf
  · intro d hd
    rcases List.mem_pair.mp hd with rfl | rfl
    · exact ha.kers
    · exact hb.kers
  · rw [PV.den, denAll_eq]
    simp only [List.map_cons, List.map_nil, List.sum_cons, List.sum_nil, add_zero]
    rw [ha.den x p r hp hr, hb.den x p r hp hr]
    rfl

lemma goodP_comp {S T : Val X →ₗ[ℝ] Val X} {m o : Shapes} {s : Option Shp} {c a b : PV X} (ha : GoodP S m s c a)
    (hT : Loc m.2 o.2 T) (hb : GoodP T o s a b) : GoodP (T ∘ₗ S) o s c b :=
  ⟨hb.wf, hb.kers, hb.inS, hb.outS, by rw [hb.rv, ha.rv], by rw [hb.rev, ha.rev], fun x p r hp hr => by
    rw [hb.den x p r hp (by rw [ha.rv]; exact hr)]
    exact hT _ _ (fun y q hq => ha.den y q r hq hr) x p hp⟩

lemma goodP_id {i : Shapes} {s : Option Shp} {c : PV X} (hw : c.WF) (hf : PFit i c) (hk : c.Kers s) :
    GoodP LinearMap.id i s c c := ⟨hw, hk, hf.1, hf.2, rfl, rfl, fun _ _ _ _ _ => rfl⟩

lemma goodP_pfit {T : Val X →ₗ[ℝ] Val X} {o : Shapes} {s : Option Shp} {c c' : PV X} (h : GoodP T o s c c') : PFit o c' :=
  ⟨h.inS, h.outS⟩

lemma goodP_foldl {α : Type} {f : α → Except Err (PV X)} {T : α → Val X →ₗ[ℝ] Val X} {o : Shapes} {s : Option Shp} {c : PV X} :
    ∀ (as : List α) (S : Val X →ₗ[ℝ] Val X) (acc c' : PV X), (∀ a ∈ as, ∀ d, f a = .ok d → GoodP (T a) o s c d) →
      GoodP S o s c acc → as.foldlM (fun acc b => do
        let d ← f b
        acc.add d) acc = .ok c' → GoodP (S + (as.map T).sum) o s c c'
  | [], S, acc, c', _, hS, h => by
    cases h
    simpa using hS
  | a :: as, S, acc, c', hf, hS, h => by
    rw [List.foldlM_cons] at h
    obtain ⟨acc', h1, h2⟩ := bind_ok' h
    obtain ⟨d, h3, h4⟩ := bind_ok' h1
    rw [List.map_cons, List.sum_cons, ← add_assoc]
    exact goodP_foldl as (S + T a) acc' c' (fun b hb => hf b (List.mem_cons_of_mem _ hb))
      (goodP_add hS (hf a List.mem_cons_self d h3) h4) h2

lemma goodP_reduce {α : Type} {f : α → Except Err (PV X)} {T : α → Val X →ₗ[ℝ] Val X} {o : Shapes} {s : Option Shp} {c c' : PV X}
    (as : List α) (hf : ∀ a ∈ as, ∀ d, f a = .ok d → GoodP (T a) o s c d) (h : reduceP f as = .ok c') :
    GoodP (as.map T).sum o s c c' := by
  cases as with
  | nil => cases h
  | cons a as =>
    obtain ⟨d, h1, h2⟩ := bind_ok' h
    rw [List.map_cons, List.sum_cons]
    exact goodP_foldl as (T a) d c' (fun b hb => hf b (List.mem_cons_of_mem _ hb)) (hf a List.mem_cons_self d h1) h2

/-! ## The classes -/

lemma onK_good {s : Option Shp} {L : LOp X} {i o : Shapes} (ht : L.Typed i o) (hd : L.Doms s) (k k' : K X)
    (h : L.call false k = .ok k') (hw : k.WF) (hf : Fit i false k) (hs : Side s false k) : Good L.T o false k k' :=
  apply_correct s false L i o k k' ht hd hw hf hs h

lemma selectP_own_good {s : Option Shp} {i : Shapes} {idx : SIdx} {a : List ℕ} (ha : idx.resolve i.2 = .ok a) {c c' : PV X}
    (h : (selectP i idx).own c = some (.ok c')) (hw : c.WF) (hf : PFit i c) (hk : c.Kers s) :
    GoodP (selLin X (ravel i.2 a)) (i.1, []) s c c' := by
  cases c with
  | stack inS rv rev t cs =>
    have hi : inS = i.1 := hf.1
    have ht : t = i.2 := hf.2
    simp only [selectP, Option.some.injEq] at h
    rw [ht, ha] at h
    simp only at h
    obtain ⟨w1, w2, w3, w4⟩ := hw
    split at h
    · rename_i d hd
      cases h
      have hm := List.mem_of_getElem? hd
      obtain ⟨e1, e2, e3, e4⟩ := w3 _ hm
      refine ⟨(pvAll_iff cs).mp w4 _ hm, (kersAll_iff s cs).mp hk _ hm, by rw [e1, hi], e2, e3, e4, fun x p r hp _ => ?_⟩
      have hp0 : p = 0 := by simpa using hp
      subst hp0
      show _ = (PV.stack inS rv rev t cs).den x (ravel i.2 a) r
      rw [PV.den, denAll_eq]
      beta_reduce
      rw [List.getElem?_map, hd]
      rfl
    · cases h
  | _ => simp [selectP] at h

lemma pdP_own_good {s : Option Shp} {D : PD X} (hD : D.OK) {c c' : PV X} (h : pdOwnP D c = some (.ok c')) (hw : c.WF)
    (hf : PFit (D.dom, []) c) (hk : c.Kers s) : GoodP D.T (D.dom, []) s c c' := by
  unfold pdOwnP at h
  split_ifs at h with h0
  cases h
  refine goodP_congrT (fun f x p hp => ?_) (goodP_id hw hf hk)
  have hp0 : p = 0 := by simpa using hp
  subst hp0
  exact (hD.zero h0 f x).symm

lemma identP_sound (t : Shapes) (s : Option Shp) : (identP t : PH X).Sound t LinearMap.id s where
  loc := loc_id _
  onK k k' h hw hf hs := onK_good (L := .ident t) ⟨rfl, rfl⟩ trivial k k' h hw hf hs
  own _ _ h := by cases h
  rescue _ _ h := by cases h

lemma selectP_sound (i : Shapes) (idx : SIdx) (a : List ℕ) (ha : idx.resolve i.2 = .ok a) (hn : ∀ n, idx = .int n → 0 ≤ n)
    (s : Option Shp) : (selectP i idx : PH X).Sound i (selLin X (ravel i.2 a)) s where
  loc := selLin_loc _ _ _ (by
    cases idx with
    | int n => exact normAll_lt _ _ _ ha
    | tup l => exact normAll_lt _ _ _ ha)
  onK k k' h hw hf hs := by
    rw [← select_T _ _ _ ha]
    exact onK_good (L := .select i idx) ⟨rfl, rfl, ⟨a, ha⟩, hn⟩ trivial k k' h hw hf hs
  own _ _ h hw hf hk := selectP_own_good ha h hw hf hk
  rescue _ _ h := by cases h

lemma genP_sound (g : Gen X) (hl : Loc g.i.2 g.o.2 g.T) (s : Option Shp) : (genP g).Sound g.i g.T s where
  loc := hl
  onK k k' h hw hf hs := onK_good (L := .gen g) ⟨rfl, rfl, hl⟩ trivial k k' h hw hf hs
  own _ _ h := by cases h
  rescue _ _ h := by cases h

lemma pdP_sound (D : PD X) (hD : D.OK) : (pdP D).Sound (D.dom, []) D.T (some D.dom) where
  loc := hD.loc
  onK k k' h hw hf hs := onK_good (L := .pd D) ⟨rfl, rfl, hD⟩ rfl k k' h hw hf hs
  own _ _ h hw hf hk := pdP_own_good hD h hw hf hk
  rescue _ _ h := by cases h

lemma pdNoJaxP_sound (D : PD X) (hD : D.OK) (s : Option Shp) : (pdNoJaxP D).Sound (D.dom, []) D.T s where
  loc := hD.loc
  onK k k' h hw hf hs := call_good _ _ _ false (pdNoJax_sound D hD false s) k k' h hw hf hs
  own _ _ h hw hf hk := pdP_own_good hD h hw hf hk
  rescue _ _ h := by cases h

lemma summandP_good (D : Diff X) (hD : D.OK) {s : Option Shp} {c n : PV X} (hw : c.WF) (hf : PFit D.i c) (hk : c.Kers s)
    (t : List ℕ × List (PD X × ℝ)) (ht : t ∈ D.terms) (u : PD X × ℝ) (hu : u ∈ t.2) (h : summandP D c t.1 u = .ok n) :
    GoodP (u.2 • u.1.T ∘ₗ selLin X (ravel D.i.2 t.1)) (D.i.1, []) s c n := by
  obtain ⟨hpd, hdom⟩ := hD.pds t ht u hu
  have hfit := hD.fits t ht
  unfold summandP at h
  obtain ⟨m, h1, h2⟩ := bind_ok' h
  obtain ⟨m', h3, h4⟩ := bind_ok' h2
  cases h4
  have hsound := pdNoJaxP_sound u.1 hpd s
  have hu0 : (pdNoJaxP u.1).o = (D.i.1, []) := by simp [pdNoJaxP, hdom]
  unfold entryP at h1
  split_ifs at h1 with ht0
  · cases h1
    have hi : D.i.2 = [] := by
      rw [ht0] at hfit
      cases hi : D.i.2 with
      | nil => rfl
      | cons a b => rw [hi] at hfit; exact hfit.elim
    have hg := call_goodP _ _ _ s hsound c m' h3 hw ⟨by rw [hf.1, hdom], by rw [hf.2, hi]⟩ hk
    rw [hu0] at hg
    refine goodP_smul u.2 (goodP_congrT (fun f x p hp => ?_) hg)
    refine hpd.loc _ _ (fun y r hr => ?_) x p hp
    have hr0 : r = 0 := by simpa using hr
    subst hr0
    rw [ht0, hi]; rfl
  · have hs := call_goodP _ _ _ s (selectP_sound D.i (.tup (t.1.map Int.ofNat)) t.1 (normAll_fits _ _ hfit)
      (fun n hn => by cases hn) s) c m h1 hw hf hk
    have hg := call_goodP _ _ _ s hsound m m' h3 hs.wf ⟨by rw [hs.inS, hdom]; rfl, hs.outS⟩ hs.kers
    rw [hu0] at hg
    exact goodP_smul u.2 (goodP_comp (m := (D.i.1, [])) (o := (D.i.1, [])) hs hpd.loc hg)

lemma toSumP_good (D : Diff X) (hD : D.OK) {s : Option Shp} {c n : PV X} (hw : c.WF) (hf : PFit D.i c) (hk : c.Kers s)
    (h : toSumP D c = .ok n) : GoodP D.T (D.i.1, []) s c n := by
  unfold toSumP at h
  split_ifs at h
  refine goodP_reduce (T := fun t : List ℕ × List (PD X × ℝ) =>
    (t.2.map fun u => u.2 • u.1.T ∘ₗ selLin X (ravel D.i.2 t.1)).sum) D.terms (fun t ht m hm => ?_) h
  exact goodP_reduce (T := fun u : PD X × ℝ => u.2 • u.1.T ∘ₗ selLin X (ravel D.i.2 t.1)) t.2
    (fun u hu m hm => summandP_good D hD hw hf hk t ht u hu hm) hm

lemma diffP_sound (D : Diff X) (hD : D.OK) : (diffP D).Sound D.i D.T (some D.i.1) where
  loc := diff_loc D hD
  onK k k' h hw hf hs := onK_good (L := .diff D) ⟨rfl, rfl, hD⟩ rfl k k' h hw hf hs
  own _ _ h := by cases h
  rescue c c' h hw hf hk := by
    simp only [diffP] at h
    split at h
    · cases h
    · exact toSumP_good D hD hw hf hk h

/-! ## Operator expressions -/

lemma reducePV_good {T : List (LOp X)} {o : Shapes} {s : Option Shp} {c c' : PV X} {ds : List (PV X)}
    (hg : List.Forall₂ (fun (L : LOp X) d => GoodP L.T o s c d) T ds) (h : reducePV ds = .ok c') : GoodP (sumT T) o s c c' := by
  have aux : ∀ (Ls : List (LOp X)) (ds : List (PV X)) (S : Val X →ₗ[ℝ] Val X) (acc : PV X),
      List.Forall₂ (fun (L : LOp X) d => GoodP L.T o s c d) Ls ds → GoodP S o s c acc → ds.foldlM PV.add acc = .ok c' →
      GoodP (S + sumT Ls) o s c c' := by
    intro Ls ds
    induction ds generalizing Ls with
    | nil =>
      intro S acc hl ha h
      cases hl
      cases h
      simpa [sumT] using ha
    | cons d ds ih =>
      intro S acc hl ha h
      cases hl with
      | @cons L _ Ls _ h1 h2 =>
        rw [List.foldlM_cons] at h
        obtain ⟨acc', h3, h4⟩ := bind_ok' h
        rw [sumT, ← add_assoc]
        exact ih Ls (S + L.T) acc' h2 (goodP_add ha h1 h3) h4
  cases ds with
  | nil => cases h
  | cons d ds =>
    cases hg with
    | @cons L _ Ls _ h1 h2 =>
      rw [sumT]
      exact aux Ls ds L.T d h2 h1 h

mutual
/-- C58: whenever applying an operator expression to a cross-covariance returns, the result is the cross-covariance between
the image of the process under the operator and the same random vector: its shapes are those of the operator's output, the
vector and the orientation are unchanged, and its values are the operator applied to the cross-covariance as a function of
the point and output entry of the process. -/
theorem operator_correct (s : Option Shp) : ∀ (L : LOp X) (i o : Shapes) (c c' : PV X), L.Typed i o → L.Doms s → c.WF → PFit i c →
    c.Kers s → opCall L c = .ok c' → GoodP L.T o s c c'
  | .ident t, i, o, c, c', ht, _, hw, hf, hk, h => by
    obtain ⟨rfl, rfl⟩ := ht
    rw [opCall] at h
    exact call_goodP _ _ _ s (identP_sound t s) c c' h hw hf hk
  | .select j idx, i, o, c, c', ht, _, hw, hf, hk, h => by
    obtain ⟨rfl, rfl, ⟨a, ha⟩, hn⟩ := ht
    rw [opCall] at h
    rw [select_T _ _ _ ha]
    exact call_goodP _ _ _ s (selectP_sound j idx a ha hn s) c c' h hw hf hk
  | .gen g, i, o, c, c', ht, _, hw, hf, hk, h => by
    obtain ⟨rfl, rfl, hl⟩ := ht
    rw [opCall] at h
    exact call_goodP _ _ _ s (genP_sound g hl s) c c' h hw hf hk
  | .pd D, i, o, c, c', ht, hd, hw, hf, hk, h => by
    obtain ⟨rfl, rfl, hl⟩ := ht
    rw [opCall] at h
    rw [LOp.Doms] at hd
    subst hd
    exact call_goodP _ _ _ _ (pdP_sound D hl) c c' h hw hf hk
  | .diff D, i, o, c, c', ht, hd, hw, hf, hk, h => by
    obtain ⟨rfl, rfl, hl⟩ := ht
    rw [opCall] at h
    rw [LOp.Doms] at hd
    subst hd
    exact call_goodP _ _ _ _ (diffP_sound D hl) c c' h hw hf hk
  | .scaled L a, i, o, c, c', ht, hd, hw, hf, hk, h => by
    rw [opCall] at h
    obtain ⟨m, h1, h2⟩ := bind_ok' h
    cases h2
    rw [LOp.T]
    exact goodP_smul a (operator_correct s L i o c m ht hd hw hf hk h1)
  | .sum Ls, i, o, c, c', ht, hd, hw, hf, hk, h => by
    rw [opCall] at h
    obtain ⟨ds, h1, h2⟩ := bind_ok' h
    rw [LOp.T]
    exact reducePV_good (operators_correct s Ls i o c ds ht.2 hd hw hf hk h1) h2
  | .comp Ls, i, o, c, c', ht, hd, hw, hf, hk, h => by
    rw [opCall] at h
    rw [LOp.T]
    exact opSeq_correct s Ls i o c c' ht hd hw hf hk h
/-- Every summand. -/
theorem operators_correct (s : Option Shp) : ∀ (Ls : List (LOp X)) (i o : Shapes) (c : PV X) (ds : List (PV X)), typedAll Ls i o →
    domsAll s Ls → c.WF → PFit i c → c.Kers s → opCallAll Ls c = .ok ds →
    List.Forall₂ (fun (L : LOp X) d => GoodP L.T o s c d) Ls ds
  | [], _, _, _, _, _, _, _, _, _, h => by rw [opCallAll] at h; cases h; exact .nil
  | L :: Ls, i, o, c, _, ht, hd, hw, hf, hk, h => by
    rw [opCallAll] at h
    obtain ⟨d, h1, h2⟩ := bind_ok' h
    obtain ⟨ds, h3, h4⟩ := bind_ok' h2
    cases h4
    exact .cons (operator_correct s L i o c d ht.1 hd.1 hw hf hk h1) (operators_correct s Ls i o c ds ht.2 hd.2 hw hf hk h3)
/-- A composition. -/
theorem opSeq_correct (s : Option Shp) : ∀ (Ls : List (LOp X)) (i o : Shapes) (c c' : PV X), typedSeq Ls i o → domsAll s Ls →
    c.WF → PFit i c → c.Kers s → opSeq Ls c = .ok c' → GoodP (compT Ls) o s c c'
  | [], i, o, c, c', ht, _, hw, hf, hk, h => by
    cases ht
    rw [opSeq] at h
    cases h
    exact goodP_id hw hf hk
  | L :: Ls, i, o, c, c', ht, hd, hw, hf, hk, h => by
    obtain ⟨m, h1, h2⟩ := ht
    rw [opSeq] at h
    obtain ⟨d, h3, h4⟩ := bind_ok' h
    have hg := opSeq_correct s Ls i m c d h1 hd.2 hw hf hk h3
    rw [compT]
    exact goodP_comp hg (typed_loc L m o h2)
      (operator_correct s L m o d c' h2 hd.1 hg.wf (goodP_pfit hg) hg.kers h4)
end

end LinPDE.XCov
