import Verif.XCov.OpProps

/-!
# Operators on cross-covariances: when the application succeeds, and where it goes wrong
-/

namespace LinPDE.XCov
open LinPDE.Nd LinPDE.Ops LinPDE.CovAlg LinPDE.Covar
variable {X : Type}

mutual
/-- Cross-covariances built by scaling and adding from zero cross-covariances and point evaluations in argument 1 of kernels
that `CovAlg.apply_total` covers. -/
def PV.Reg : PV X → Prop
  | .point k _ rev => rev = false ∧ k.Reg false
  | .scaled c _ => PV.Reg c
  | .sum _ _ _ _ cs => regAllP cs
  | .zero .. => True
  | .base .. => False
  | .quad .. => False
  | .linop .. => False
  | .stack .. => False
  | .param .. => False
/-- Every part. -/
def regAllP : List (PV X) → Prop
  | [] => True
  | c :: cs => PV.Reg c ∧ regAllP cs
end

lemma regAllP_iff : ∀ cs : List (PV X), regAllP cs ↔ ∀ c ∈ cs, c.Reg
  | [] => by simp [regAllP]
  | c :: cs => by simp [regAllP, regAllP_iff cs]

mutual
/-- No `Identity` inside. -/
def LOp.NoId : LOp X → Prop
  | .ident _ => False
  | .select .. => True
  | .gen _ => True
  | .pd _ => True
  | .diff _ => True
  | .scaled L _ => LOp.NoId L
  | .sum Ls => noIdAll Ls
  | .comp Ls => noIdAll Ls
/-- Every operator of a list. -/
def noIdAll : List (LOp X) → Prop
  | [] => True
  | L :: Ls => LOp.NoId L ∧ noIdAll Ls
end

/-- The class answers for kernels of `CovAlg.apply_total`. -/
structure PH.Tot (h : PH X) (i : Shapes) (s : Option Shp) : Prop where
  dom : h.o.1 = i.1
  keep : h.keep = true
  own : ∀ c, h.own c = none ∨ h.own c = some (.ok c)
  onK : ∀ k : K X, k.WF → k.Reg false → Fit i false k → Side s false k → ∃ k', h.onK k = .ok k' ∧ k'.Reg false

lemma wrapP_total {h : PH X} {i : Shapes} {s : Option Shp} (ht : h.Tot i s) {c : PV X} {g : Except Err (PV X)} (hr : c.Reg)
    (hg : ∃ c', g = .ok c' ∧ c'.Reg) : ∃ c', h.wrap c g = .ok c' ∧ c'.Reg := by
  obtain ⟨c', rfl, h2⟩ := hg
  rcases ht.own c with h1 | h1
  · exact ⟨c', by simp [PH.wrap, h1, ht.keep], h2⟩
  · exact ⟨c, by simp [PH.wrap, h1], hr⟩

lemma mkSumPV_total {cs : List (PV X)} {a b r : Shp} {v : Bool} (hne : cs ≠ [])
    (h : ∀ c ∈ cs, c.inS = a ∧ c.outS = b ∧ c.rv = r ∧ c.rev = v) : mkSumPV cs = .ok (.sum a b r v cs) := by
  cases cs with
  | nil => exact absurd rfl hne
  | cons d ds =>
    obtain ⟨h1, h2, h3, h4⟩ := h d List.mem_cons_self
    unfold mkSumPV
    simp only
    rw [if_pos, h1, h2, h3, h4]
    simp only [List.all_eq_true, decide_eq_true_eq]
    intro e he
    obtain ⟨e1, e2, e3, e4⟩ := h e he
    exact ⟨by rw [e1, h1], by rw [e2, h2], by rw [e3, h3], by rw [e4, h4]⟩

mutual
lemma call_totalP (h : PH X) (i : Shapes) (T : Val X →ₗ[ℝ] Val X) (s : Option Shp) (hs : h.Sound i T s) (ht : h.Tot i s) :
    ∀ c : PV X, c.Reg → c.WF → PFit i c → c.Kers s → ∃ c', h.call c = .ok c' ∧ c'.Reg
  | .scaled d a, hr, hw, hf, hk => by
    rw [PH.call]
    refine wrapP_total ht hr ?_
    obtain ⟨d', h1, h2⟩ := call_totalP h i T s hs ht d hr hw hf hk
    exact ⟨.scaled d' a, by rw [h1]; rfl, h2⟩
  | .sum j o r rev cs, hr, hw, hf, hk => by
    rw [PH.call]
    refine wrapP_total ht hr ?_
    obtain ⟨w1, w2, w3⟩ := hw
    have hw' := (pvAll_iff cs).mp w3
    have hf' : ∀ c ∈ cs, PFit i c := fun c hc => by
      obtain ⟨e1, e2, _⟩ := w2 c hc; exact ⟨by rw [e1]; exact hf.1, by rw [e2]; exact hf.2⟩
    have hk' := (kersAll_iff s cs).mp hk
    obtain ⟨cs', h1, h2⟩ := callAll_totalP h i T s hs ht cs ((regAllP_iff cs).mp hr) hw' hf' hk'
    have hg := callAll_goodP h i T s hs cs cs' h1 hw' hf' hk'
    refine ⟨.sum h.o.1 h.o.2 r rev cs', ?_, (regAllP_iff cs').mpr h2⟩
    rw [h1]
    show mkSumPV cs' = _
    refine mkSumPV_total (fun hc => w1 (List.length_eq_zero_iff.mp (by rw [hg.length_eq, hc]; rfl))) fun d hd => ?_
    obtain ⟨c, hc, g⟩ := forall2_memP hg d hd
    obtain ⟨_, _, e3, e4⟩ := w2 c hc
    exact ⟨g.inS, g.outS, by rw [g.rv, e3], by rw [g.rev, e4]⟩
  | .zero j o r rev, hr, hw, hf, hk => by
    rw [PH.call]
    exact wrapP_total ht hr ⟨_, rfl, trivial⟩
  | .point k f rev, hr, hw, hf, hk => by
    obtain ⟨rfl, hr'⟩ := hr
    rw [PH.call]
    refine wrapP_total ht ⟨rfl, hr'⟩ ?_
    obtain ⟨k', h1, h2⟩ := ht.onK k hk.1 hr' hf hk.2
    have hg := hs.onK k k' h1 hk.1 hf hk.2
    refine ⟨.point k' f false, ?_, rfl, h2⟩
    rw [if_neg (by simp), h1]
    show mkPoint k' f = _
    unfold mkPoint
    rw [if_neg]
    rw [not_not, hg.sh]
    show k.sh.in1 = h.o.1
    rw [hw.1, ht.dom]
    exact hf.1
  | .base .., hr, _, _, _ => hr.elim
  | .quad .., hr, _, _, _ => hr.elim
  | .linop .., hr, _, _, _ => hr.elim
  | .stack .., hr, _, _, _ => hr.elim
  | .param .., hr, _, _, _ => hr.elim
lemma callAll_totalP (h : PH X) (i : Shapes) (T : Val X →ₗ[ℝ] Val X) (s : Option Shp) (hs : h.Sound i T s) (ht : h.Tot i s) :
    ∀ cs : List (PV X), (∀ c ∈ cs, c.Reg) → (∀ c ∈ cs, c.WF) → (∀ c ∈ cs, PFit i c) → (∀ c ∈ cs, c.Kers s) →
      ∃ cs', h.callAll cs = .ok cs' ∧ ∀ c ∈ cs', c.Reg
  | [], _, _, _, _ => ⟨[], by rw [PH.callAll], by simp⟩
  | c :: cs, hr, hw, hf, hk => by
    obtain ⟨c', h1, h2⟩ := call_totalP h i T s hs ht c (hr c List.mem_cons_self) (hw c List.mem_cons_self)
      (hf c List.mem_cons_self) (hk c List.mem_cons_self)
    obtain ⟨cs', h3, h4⟩ := callAll_totalP h i T s hs ht cs (fun d hd => hr d (List.mem_cons_of_mem _ hd))
      (fun d hd => hw d (List.mem_cons_of_mem _ hd)) (fun d hd => hf d (List.mem_cons_of_mem _ hd))
      (fun d hd => hk d (List.mem_cons_of_mem _ hd))
    refine ⟨c' :: cs', by rw [PH.callAll, h1, h3]; rfl, fun d hd => ?_⟩
    rcases List.mem_cons.mp hd with rfl | hd
    · exact h2
    · exact h4 d hd
end

lemma pdOwnP_cases (D : PD X) (c : PV X) : pdOwnP D c = none ∨ pdOwnP D c = some (.ok c) := by
  unfold pdOwnP
  split_ifs
  · exact .inr rfl
  · exact .inl rfl

lemma reducePV_total {o : Shapes} {r : Shp} {v : Bool} {ds : List (PV X)} (hne : ds ≠ [])
    (h : ∀ d ∈ ds, d.Reg ∧ d.inS = o.1 ∧ d.outS = o.2 ∧ d.rv = r ∧ d.rev = v) : ∃ c, reducePV ds = .ok c ∧ c.Reg := by
  have aux : ∀ (ds : List (PV X)) (acc : PV X), (∀ d ∈ ds, d.Reg ∧ d.inS = o.1 ∧ d.outS = o.2 ∧ d.rv = r ∧ d.rev = v) →
      (acc.Reg ∧ acc.inS = o.1 ∧ acc.outS = o.2 ∧ acc.rv = r ∧ acc.rev = v) → ∃ c, ds.foldlM PV.add acc = .ok c ∧ c.Reg := by
    intro ds
    induction ds with
    | nil => intro acc _ ha; exact ⟨acc, rfl, ha.1⟩
    | cons d ds ih =>
      intro acc hd ⟨a0, a1, a2, a3, a4⟩
      obtain ⟨b0, b1, b2, b3, b4⟩ := hd d List.mem_cons_self
      have e : acc.add d = .ok (.sum acc.inS acc.outS acc.rv acc.rev [acc, d]) := by
        unfold PV.add
        rw [if_pos ⟨by rw [a1, b1], by rw [a2, b2], by rw [a3, b3], by rw [a4, b4]⟩]
      obtain ⟨c, h1, h2⟩ := ih (.sum acc.inS acc.outS acc.rv acc.rev [acc, d])
        (fun e he => hd e (List.mem_cons_of_mem _ he)) ⟨⟨a0, b0, trivial⟩, a1, a2, a3, a4⟩
      exact ⟨c, by rw [List.foldlM_cons, e]; exact h1, h2⟩
  cases ds with
  | nil => exact absurd rfl hne
  | cons d ds => exact aux ds d (fun e he => h e (List.mem_cons_of_mem _ he)) (h d List.mem_cons_self)

mutual
/-- C58: operators built from partial derivatives, differential operators with a JAX fallback, scaling, sums and compositions
apply to every cross-covariance built by scaling and adding from zero cross-covariances and point evaluations (in argument 1)
of JAX kernels of fitting shapes. -/
theorem operator_total (s : Option Shp) : ∀ (L : LOp X) (i o : Shapes) (c : PV X), L.Typed i o → L.Doms s → L.Full → LOp.NoId L →
    c.WF → c.Reg → PFit i c → c.Kers s → ∃ c', opCall L c = .ok c' ∧ c'.Reg
  | .ident t, _, _, _, _, _, _, h, _, _, _, _ => h.elim
  | .select .., _, _, _, _, _, h, _, _, _, _, _ => h.elim
  | .gen _, _, _, _, _, _, h, _, _, _, _, _ => h.elim
  | .pd D, i, o, c, ht, hd, hF, _, hw, hr, hf, hk => by
    have ht' := ht
    obtain ⟨rfl, rfl, hl⟩ := ht'
    have hd' := hd
    rw [LOp.Doms] at hd'
    subst hd'
    rw [opCall]
    refine call_totalP _ _ _ _ (pdP_sound D hl) ⟨rfl, rfl, pdOwnP_cases D, fun k hw hr hf hs => ?_⟩ c hr hw hf hk
    exact apply_total _ false (.pd D) _ _ k ht hd hF hw hr hf hs
  | .diff D, i, o, c, ht, hd, hF, _, hw, hr, hf, hk => by
    have ht' := ht
    obtain ⟨rfl, rfl, hl⟩ := ht'
    have hd' := hd
    rw [LOp.Doms] at hd'
    subst hd'
    rw [opCall]
    refine call_totalP _ _ _ _ (diffP_sound D hl) ⟨rfl, rfl, fun _ => .inl rfl, fun k hw hr hf hs => ?_⟩ c hr hw hf hk
    exact apply_total _ false (.diff D) _ _ k ht hd hF hw hr hf hs
  | .scaled L a, i, o, c, ht, hd, hF, hn, hw, hr, hf, hk => by
    obtain ⟨m, h1, h2⟩ := operator_total s L i o c ht hd hF hn hw hr hf hk
    exact ⟨.scaled m a, by rw [opCall, h1]; rfl, h2⟩
  | .sum Ls, i, o, c, ht, hd, hF, hn, hw, hr, hf, hk => by
    obtain ⟨ds, h1, h2⟩ := operators_total s Ls i o c ht.2 hd hF hn hw hr hf hk
    have hg := operators_correct s Ls i o c ds ht.2 hd hw hf hk h1
    obtain ⟨c', h3, h4⟩ := reducePV_total (o := o) (r := c.rv) (v := c.rev) (ds := ds)
      (fun hc => ht.1 (List.length_eq_zero_iff.mp (by rw [hg.length_eq, hc]; rfl))) fun d hd => by
        obtain ⟨L, _, g⟩ := forall2_memP hg d hd
        exact ⟨h2 d hd, g.inS, g.outS, g.rv, g.rev⟩
    exact ⟨c', by rw [opCall, h1]; exact h3, h4⟩
  | .comp Ls, i, o, c, ht, hd, hF, hn, hw, hr, hf, hk => by
    rw [opCall]
    exact opSeq_total s Ls i o c ht hd hF hn hw hr hf hk
/-- Every summand. -/
theorem operators_total (s : Option Shp) : ∀ (Ls : List (LOp X)) (i o : Shapes) (c : PV X), typedAll Ls i o → domsAll s Ls →
    fullAll Ls → noIdAll Ls → c.WF → c.Reg → PFit i c → c.Kers s → ∃ ds, opCallAll Ls c = .ok ds ∧ ∀ d ∈ ds, d.Reg
  | [], _, _, _, _, _, _, _, _, _, _, _ => ⟨[], by rw [opCallAll], by simp⟩
  | L :: Ls, i, o, c, ht, hd, hF, hn, hw, hr, hf, hk => by
    obtain ⟨d, h1, h2⟩ := operator_total s L i o c ht.1 hd.1 hF.1 hn.1 hw hr hf hk
    obtain ⟨ds, h3, h4⟩ := operators_total s Ls i o c ht.2 hd.2 hF.2 hn.2 hw hr hf hk
    refine ⟨d :: ds, by rw [opCallAll, h1, h3]; rfl, fun e he => ?_⟩
    rcases List.mem_cons.mp he with rfl | he
    · exact h2
    · exact h4 e he
/-- A composition. -/
theorem opSeq_total (s : Option Shp) : ∀ (Ls : List (LOp X)) (i o : Shapes) (c : PV X), typedSeq Ls i o → domsAll s Ls → fullAll Ls →
    noIdAll Ls → c.WF → c.Reg → PFit i c → c.Kers s → ∃ c', opSeq Ls c = .ok c' ∧ c'.Reg
  | [], _, _, c, _, _, _, _, _, hr, _, _ => ⟨c, by rw [opSeq], hr⟩
  | L :: Ls, i, o, c, ht, hd, hF, hn, hw, hr, hf, hk => by
    obtain ⟨m, h1, h2⟩ := ht
    obtain ⟨d, h3, h4⟩ := opSeq_total s Ls i m c h1 hd.2 hF.2 hn.2 hw hr hf hk
    have hg := opSeq_correct s Ls i m c d h1 hd.2 hw hf hk h3
    obtain ⟨c', h5, h6⟩ := operator_total s L m o d h2 hd.1 hF.1 hn.1 hg.wf h4 (goodP_pfit hg) hg.kers
    exact ⟨c', by rw [opSeq, h3]; exact h5, h6⟩
end

/-! ## Where it goes wrong -/

/-- Operators with a `__call__` of their own, other than derivatives of order 0. -/
def LOp.Leaf : LOp X → Prop
  | .pd D => D.order ≠ 0
  | .scaled .. => False
  | .sum _ => False
  | .comp _ => False
  | _ => True

/-- C58 fails for functionals in argument 0: every operator raises `TypeError` on the cross-covariance of a point evaluation
in argument 0, because the code applies the operator to the cross-covariance again, with an argument its registration does not
take (`crosscov/linfuncops.py:59, 79`). -/
theorem operator_reverse_violated (L : LOp X) (hL : LOp.Leaf L) (k : K X) (f : Point X) :
    opCall L (.point k f true) = .error .typeError := by
  cases L with
  | ident s => rw [opCall, PH.call]; rfl
  | select i idx => rw [opCall, PH.call]; rfl
  | gen g => rw [opCall, PH.call]; rfl
  | pd D =>
    have h0 : D.order ≠ 0 := hL
    rw [opCall, PH.call]
    simp [PH.wrap, pdP, pdOwnP, h0]
  | diff D => rw [opCall, PH.call]; rfl
  | scaled L a => exact hL.elim
  | sum Ls => exact hL.elim
  | comp Ls => exact hL.elim

/-- C58 fails for `Identity`: its `__call__` forgets to return (`linfuncops/_identity.py:20-22`), so it never gives a
cross-covariance. -/
theorem operator_identity_violated (s : Shapes) (c c' : PV X) : opCall (.ident s) c ≠ .ok c' := by
  have aux : ∀ g, (identP s : PH X).wrap c g ≠ .ok c' := by
    intro g h
    rcases g with e | d
    · cases e <;> cases h
    · cases h
  rw [opCall]
  cases c <;> rw [PH.call] <;> exact aux _

/-- Nor does a sum with an `Identity` among its summands. -/
theorem operator_sum_identity_violated (s : Shapes) (Ls : List (LOp X)) (h : LOp.ident s ∈ Ls) (c c' : PV X) :
    opCall (.sum Ls) c ≠ .ok c' := by
  have aux : ∀ Ls : List (LOp X), LOp.ident s ∈ Ls → ∀ ds, opCallAll Ls c ≠ .ok ds := by
    intro Ls
    induction Ls with
    | nil => intro h; simp at h
    | cons L Ls ih =>
      intro h ds hd
      rw [opCallAll] at hd
      obtain ⟨d, h1, h2⟩ := bind_ok' hd
      obtain ⟨es, h3, _⟩ := bind_ok' h2
      rcases List.mem_cons.mp h with h | h
      · rw [← h] at h1
        exact operator_identity_violated s c d h1
      · exact ih h es h3
  intro hc
  rw [opCall] at hc
  obtain ⟨ds, h1, _⟩ := bind_ok' hc
  exact aux Ls h ds h1

/-- Shapes are not validated: a zero cross-covariance of any shapes is accepted by every class that returns its result. -/
theorem operator_unvalidated (g : Gen X) (i o r : Shp) (rev : Bool) :
    opCall (.gen g) (.zero i o r rev) = .ok (.zero g.o.1 g.o.2 r rev) := by
  rw [opCall, PH.call]
  rfl

/-- The rules cover only scaled, summed, zero and point-evaluation cross-covariances (and stacks for `SelectOutput`): for the
others a general operator raises `NotImplementedError`. -/
theorem operator_notImplemented (g : Gen X) (c : PV X) (hc : match c with
    | .base .. => True | .quad .. => True | .linop .. => True | .stack .. => True | .param .. => True | _ => False) :
    opCall (.gen g) c = .error .notImplemented := by
  cases c <;> first | exact hc.elim | (rw [opCall, PH.call]; rfl)

/-- C58 (fails): differential operators applied to the other cross-covariances return a function instead of a
cross-covariance: neither the rules nor the sum of partial derivatives is available, and the last fallback wraps the result. -/
theorem operator_fallback_violated (c : PV X) (hc : match c with
    | .base .. => True | .quad .. => True | .linop .. => True | .stack .. => True | .param .. => True | _ => False) :
    (∀ D : PD X, D.order ≠ 0 → opCall (.pd D) c = .error .notAKernel) ∧
    ∀ (D : Diff X) (t : PD X) (a : ℝ) (ts : List (PD X × ℝ)) (rest : List (List ℕ × List (PD X × ℝ))), D.terms = ([], (t, a) :: ts) :: rest →
      t.order ≠ 0 → (∀ r ∈ rest, r.2 ≠ []) → opCall (.diff D) c = .error .notAKernel := by
  constructor
  · intro D hD
    cases c <;> first | exact hc.elim | (rw [opCall, PH.call]; simp [PH.wrap, pdP, pdOwnP, hD])
  · intro D t a ts rest hD ht hrest
    have h1 : toSumP D c = .error .notImplemented := by
      unfold toSumP
      rw [if_neg (by rw [hD]; simpa using fun x hxy => hrest (x, []) hxy rfl), hD]
      have h2 : summandP D c [] (t, a) = .error .notImplemented := by
        have h3 : (pdNoJaxP t).call c = .error .notImplemented := by
          cases c <;> first | exact hc.elim | (rw [PH.call]; simp [PH.wrap, pdNoJaxP, pdOwnP, ht])
        simp [summandP, entryP, h3, bind, Except.bind]
      simp [reduceP, h2, bind, Except.bind]
    cases c <;> first | exact hc.elim | (rw [opCall, PH.call]; simp [PH.wrap, diffP, h1])

/-- Selecting an output of a stack gives its part. -/
theorem select_stack (i : Shapes) (idx : SIdx) (a : List ℕ) (ha : idx.resolve i.2 = .ok a) (inS rv : Shp) (rev : Bool)
    (cs : List (PV X)) (hl : cs.length = i.2.prod) : ∃ c, cs[ravel i.2 a]? = some c ∧
      opCall (.select i idx) (.stack inS rv rev i.2 cs) = .ok c := by
  have hlt : ravel i.2 a < cs.length := by rw [hl]; exact resolve_lt _ _ _ ha
  refine ⟨cs[ravel i.2 a], List.getElem?_eq_getElem hlt, ?_⟩
  rw [opCall, PH.call]
  simp [PH.wrap, selectP, ha, List.getElem?_eq_getElem hlt]

/-! ## Instances -/

/-- Two points. -/
noncomputable def exPts : Point ℝ := ⟨false, ([], []), ⟨[], [2], fun i => i.getD 0 0⟩⟩

/-- `2 k(·, X) + 0`. -/
noncomputable def exPV : PV ℝ := .sum [] [] [2] false [.scaled (.point exBase exPts false) 2, .zero [] [] [2] false]

/-- `D ∘ (D + 2 D)`. -/
noncomputable def exOp : LOp ℝ := .comp [.pd exPD, .sum [.pd exPD, .scaled (.pd exPD) 2]]

lemma exPV_wf : exPV.WF := by
  simp [exPV, exBase, exPts, PV.WF, pvAll, PV.inS, PV.outS, PV.rv, PV.rev, K.sh, KSh.outA, Point.out]
lemma exPV_kers : exPV.Kers (some []) := by
  simp [exPV, exBase, PV.Kers, kersAll, K.WF, Side, K.Safe, KSh.outA, KSh.inA, K.sh]
lemma exOp_typed : exOp.Typed ([], []) ([], []) := by
  simp only [exOp, LOp.Typed, typedSeq, typedAll]
  exact ⟨([], []), ⟨([], []), rfl, by simp, ⟨rfl, rfl, exPD_ok⟩, ⟨rfl, rfl, exPD_ok⟩, trivial⟩, rfl, rfl, exPD_ok⟩
lemma exOp_doms : exOp.Doms (some []) := by simp [exOp, LOp.Doms, domsAll, exPD]

/-- `operator_total` and `operator_correct` apply. -/
example : ∃ c', opCall exOp exPV = .ok c' ∧ c'.rv = [2] ∧ ∀ x, c'.den x 0 1 = exOp.T (fun y q => exPV.den y q 1) x 0 := by
  have hf : PFit ([], []) exPV := ⟨rfl, rfl⟩
  obtain ⟨c', h1, _⟩ := operator_total (some []) exOp _ _ exPV exOp_typed exOp_doms
    (by simp [exOp, LOp.Full, fullAll, JaxClosed, exPD]) (by simp [exOp, LOp.NoId, noIdAll]) exPV_wf
    (by simp [exPV, exBase, PV.Reg, regAllP, K.Reg]) hf exPV_kers
  have hg := operator_correct (some []) exOp _ _ exPV c' exOp_typed exOp_doms exPV_wf hf exPV_kers h1
  exact ⟨c', h1, hg.rv, fun x => hg.den x 0 1 (by simp) (by show 1 < [2].prod; simp)⟩

/-- `select_stack` applies. -/
example : opCall (.select ([], [2]) (.int (-1))) (.stack [] [3] false [2] [.zero [] [] [3] false, .zero [] [] [3] false] : PV ℝ) =
    .ok (.zero [] [] [3] false) := by
  obtain ⟨c, h1, h2⟩ := select_stack (X := ℝ) ([], [2]) (.int (-1)) [1] rfl [] [3] false
    [.zero [] [] [3] false, .zero [] [] [3] false] rfl
  cases h1
  exact h2

end LinPDE.XCov
