import Verif.XCov.ArrayProps

/-!
# Cross-covariances: the linear-operator view
-/

namespace LinPDE.XCov
open LinPDE.Nd LinPDE.Ops LinPDE.CovAlg LinPDE.Covar
variable {X : Type}

mutual
/-- The class has its own operator view (otherwise the array view is flattened). -/
def PV.HasPriv : PV X → Bool
  | .base .. => false
  | .point .. => true
  | .quad .. => false
  | .scaled c _ => PV.HasPriv c
  | .sum _ _ _ _ cs => privAll cs
  | .linop _ c => PV.HasPriv c
  | .stack .. => true
  | .zero .. => false
  | .param .. => false
/-- Every part. -/
def privAll : List (PV X) → Bool
  | [] => true
  | c :: cs => PV.HasPriv c && privAll cs
end

mutual
/-- Where the operator view is right: `DiracFunctional`s have a single point or scalar values, an operator stands on the side
of the vector, and what is flattened has a correct array view. -/
def PV.LSafe : PV X → Prop
  | .base .. => True
  | .point _ f _ => f.dirac = true → f.i.2 = [] ∨ f.xs.batch = []
  | .quad .. => True
  | .scaled c _ => PV.LSafe c
  | .sum _ _ _ _ cs => lsafeAll cs
  | .linop _ c => (c.rev = true ∨ c.HasPriv = false) ∧ PV.LSafe c
  | .stack _ _ _ _ cs => lsafeAll cs ∧ ∀ c ∈ cs, c.HasPriv = true ∨ c.Sym
  | .zero .. => True
  | .param .. => True
/-- Every part. -/
def lsafeAll : List (PV X) → Prop
  | [] => True
  | c :: cs => PV.LSafe c ∧ lsafeAll cs
end

lemma lsafeAll_iff : ∀ cs : List (PV X), lsafeAll cs ↔ ∀ c ∈ cs, c.LSafe
  | [] => by simp [lsafeAll]
  | c :: cs => by simp [lsafeAll, lsafeAll_iff cs]

/-- The matrix shape. -/
def matShape (rev : Bool) (rv out b : Shp) : Shp := if rev then [rv.prod, out.prod * b.prod] else [out.prod * b.prod, rv.prod]

lemma fallback_holds {rev : Bool} {rv out : Shp} {x : Pts X} {d : X → ℕ → ℕ → ℝ} {a : Nd.Arr ℝ} (h : Holds rev rv out x d a) :
    ∃ m, linopFallback rev rv x.batch out a = .ok m ∧ HoldsMat rev rv out x d m := by
  obtain ⟨h1, h2⟩ := h
  cases rev
  · simp only [layout, Bool.false_eq_true, if_false] at h1
    obtain ⟨s1, s2, s3⟩ := perm3 (A := x.batch) (B := out) (C := rv) rfl rfl rfl
    set res := permute a (rng x.batch.length out.length ++ rng 0 x.batch.length ++ rng (x.batch.length + out.length) rv.length) with hres
    have hs : res.shape = out ++ x.batch ++ rv := by
      show List.map _ _ = _
      rw [h1]
      simp only [List.map_append, s1, s2, s3]
    have hg : ∀ r n p, Fits rv r → Fits x.batch n → Fits out p → res.get (p ++ n ++ r) = d (x.pt n) (ravel out p) (ravel rv r) := by
      intro r n p hr hn hp
      obtain ⟨t1, t2, t3⟩ := perm3 hn.length.symm hp.length.symm hr.length.symm
      rw [hres, permute_get (l := n ++ p ++ r)]
      · have := h2 r n p hr hn hp
        simpa [pos] using this
      · rw [h1]; simp [hn.length, hp.length, hr.length]
      · intro ax hax
        simp only [List.length_append, hn.length, hp.length, hr.length] at hax
        have := mem3 hax
        simp only [List.mem_append]
        tauto
      · simp only [List.map_append, t1, t2, t3]
    have hprod : [out.prod * x.batch.prod, rv.prod].prod = res.shape.prod := by rw [hs]; simp [mul_assoc]
    unfold linopFallback
    simp only [Bool.false_eq_true, if_false]
    rw [← hres, Arr.reshape, if_pos hprod]
    refine ⟨_, rfl, rfl, fun r n p hr hn hp => ?_⟩
    have hpn : Fits (out ++ x.batch) (p ++ n) := (fits_append hp.length).mpr ⟨hp, hn⟩
    have hall : Fits (out ++ x.batch ++ rv) (p ++ n ++ r) := (fits_append hpn.length).mpr ⟨hpn, hr⟩
    have e : ravel [out.prod * x.batch.prod, rv.prod] [ravel (out ++ x.batch) (p ++ n), ravel rv r] =
        ravel (out ++ x.batch ++ rv) (p ++ n ++ r) := by
      rw [ravel_append hpn.length]; simp [ravel]
    simp only [Bool.false_eq_true, if_false]
    rw [e, hs, unravel_ravel hall, hg r n p hr hn hp]
  · simp only [layout, if_true] at h1
    obtain ⟨s1, s2, s3⟩ := perm3 (A := rv) (B := x.batch) (C := out) rfl rfl rfl
    set res := permute a (rng 0 rv.length ++ rng (rv.length + x.batch.length) out.length ++ rng rv.length x.batch.length) with hres
    have hs : res.shape = rv ++ (out ++ x.batch) := by
      show List.map _ _ = _
      rw [h1]
      simp only [List.map_append, s1, s2, s3]
      simp only [List.append_assoc]
    have hg : ∀ r n p, Fits rv r → Fits x.batch n → Fits out p → res.get (r ++ (p ++ n)) = d (x.pt n) (ravel out p) (ravel rv r) := by
      intro r n p hr hn hp
      obtain ⟨t1, t2, t3⟩ := perm3 hr.length.symm hn.length.symm hp.length.symm
      rw [hres, permute_get (l := r ++ n ++ p)]
      · have := h2 r n p hr hn hp
        simpa [pos] using this
      · rw [h1]; simp [hn.length, hp.length, hr.length]
      · intro ax hax
        simp only [List.length_append, hn.length, hp.length, hr.length] at hax
        have := mem3 hax
        simp only [List.mem_append]
        tauto
      · simp only [List.map_append, t1, t2, t3]
        simp only [List.append_assoc]
    have hprod : [rv.prod, out.prod * x.batch.prod].prod = res.shape.prod := by rw [hs]; simp
    unfold linopFallback
    simp only [if_true]
    rw [← hres, Arr.reshape, if_pos hprod]
    refine ⟨_, rfl, rfl, fun r n p hr hn hp => ?_⟩
    have hpn : Fits (out ++ x.batch) (p ++ n) := (fits_append hp.length).mpr ⟨hp, hn⟩
    have hall : Fits (rv ++ (out ++ x.batch)) (r ++ (p ++ n)) := (fits_append hr.length).mpr ⟨hr, hpn⟩
    have e : ravel [rv.prod, out.prod * x.batch.prod] [ravel rv r, ravel (out ++ x.batch) (p ++ n)] =
        ravel (rv ++ (out ++ x.batch)) (r ++ (p ++ n)) := by
      rw [ravel_append hr.length]; simp [ravel]
    simp only [if_true]
    rw [e, hs, unravel_ravel hall, hg r n p hr hn hp]

/-- `covfunc.linop(x0, x1)` at an entry. -/
lemma kLinop_get (k : K X) (x0 x1 : Pts X) (h0 : x0.inS = k.sh.in0) (h1 : x1.inS = k.sh.in1) :
    ∃ m, kLinop k x0 x1 = .ok m ∧ m.shape = [(k.sh.out0 ++ x0.batch).prod, (k.sh.out1 ++ x1.batch).prod] ∧
      ∀ p n q l, Fits k.sh.out0 p → Fits x0.batch n → Fits k.sh.out1 q → Fits x1.batch l →
        m.get [ravel (k.sh.out0 ++ x0.batch) (p ++ n), ravel (k.sh.out1 ++ x1.batch) (q ++ l)] =
          k.eval (x0.pt n) (x1.pt l) (ravel k.sh.out0 p) (ravel k.sh.out1 q) := by
  unfold kLinop
  rw [if_neg (by simp [h0, h1])]
  refine ⟨_, rfl, rfl, fun p n q l hp hn hq hl => ?_⟩
  have f0 : Fits (k.sh.out0 ++ x0.batch) (p ++ n) := (fits_append hp.length).mpr ⟨hp, hn⟩
  have f1 : Fits (k.sh.out1 ++ x1.batch) (q ++ l) := (fits_append hq.length).mpr ⟨hq, hl⟩
  show k.eval (x0.pt (List.drop _ (unravel _ (ravel _ (p ++ n))))) (x1.pt (List.drop _ (unravel _ (ravel _ (q ++ l)))))
    (ravel _ (List.take _ (unravel _ (ravel _ (p ++ n))))) (ravel _ (List.take _ (unravel _ (ravel _ (q ++ l))))) = _
  rw [unravel_ravel f0, unravel_ravel f1, drop_app hp.length.symm, drop_app hq.length.symm, take_app hp.length.symm,
    take_app hq.length.symm]

lemma fits_nil' {i : List ℕ} (h : Fits [] i) : i = [] := by
  cases i with
  | nil => rfl
  | cons a b => exact h.elim

/-- An entry of the vector of a point evaluation whose two layouts coincide. -/
lemma point_split (f : Point X) (hd : f.dirac = true → f.i.2 = [] ∨ f.xs.batch = []) {r : List ℕ} (hr : Fits f.out r) :
    ∃ q m, Fits f.i.2 q ∧ Fits f.xs.batch m ∧ ravel f.out r = ravel (f.i.2 ++ f.xs.batch) (q ++ m) ∧
      ∀ g : Val X, f.T g (ravel f.out r) = g (f.xs.pt m) (ravel f.i.2 q) := by
  cases hdd : f.dirac
  · have ho : f.out = f.i.2 ++ f.xs.batch := by simp [Point.out, hdd]
    have hr' := hr
    rw [ho] at hr'
    obtain ⟨q, m, rfl, hq, hm⟩ := fits_split hr'
    exact ⟨q, m, hq, hm, by rw [ho], fun g => pointT_eval f hdd g hm hq⟩
  · have ho : f.out = f.xs.batch ++ f.i.2 := by simp [Point.out, hdd]
    have hr' := hr
    rw [ho] at hr'
    obtain ⟨m, q, rfl, hm, hq⟩ := fits_split hr'
    refine ⟨q, m, hq, hm, ?_, fun g => pointT_dirac f hdd g hm hq⟩
    rcases hd hdd with h | h
    · have : q = [] := fits_nil' (h ▸ hq)
      rw [ho, h, this]; simp
    · have : m = [] := fits_nil' (h ▸ hm)
      rw [ho, h, this]; simp

/-- The operator view of a point evaluation is right also for kernels that change when the points are exchanged. -/
theorem point_linop_partial (k : K X) (f : Point X) (rev : Bool) (x : Pts X) (hw : (PV.point k f rev).WF)
    (hs : (PV.point k f rev).LSafe) (hx : x.inS = k.sh.in0) :
    ∃ m, (PV.point k f rev).linopPriv x = .ok m ∧ HoldsMat rev f.out (PV.point k f rev).outS x (PV.point k f rev).den m := by
  obtain ⟨h1, h2, h3⟩ := hw
  have hop : f.out.prod = (f.i.2 ++ f.xs.batch).prod := by
    unfold Point.out; split_ifs <;> simp [mul_comm]
  cases rev
  · replace h3 : f.i.2 = k.sh.out1 := h3
    obtain ⟨m, e1, e2, e3⟩ := kLinop_get k x f.xs hx (by rw [h1]; exact h2)
    refine ⟨m, ?_, ?_, fun r n p hr hn hp => ?_⟩
    · rw [PV.linopPriv, if_neg (by simp)]; exact e1
    · rw [e2, hop, h3]; simp [PV.outS, KSh.outA]
    · obtain ⟨q, l, hq, hl, er, eT⟩ := point_split f hs hr
      have := e3 p n q l hp hn (h3 ▸ hq) hl
      rw [← h3] at this
      simp only [Bool.false_eq_true, if_false]
      rw [er]
      refine this.trans ?_
      rw [← er]
      exact (eT fun y q => k.eval (x.pt n) y (ravel k.sh.out0 p) q).symm
  · replace h3 : f.i.2 = k.sh.out0 := h3
    obtain ⟨m, e1, e2, e3⟩ := kLinop_get k f.xs x h2 (by rw [h1]; exact hx)
    refine ⟨m, ?_, ?_, fun r n p hr hn hp => ?_⟩
    · rw [PV.linopPriv, if_pos rfl]; exact e1
    · rw [e2, hop, h3]; simp [PV.outS, KSh.outA]
    · obtain ⟨q, l, hq, hl, er, eT⟩ := point_split f hs hr
      have := e3 q l p n (h3 ▸ hq) hl hp hn
      rw [← h3] at this
      simp only [if_true]
      rw [er]
      refine this.trans ?_
      rw [← er]
      exact (eT fun y q => k.eval y (x.pt n) q (ravel k.sh.out1 p)).symm

lemma matSum_holds {i o r : Shp} {rev : Bool} {cs : List (PV X)} {as : List (Nd.Arr ℝ)} {x : Pts X} (hw : (PV.sum i o r rev cs).WF)
    (h : List.Forall₂ (fun c a => HoldsMat c.rev c.rv c.outS x c.den a) cs as) :
    ∃ a, matSum as = .ok a ∧ HoldsMat rev r o x (PV.sum i o r rev cs).den a := by
  obtain ⟨hne, hsh, _⟩ := hw
  have h' : List.Forall₂ (fun (c : PV X) a => HoldsMat rev r o x c.den a) cs as := forall2_imp_mem h fun c hc a ha => by
    obtain ⟨_, e2, e3, e4⟩ := hsh c hc
    rwa [e2, e3, e4] at ha
  cases as with
  | nil => cases h'; exact absurd rfl hne
  | cons m ms =>
    have hs : ∀ n ∈ m :: ms, n.shape = matShape rev r o x.batch := fun n hn => by
      obtain ⟨c, _, hc⟩ := forall2_mem' h' n hn
      exact hc.1
    obtain ⟨a, h1, h2, h3⟩ := matFold_ok _ ms m (hs m List.mem_cons_self) fun n hn => hs n (List.mem_cons_of_mem _ hn)
    refine ⟨a, h1, h2, fun rr n p hr hn hp => ?_⟩
    rw [h3]
    have : ∀ j, m.get j + (ms.map fun n' => n'.get j).sum = ((m :: ms).map fun n' => n'.get j).sum := by simp
    rw [this, map_sum_forall2 (f := fun c : PV X => c.den (x.pt n) (ravel o p) (ravel r rr))
      (h'.imp fun c a ha => ha.2 rr n p hr hn hp), PV.den, denAll_eq]
    dsimp only
    rw [List.map_map]
    rfl

lemma matMul_holds {A : LMat} {c : PV X} {x : Pts X} {m : Nd.Arr ℝ} (hw : c.rv = [A.cols]) (hr : c.rev = true)
    (h : HoldsMat c.rev c.rv c.outS x c.den m) :
    ∃ a, matMul A m = .ok a ∧ HoldsMat c.rev [A.rows] c.outS x (PV.linop A c).den a := by
  rw [hw, hr] at h
  obtain ⟨h1, h2⟩ := h
  simp only [if_true] at h1
  unfold matMul
  rw [if_pos (by rw [h1]; simp), hr]
  refine ⟨_, rfl, by rw [h1]; simp, fun r n p hrr hn hp => ?_⟩
  obtain ⟨j, rfl, hj⟩ := fits_one hrr
  dsimp only
  rw [PV.den, ravel_one]
  refine Finset.sum_congr rfl fun t ht => ?_
  have := h2 [t] n p ⟨Finset.mem_range.mp ht, trivial⟩ hn hp
  rw [ravel_one] at this
  simp only [if_true] at this
  rw [← this]
  rfl

lemma block_holds {i r : Shp} {rev : Bool} {s : Shp} {cs : List (PV X)} {as : List (Nd.Arr ℝ)} {x : Pts X}
    (hw : (PV.stack i r rev s cs).WF) (h : List.Forall₂ (fun c a => HoldsMat c.rev c.rv c.outS x c.den a) cs as) :
    ∃ a, blockRowCol rev as = .ok a ∧ HoldsMat rev r s x (PV.stack i r rev s cs).den a := by
  obtain ⟨hne, hlen, hsh, _⟩ := hw
  have h' : List.Forall₂ (fun (c : PV X) a => HoldsMat rev r [] x c.den a) cs as := forall2_imp_mem h fun c hc a ha => by
    obtain ⟨_, e2, e3, e4⟩ := hsh c hc
    rwa [e2, e3, e4] at ha
  have hget : ∀ p, Fits s p → ∃ c a, cs[ravel s p]? = some c ∧ as[ravel s p]? = some a ∧ HoldsMat rev r [] x c.den a := by
    intro p hp
    have hlt : ravel s p < cs.length := by rw [hlen]; exact ravel_lt hp
    obtain ⟨a, ha, hh⟩ := forall2_getElem? h' (List.getElem?_eq_getElem hlt)
    exact ⟨_, a, List.getElem?_eq_getElem hlt, ha, hh⟩
  have hl : as.length = s.prod := by rw [← hlen]; exact h'.length_eq.symm
  cases as with
  | nil => cases h'; exact absurd rfl hne
  | cons m ms =>
    have hs : ∀ n ∈ m :: ms, n.shape = if rev then [r.prod, x.batch.prod] else [x.batch.prod, r.prod] := fun n hn => by
      obtain ⟨c, _, hc⟩ := forall2_mem' h' n hn
      simpa using hc.1
    have hall : ((m :: ms).all fun n => n.shape = m.shape) = true := by
      rw [List.all_eq_true]
      intro n hn
      simp only [decide_eq_true_eq]
      rw [hs n hn, hs m List.mem_cons_self]
    have hm := hs m List.mem_cons_self
    unfold blockRowCol
    simp only [hall, if_true]
    have hidx : ∀ p n, Fits s p → Fits x.batch n → ravel (s ++ x.batch) (p ++ n) / x.batch.prod = ravel s p ∧
        ravel (s ++ x.batch) (p ++ n) % x.batch.prod = ravel x.batch n := by
      intro p n hp hn
      have hlt := ravel_lt hn
      rw [ravel_append hp.length]
      have hb : 0 < x.batch.prod := by omega
      constructor
      · rw [mul_comm, Nat.mul_add_div hb, Nat.div_eq_of_lt hlt, add_zero]
      · rw [mul_comm, Nat.mul_add_mod, Nat.mod_eq_of_lt hlt]
    cases rev
    · simp only [Bool.false_eq_true, if_false] at hm
      refine ⟨_, rfl, ?_, fun rr n p hr hn hp => ?_⟩
      · simp [hm]
        left
        simpa using hl
      · obtain ⟨c, a, hc, ha, hh⟩ := hget p hp
        rw [den_stack _ _ _ _ _ _ _ _ hc]
        obtain ⟨i1, i2⟩ := hidx p n hp hn
        simp only [Bool.false_eq_true, if_false, hm, List.getD_cons_zero, List.getD_cons_succ, i1, i2, ha, Option.map_some,
          Option.getD_some]
        have := hh.2 rr n [] hr hn trivial
        simpa [ravel] using this
    · simp only [if_true] at hm
      refine ⟨_, rfl, ?_, fun rr n p hr hn hp => ?_⟩
      · simp [hm]
        left
        simpa using hl
      · obtain ⟨c, a, hc, ha, hh⟩ := hget p hp
        rw [den_stack _ _ _ _ _ _ _ _ hc]
        obtain ⟨i1, i2⟩ := hidx p n hp hn
        simp only [if_true, hm, List.getD_cons_zero, List.getD_cons_succ, i1, i2, ha, Option.map_some,
          Option.getD_some]
        have := hh.2 rr n [] hr hn trivial
        simpa [ravel] using this

/-- What `evaluate_linop` adds to `_evaluate_linop`. -/
lemma linopOf_holds {c : PV X} {x : Pts X} (hw : c.WF) (hx : x.inS = c.inS) (hs : c.HasPriv = true ∨ c.Sym)
    (h : if c.HasPriv then ∃ m, c.linopPriv x = .ok m ∧ HoldsMat c.rev c.rv c.outS x c.den m
      else c.linopPriv x = .error .notImplemented) :
    ∃ m, c.linopOf x (c.linopPriv x) = .ok m ∧ HoldsMat c.rev c.rv c.outS x c.den m := by
  unfold PV.linopOf
  rw [if_neg (by simpa using hx)]
  cases hp : c.HasPriv
  · rw [hp] at h
    simp only [Bool.false_eq_true, if_false] at h
    rw [h]
    obtain ⟨a, h1, h2⟩ := call_holds_partial x c hw (hs.resolve_left (by simp [hp])) hx
    obtain ⟨m, h3, h4⟩ := fallback_holds h2
    exact ⟨m, by simp only [h1, bind, Except.bind]; exact h3, h4⟩
  · rw [hp] at h
    simp only [if_true] at h
    obtain ⟨m, h1, h2⟩ := h
    exact ⟨m, by rw [h1], h2⟩

/-- The conclusion about `_evaluate_linop`. -/
def PrivOk (x : Pts X) (c : PV X) : Prop :=
  if c.HasPriv then ∃ m, c.linopPriv x = .ok m ∧ HoldsMat c.rev c.rv c.outS x c.den m
  else c.linopPriv x = .error .notImplemented

lemma privAll_ok {x : Pts X} : ∀ {cs : List (PV X)}, (∀ c ∈ cs, PrivOk x c) →
    if privAll cs then ∃ ms, linopPrivAll cs x = .ok ms ∧ List.Forall₂ (fun c a => HoldsMat c.rev c.rv c.outS x c.den a) cs ms
    else linopPrivAll cs x = .error .notImplemented
  | [], _ => by simp only [privAll, if_true]; exact ⟨[], by rw [linopPrivAll], .nil⟩
  | c :: cs, h => by
    have h1 := h c List.mem_cons_self
    have h2 := privAll_ok fun m hm => h m (List.mem_cons_of_mem _ hm)
    unfold PrivOk at h1
    rw [privAll, linopPrivAll]
    cases hc : c.HasPriv
    · simp only [hc, Bool.false_eq_true, if_false] at h1
      simp only [Bool.false_and, Bool.false_eq_true, if_false, h1, bind, Except.bind]
    · simp only [hc, if_true] at h1
      obtain ⟨m, e1, e2⟩ := h1
      cases hcs : privAll cs
      · simp only [hcs, Bool.false_eq_true, if_false] at h2
        simp only [Bool.and_false, Bool.false_eq_true, if_false, e1, h2, bind, Except.bind]
      · simp only [hcs, if_true] at h2
        obtain ⟨ms, e3, e4⟩ := h2
        simp only [Bool.and_true, if_true]
        exact ⟨m :: ms, by simp only [e1, e3, bind, Except.bind], .cons e2 e4⟩

lemma linopAll_ok {x : Pts X} : ∀ {cs : List (PV X)}, (∀ c ∈ cs, PrivOk x c) → (∀ c ∈ cs, c.WF) → (∀ c ∈ cs, x.inS = c.inS) →
    (∀ c ∈ cs, c.HasPriv = true ∨ c.Sym) →
    ∃ ms, linopAll cs x = .ok ms ∧ List.Forall₂ (fun c a => HoldsMat c.rev c.rv c.outS x c.den a) cs ms
  | [], _, _, _, _ => ⟨[], by rw [linopAll], .nil⟩
  | c :: cs, h, hw, hx, hs => by
    obtain ⟨m, e1, e2⟩ := linopOf_holds (hw c List.mem_cons_self) (hx c List.mem_cons_self) (hs c List.mem_cons_self)
      (h c List.mem_cons_self)
    obtain ⟨ms, e3, e4⟩ := linopAll_ok (fun m hm => h m (List.mem_cons_of_mem _ hm)) (fun m hm => hw m (List.mem_cons_of_mem _ hm))
      (fun m hm => hx m (List.mem_cons_of_mem _ hm)) (fun m hm => hs m (List.mem_cons_of_mem _ hm))
    exact ⟨m :: ms, by rw [linopAll]; simp only [e1, e3, bind, Except.bind], .cons e2 e4⟩

mutual
/-- `_evaluate_linop` contains the covariances or is not implemented. -/
theorem linopPriv_holds_partial (x : Pts X) : ∀ c : PV X, c.WF → c.LSafe → x.inS = c.inS → PrivOk x c
  | .base .., _, _, _ => by simp [PrivOk, PV.HasPriv, PV.linopPriv]
  | .point k f rev, hw, hs, hx => by
    unfold PrivOk
    rw [PV.HasPriv, if_pos rfl]
    exact point_linop_partial k f rev x hw hs hx
  | .quad .., _, _, _ => by simp [PrivOk, PV.HasPriv, PV.linopPriv]
  | .scaled c s, hw, hs, hx => by
    have ih := linopPriv_holds_partial x c hw hs hx
    unfold PrivOk at ih ⊢
    rw [PV.HasPriv, PV.linopPriv]
    cases hc : c.HasPriv
    · simp only [hc, Bool.false_eq_true, if_false] at ih ⊢
      simp only [ih, bind, Except.bind]
    · simp only [hc, if_true] at ih ⊢
      obtain ⟨m, e1, e2, e3⟩ := ih
      refine ⟨smulArr s m, by simp only [e1, bind, Except.bind], e2, fun r n p hr hn hp => ?_⟩
      show s * m.get _ = _
      rw [PV.den]
      exact congrArg _ (e3 r n p hr hn hp)
  | .sum i o r rev cs, hw, hs, hx => by
    have ih := privAll_ok (linopPrivAll_holds_partial x cs ((pvAll_iff cs).mp hw.2.2) ((lsafeAll_iff cs).mp hs)
      fun c hc => by rw [(hw.2.1 c hc).1]; exact hx)
    unfold PrivOk
    rw [PV.HasPriv, PV.linopPriv]
    cases hc : privAll cs
    · simp only [hc, Bool.false_eq_true, if_false] at ih ⊢
      simp only [ih, bind, Except.bind]
    · simp only [hc, if_true] at ih ⊢
      obtain ⟨ms, e1, e2⟩ := ih
      obtain ⟨a, h3, h4⟩ := matSum_holds hw e2
      exact ⟨a, by simp only [e1, bind, Except.bind]; exact h3, h4⟩
  | .linop A c, hw, hs, hx => by
    have ih := linopPriv_holds_partial x c hw.2 hs.2 hx
    unfold PrivOk at ih ⊢
    rw [PV.HasPriv, PV.linopPriv]
    cases hc : c.HasPriv
    · simp only [hc, Bool.false_eq_true, if_false] at ih ⊢
      simp only [ih, bind, Except.bind]
    · simp only [hc, if_true] at ih ⊢
      obtain ⟨m, e1, e2⟩ := ih
      obtain ⟨a, h3, h4⟩ := matMul_holds hw.1 (hs.1.resolve_right (by simp [hc])) e2
      exact ⟨a, by simp only [e1, bind, Except.bind]; exact h3, h4⟩
  | .stack i r rev s cs, hw, hs, hx => by
    have hx' : ∀ c ∈ cs, x.inS = c.inS := fun c hc => by rw [(hw.2.2.1 c hc).1]; exact hx
    have hw' := (pvAll_iff cs).mp hw.2.2.2
    obtain ⟨ms, e1, e2⟩ := linopAll_ok (linopPrivAll_holds_partial x cs hw' ((lsafeAll_iff cs).mp hs.1) hx') hw' hx' hs.2
    unfold PrivOk
    rw [PV.HasPriv, PV.linopPriv, if_pos rfl]
    obtain ⟨a, h3, h4⟩ := block_holds hw e2
    exact ⟨a, by simp only [e1, bind, Except.bind]; exact h3, h4⟩
  | .zero .., _, _, _ => by simp [PrivOk, PV.HasPriv, PV.linopPriv]
  | .param .., _, _, _ => by simp [PrivOk, PV.HasPriv, PV.linopPriv]
/-- Every part. -/
theorem linopPrivAll_holds_partial (x : Pts X) : ∀ cs : List (PV X), (∀ c ∈ cs, c.WF) → (∀ c ∈ cs, c.LSafe) →
    (∀ c ∈ cs, x.inS = c.inS) → ∀ c ∈ cs, PrivOk x c
  | [], _, _, _, _, h => by cases h
  | c :: cs, hw, hs, hx, d, hd => by
    rcases List.mem_cons.mp hd with h | h
    · rw [h]
      exact linopPriv_holds_partial x c (hw c List.mem_cons_self) (hs c List.mem_cons_self) (hx c List.mem_cons_self)
    · exact linopPrivAll_holds_partial x cs (fun m hm => hw m (List.mem_cons_of_mem _ hm)) (fun m hm => hs m (List.mem_cons_of_mem _ hm))
        (fun m hm => hx m (List.mem_cons_of_mem _ hm)) d h
end

/-- The operator view contains the covariances. -/
theorem linop_holds_partial (x : Pts X) (c : PV X) (hw : c.WF) (hs : c.LSafe) (hp : c.HasPriv = true ∨ c.Sym) (hx : x.inS = c.inS) :
    ∃ m, c.linopView x = .ok m ∧ HoldsMat c.rev c.rv c.outS x c.den m :=
  linopOf_holds hw hx hp (linopPriv_holds_partial x c hw hs hx)

/-- Both views exist and contain the same numbers, each in its documented place. -/
theorem views_agree_partial (x : Pts X) (c : PV X) (hw : c.WF) (hy : c.Sym) (hs : c.LSafe) (hx : x.inS = c.inS) :
    ∃ a m, c.call x = .ok a ∧ c.linopView x = .ok m ∧ a.shape = layout c.rev c.rv x.batch c.outS ∧
      m.shape = (if c.rev then [c.rv.prod, c.outS.prod * x.batch.prod] else [c.outS.prod * x.batch.prod, c.rv.prod]) ∧
      ∀ r n p, Fits c.rv r → Fits x.batch n → Fits c.outS p →
        a.get (if c.rev then r ++ n ++ p else n ++ p ++ r) =
          m.get (if c.rev then [ravel c.rv r, ravel (c.outS ++ x.batch) (p ++ n)]
            else [ravel (c.outS ++ x.batch) (p ++ n), ravel c.rv r]) := by
  obtain ⟨a, h1, h2, h3⟩ := call_holds_partial x c hw hy hx
  obtain ⟨m, h4, h5, h6⟩ := linop_holds_partial x c hw hs (.inr hy) hx
  exact ⟨a, m, h1, h4, h2, h5, fun r n p hr hn hp => (h3 r n p hr hn hp).trans (h6 r n p hr hn hp).symm⟩

end LinPDE.XCov
