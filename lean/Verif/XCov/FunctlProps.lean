import Verif.XCov.Functl

/-!
# Functionals applied to covariance functions are linear in the kernel
-/

namespace LinPDE.XCov
open LinPDE.Nd LinPDE.Ops LinPDE.CovAlg LinPDE.Covar
variable {X : Type}

lemma chk_iff (i : Shapes) (k : K X) (arg : Bool) : chk i k arg = .ok () ↔ Fit i arg k := by
  rw [← validate_iff]
  unfold chk
  cases validate i k arg with
  | ok u => simp
  | error e => simp

/-! ## `actF` -/

lemma actF_congr {s o : Shp} {T : Fl X} (hT : FLoc s o T) (rev : Bool) {k m : KVal X} {x : X} {p p' r : ℕ} (hr : r < o.prod)
    (h : ∀ y, ∀ q < s.prod, (if rev then k y x q p = m y x q p' else k x y p q = m x y p' q)) :
    actF T rev k x p r = actF T rev m x p' r := by
  unfold actF
  cases rev
  · simp only [Bool.false_eq_true, if_false] at h ⊢
    exact hT _ _ (fun y q hq => h y q hq) r hr
  · simp only [if_true] at h ⊢
    exact hT _ _ (fun y q hq => h y q hq) r hr

lemma actF_smul (T : Fl X) (rev : Bool) (k : KVal X) (c : ℝ) (x : X) (p r : ℕ) :
    actF T rev (fun x0 x1 p q => c * k x0 x1 p q) x p r = c * actF T rev k x p r := by
  unfold actF
  cases rev
  · simp only [Bool.false_eq_true, if_false]
    rw [show (fun y q => c * k x y p q) = c • (fun y q => k x y p q : Val X) from rfl, map_smul]
    rfl
  · simp only [if_true]
    rw [show (fun y q => c * k y x q p) = c • (fun y q => k y x q p : Val X) from rfl, map_smul]
    rfl

lemma actF_add (T : Fl X) (rev : Bool) (k m : KVal X) (x : X) (p r : ℕ) :
    actF T rev (fun x0 x1 p q => k x0 x1 p q + m x0 x1 p q) x p r = actF T rev k x p r + actF T rev m x p r := by
  unfold actF
  cases rev
  · simp only [Bool.false_eq_true, if_false]
    rw [show (fun y q => k x y p q + m x y p q) = (fun y q => k x y p q : Val X) + (fun y q => m x y p q : Val X) from rfl, map_add]
    rfl
  · simp only [if_true]
    rw [show (fun y q => k y x q p + m y x q p) = (fun y q => k y x q p : Val X) + (fun y q => m y x q p : Val X) from rfl, map_add]
    rfl

lemma actF_zero (T : Fl X) (rev : Bool) (x : X) (p r : ℕ) : actF T rev (fun _ _ _ _ => 0) x p r = 0 := by
  unfold actF
  have : T (fun _ _ => 0) = 0 := map_zero T
  cases rev <;> simp [this]

lemma actF_sum (T : Fl X) (rev : Bool) (x : X) (p r : ℕ) : ∀ ks : List (KVal X),
    actF T rev (fun x0 x1 p q => (ks.map fun k => k x0 x1 p q).sum) x p r = (ks.map fun k => actF T rev k x p r).sum
  | [] => by simpa using actF_zero T rev x p r
  | k :: ks => by
    simp only [List.map_cons, List.sum_cons]
    rw [actF_add, actF_sum T rev x p r ks]

/-- Composition with an operator in the same argument. -/
lemma actF_act (T : Fl X) (S : Val X →ₗ[ℝ] Val X) (arg : Bool) (k : KVal X) (x : X) (p r : ℕ) :
    actF T (!arg) (act S arg k) x p r = actF (T ∘ₗ S) (!arg) k x p r := by
  unfold actF act
  cases arg
  · simp only [Bool.not_false, if_true, Bool.false_eq_true, if_false]; rfl
  · simp only [Bool.not_true, if_true, Bool.false_eq_true, if_false]; rfl

/-! ## Constructors -/

lemma goodF_scaled {T : Fl X} {o : Shp} {arg : Bool} {m : K X} {c : PV X} (s : ℝ) (h : GoodF T o arg m c) :
    GoodF T o arg (.scaled m s) (.scaled c s) where
  wf := h.wf
  inS := h.inS
  outS := h.outS
  rv := h.rv
  rev := h.rev
  den x p r hp hr := by
    rw [PV.den]
    have e : (K.scaled m s).eval = fun x0 x1 p q => s * m.eval x0 x1 p q := by funext x0 x1 p q; exact eval_scaled m s x0 x1 p q
    dsimp only
    rw [e, actF_smul, h.den x p r hp hr]

lemma fold_good {arg : Bool} {o : Shp} (sh : KSh) : ∀ (cs : List (PV X)) (ds : List (X → ℕ → ℕ → ℝ)) (c d : PV X) (e : X → ℕ → ℕ → ℝ),
    List.Forall₂ (fun (c : PV X) d => c.WF ∧ c.inS = sh.inA (!arg) ∧ c.outS = sh.outA (!arg) ∧ c.rv = o ∧ c.rev = (!arg) ∧
      ∀ x p r, p < (sh.outA (!arg)).prod → r < o.prod → c.den x p r = d x p r) cs ds →
    (c.WF ∧ c.inS = sh.inA (!arg) ∧ c.outS = sh.outA (!arg) ∧ c.rv = o ∧ c.rev = (!arg) ∧
      ∀ x p r, p < (sh.outA (!arg)).prod → r < o.prod → c.den x p r = e x p r) →
    cs.foldlM PV.add c = .ok d →
    d.WF ∧ d.inS = sh.inA (!arg) ∧ d.outS = sh.outA (!arg) ∧ d.rv = o ∧ d.rev = (!arg) ∧
      ∀ x p r, p < (sh.outA (!arg)).prod → r < o.prod → d.den x p r = e x p r + (ds.map fun d => d x p r).sum
  | [], _, c, d, e, .nil, hc, h => by
    cases h
    obtain ⟨h1, h2, h3, h4, h5, h6⟩ := hc
    exact ⟨h1, h2, h3, h4, h5, fun x p r hp hr => by simp [h6 x p r hp hr]⟩
  | c' :: cs, d' :: ds, c, d, e, .cons hd ht, hc, h => by
    rw [List.foldlM_cons] at h
    obtain ⟨h1, h2, h3, h4, h5, h6⟩ := hc
    obtain ⟨g1, g2, g3, g4, g5, g6⟩ := hd
    have ha : c.add c' = .ok (.sum c.inS c.outS c.rv c.rev [c, c']) := by
      unfold PV.add
      rw [if_pos ⟨by rw [g2, h2], by rw [g3, h3], by rw [g4, h4], by rw [g5, h5]⟩]
    rw [ha] at h
    have := fold_good sh cs ds (.sum c.inS c.outS c.rv c.rev [c, c']) d (fun x p r => e x p r + d' x p r) ht ?_ h
    · obtain ⟨f1, f2, f3, f4, f5, f6⟩ := this
      refine ⟨f1, f2, f3, f4, f5, fun x p r hp hr => ?_⟩
      rw [f6 x p r hp hr]
      simp [add_assoc]
    · refine ⟨⟨by simp, ?_, ⟨h1, g1, trivial⟩⟩, h2, h3, h4, h5, fun x p r hp hr => ?_⟩
      · intro m hm
        rcases List.mem_cons.mp hm with rfl | hm
        · exact ⟨rfl, rfl, rfl, rfl⟩
        · rw [List.mem_singleton] at hm
          subst hm
          exact ⟨by rw [g2, h2], by rw [g3, h3], by rw [g4, h4], by rw [g5, h5]⟩
      · rw [PV.den, denAll_eq]
        simp [h6 x p r hp hr, g6 x p r hp hr]

/-- `functools.reduce(operator.add, …)`. -/
lemma reduce_good {arg : Bool} {o : Shp} (sh : KSh) {cs : List (PV X)} {ds : List (X → ℕ → ℕ → ℝ)} {d : PV X}
    (h : List.Forall₂ (fun (c : PV X) d => c.WF ∧ c.inS = sh.inA (!arg) ∧ c.outS = sh.outA (!arg) ∧ c.rv = o ∧ c.rev = (!arg) ∧
      ∀ x p r, p < (sh.outA (!arg)).prod → r < o.prod → c.den x p r = d x p r) cs ds) (hr : reducePV cs = .ok d) :
    d.WF ∧ d.inS = sh.inA (!arg) ∧ d.outS = sh.outA (!arg) ∧ d.rv = o ∧ d.rev = (!arg) ∧
      ∀ x p r, p < (sh.outA (!arg)).prod → r < o.prod → d.den x p r = (ds.map fun d => d x p r).sum := by
  cases h with
  | nil => cases hr
  | cons hd ht =>
    obtain ⟨f1, f2, f3, f4, f5, f6⟩ := fold_good sh _ _ _ d _ ht hd hr
    exact ⟨f1, f2, f3, f4, f5, fun x p r hp hr => by simpa using f6 x p r hp hr⟩

lemma mkStackPV_inv {s : Shp} {cs : List (PV X)} {c : PV X} (h : mkStackPV s cs = .ok c) :
    ∃ d ds, cs = d :: ds ∧ c = .stack d.inS d.rv d.rev s cs := by
  cases cs with
  | nil => cases h
  | cons d ds =>
    unfold mkStackPV at h
    dsimp only at h
    split_ifs at h
    cases h
    exact ⟨d, ds, rfl, rfl⟩

/-! ## Functionals of one class -/

lemma noRule_inv {b : BFn X} {arg : Bool} {k : K X} {cl : Option (PV X)} {c : PV X} (h : b.noRule arg k cl = .ok c) :
    b.quad = true ∧ Fit b.i arg k ∧ (cl = some c ∨ (b.i.2 = [] ∧ c = .quad k b.o b.T (!arg))) := by
  unfold BFn.noRule at h
  by_cases hq : b.quad = true
  swap
  · rw [if_neg hq] at h; cases h
  rw [if_pos hq] at h
  obtain ⟨u, h1, h2⟩ := bind_ok' h
  refine ⟨hq, (chk_iff _ _ _).mp h1, ?_⟩
  cases cl with
  | some d => cases h2; exact .inl rfl
  | none =>
    simp only at h2
    split_ifs at h2 with hi
    cases h2
    exact .inr ⟨by simpa using hi, rfl⟩

/-- A successful call implies that the shapes fit. -/
lemma call_fit {b : BFn X} {arg : Bool} {k : K X} {c : PV X} (h : b.call arg k = .ok c) : Fit b.i arg k := by
  cases k with
  | base sh cls j ev => rw [BFn.call] at h; exact (noRule_inv h).2.1
  | imo i ks => rw [BFn.call] at h; exact (noRule_inv h).2.1
  | scaled m s => rw [BFn.call] at h; obtain ⟨u, h1, _⟩ := bind_ok' h; exact (chk_iff _ _ _).mp h1
  | sum sh ks => rw [BFn.call] at h; obtain ⟨u, h1, _⟩ := bind_ok' h; exact (chk_iff _ _ _).mp h1
  | stack i0 i1 s idx ks => rw [BFn.call] at h; obtain ⟨u, h1, _⟩ := bind_ok' h; exact (chk_iff _ _ _).mp h1
  | zero sh => rw [BFn.call] at h; obtain ⟨u, h1, _⟩ := bind_ok' h; exact (chk_iff _ _ _).mp h1

lemma quad_good {b : BFn X} {arg : Bool} {k : K X} (hT : FLoc b.i.2 b.o b.T) (hi : b.i.2 = []) (hf : Fit b.i arg k)
    (ho : k.sh.outA (!arg) = []) : GoodF b.T b.o arg k (.quad k b.o b.T (!arg)) where
  wf := by
    have h1 := hf.2
    rw [hi] at h1 hT
    cases arg
    · exact ⟨by simpa [KSh.outA] using h1, by simpa [KSh.outA] using ho, hT⟩
    · exact ⟨by simpa [KSh.outA] using ho, by simpa [KSh.outA] using h1, hT⟩
  inS := rfl
  outS := rfl
  rv := rfl
  rev := rfl
  den x p r _ _ := by rw [PV.den]

mutual
/-- A functional of one class applied to a kernel expression, whenever the call returns. -/
theorem bfn_correct (b : BFn X) (arg : Bool) (hT : FLoc b.i.2 b.o b.T) : ∀ (k : K X) (c : PV X), k.WF → k.Safe arg →
    b.call arg k = .ok c → GoodF b.T b.o arg k c
  | .base sh cls j ev, c, _, hs, h => by
    rw [BFn.call] at h
    obtain ⟨_, hf, hc⟩ := noRule_inv h
    rcases hc with hc | ⟨hi, rfl⟩
    · split_ifs at hc
      cases hc
      exact ⟨trivial, rfl, rfl, rfl, rfl, fun x p r _ _ => by rw [PV.den]; simp [K.eval, K.evalG]⟩
    · exact quad_good hT hi hf hs
  | .scaled m s, c, hw, hs, h => by
    rw [BFn.call] at h
    obtain ⟨u, _, h2⟩ := bind_ok' h
    obtain ⟨d, h3, h4⟩ := bind_ok' h2
    cases h4
    exact goodF_scaled s (bfn_correct b arg hT m d hw hs h3)
  | .sum sh ks, c, hw, hs, h => by
    rw [BFn.call] at h
    obtain ⟨u, _, h2⟩ := bind_ok' h
    obtain ⟨cs, h3, h4⟩ := bind_ok' h2
    obtain ⟨_, hsh, hwf⟩ := hw
    have hall := bfnAll_correct b arg hT ks cs ((allWF_iff ks).mp hwf) ((allSafe_iff arg ks).mp hs) h3
    have hall' : List.Forall₂ (fun (c : PV X) d => c.WF ∧ c.inS = sh.inA (!arg) ∧ c.outS = sh.outA (!arg) ∧ c.rv = b.o ∧
        c.rev = (!arg) ∧ ∀ x p r, p < (sh.outA (!arg)).prod → r < b.o.prod → c.den x p r = d x p r) cs
        (ks.map fun k => actF b.T (!arg) k.eval) := by
      rw [List.forall₂_map_right_iff]
      refine List.Forall₂.flip (forall2_imp_mem (List.Forall₂.flip hall.flip) fun k hk c hc => ?_)
      have e := hsh k hk
      exact ⟨hc.wf, by rw [hc.inS, e], by rw [hc.outS, e], hc.rv, hc.rev, by rw [← e]; exact hc.den⟩
    obtain ⟨f1, f2, f3, f4, f5, f6⟩ := reduce_good sh hall' h4
    refine ⟨f1, f2, f3, f4, f5, fun x p r hp hr => ?_⟩
    rw [f6 x p r hp hr]
    have e : (K.sum sh ks).eval = fun x0 x1 p q => ((ks.map K.eval).map fun k => k x0 x1 p q).sum := by
      funext x0 x1 p q
      rw [eval_sum, List.map_map]
      rfl
    rw [e, actF_sum, List.map_map, List.map_map]
    rfl
  | .stack i0 i1 s idx ks, c, hw, hs, h => by
    rw [BFn.call] at h
    obtain ⟨u, hchk, h2⟩ := bind_ok' h
    have hfit := (chk_iff _ _ _).mp hchk
    obtain ⟨cs, h3, h4⟩ := bind_ok' h2
    obtain ⟨hlen, hne, hsh, hwf⟩ := hw
    have hall := bfnAll_correct b arg hT ks cs ((allWF_iff ks).mp hwf) ((allSafe_iff arg ks).mp hs.2) h3
    obtain ⟨d, ds, hds, rfl⟩ := mkStackPV_inv h4
    have hin : ∀ e ∈ cs, e.WF ∧ e.inS = (if !arg then i1 else i0) ∧ e.outS = [] ∧ e.rv = b.o ∧ e.rev = (!arg) := by
      intro e he
      obtain ⟨k, hk, hc⟩ := forall2_mem' hall e he
      have hk' := hsh k hk
      refine ⟨hc.wf, ?_, ?_, hc.rv, hc.rev⟩
      · rw [hc.inS, hk']; cases arg <;> rfl
      · rw [hc.outS, hk']; cases arg <;> rfl
    have hd : d ∈ cs := by rw [hds]; exact List.mem_cons_self
    obtain ⟨_, d2, d3, d4, d5⟩ := hin d hd
    -- the functional acts on scalar functions
    have hi2 : b.i.2 = [] := by
      cases hks : ks with
      | nil => exact absurd hks hne
      | cons k ks' =>
        rw [hks] at h3
        rw [BFn.callAll] at h3
        obtain ⟨c1, h5, _⟩ := bind_ok' h3
        have hf := (call_fit h5).2
        rw [hsh k (by rw [hks]; exact List.mem_cons_self)] at hf
        rw [← hf]
        cases arg <;> rfl
    have hcl : cs.length = ks.length := hall.length_eq.symm
    have hout : (K.stack i0 i1 s idx ks).sh.outA (!arg) = s := by
      by_cases ha : idx = arg
      · have h6 := hfit.2
        rw [hi2] at h6
        have hs0 : s = [] := by
          subst ha
          cases idx <;> simpa [K.sh, KSh.outA] using h6
        rw [hs0]
        cases idx <;> cases arg <;> simp [K.sh, KSh.outA]
      · have : idx = !arg := by cases idx <;> cases arg <;> simp_all
        subst this
        cases arg <;> simp [K.sh, KSh.outA]
    refine ⟨⟨by rw [hds]; simp, by rw [hcl, hlen], ?_, (pvAll_iff _).mpr fun e he => (hin e he).1⟩, ?_, hout.symm, d4, d5, ?_⟩
    · intro e he
      obtain ⟨_, e2, e3, e4, e5⟩ := hin e he
      exact ⟨by rw [e2, d2], e3, by rw [e4, d4], by rw [e5, d5]⟩
    · show d.inS = _
      rw [d2]
      cases arg <;> rfl
    · intro x p r hp hr
      rw [hout] at hp
      have hpk : p < ks.length := by rw [hlen]; exact hp
      obtain ⟨c1, hc1, hg⟩ := forall2_getElem? hall (List.getElem?_eq_getElem hpk)
      rw [den_stack _ _ _ _ _ _ _ _ hc1]
      have hkp : ks[p].sh = ⟨i0, i1, [], []⟩ := hsh _ (List.getElem_mem hpk)
      rw [hg.den x 0 r (by rw [hkp]; cases arg <;> simp [KSh.outA]) hr]
      rw [hi2] at hT
      refine (actF_congr hT (!arg) hr fun y q hq => ?_).symm
      have hq0 : q = 0 := by simpa using hq
      subst hq0
      by_cases ha : idx = arg
      · have hs0 : s = [] := by
          have h6 := hfit.2
          rw [hi2] at h6
          subst ha
          cases idx <;> simpa [K.sh, KSh.outA] using h6
        have hp0 : p = 0 := by rw [hs0] at hp; simpa using hp
        subst hp0
        cases arg <;> simp [eval_stack, List.getElem?_eq_getElem hpk]
      · have : idx = !arg := by cases idx <;> cases arg <;> simp_all
        subst this
        cases arg <;> simp [eval_stack, List.getElem?_eq_getElem hpk]
  | .imo i ks, c, hw, hs, h => by
    rw [BFn.call] at h
    obtain ⟨_, hf, hc⟩ := noRule_inv h
    rcases hc with hc | ⟨hi, rfl⟩
    · cases hc
    · have := hf.2
      rw [hi] at this
      cases arg <;> simp [K.sh, KSh.outA] at this
  | .zero sh, c, _, _, h => by
    rw [BFn.call] at h
    obtain ⟨u, _, h2⟩ := bind_ok' h
    cases h2
    refine ⟨trivial, rfl, rfl, rfl, rfl, fun x p r _ _ => ?_⟩
    rw [PV.den]
    have e : (K.zero sh : K X).eval = fun _ _ _ _ => 0 := by funext x0 x1 p q; exact eval_zero sh x0 x1 p q
    rw [e, actF_zero]
/-- Every part. -/
theorem bfnAll_correct (b : BFn X) (arg : Bool) (hT : FLoc b.i.2 b.o b.T) : ∀ (ks : List (K X)) (cs : List (PV X)),
    (∀ k ∈ ks, k.WF) → (∀ k ∈ ks, k.Safe arg) → b.callAll arg ks = .ok cs → List.Forall₂ (fun k c => GoodF b.T b.o arg k c) ks cs
  | [], cs, _, _, h => by rw [BFn.callAll] at h; cases h; exact .nil
  | k :: ks, cs, hw, hs, h => by
    rw [BFn.callAll] at h
    obtain ⟨c, h1, h2⟩ := bind_ok' h
    obtain ⟨ds, h3, h4⟩ := bind_ok' h2
    cases h4
    exact .cons (bfn_correct b arg hT k c (hw k List.mem_cons_self) (hs k List.mem_cons_self) h1)
      (bfnAll_correct b arg hT ks ds (fun m hm => hw m (List.mem_cons_of_mem _ hm)) (fun m hm => hs m (List.mem_cons_of_mem _ hm)) h3)
end

/-! ## All functionals -/

lemma floc_zero (s o : Shp) : FLoc s o (0 : Fl X) := fun _ _ _ _ _ => rfl

lemma point_floc (f : Point X) : FLoc f.i.2 f.out f.T := by
  intro g g' hg r hr
  have hfr : Fits f.out (unravel f.out r) := fits_unravel hr
  have e := ravel_unravel hr
  rw [← e]
  cases hd : f.dirac
  · have hr' : Fits (f.i.2 ++ f.xs.batch) (unravel f.out r) := by simpa [Point.out, hd] using hfr
    obtain ⟨q, m, hqm, hq, hm⟩ := fits_split hr'
    rw [hqm, pointT_eval f hd _ hm hq, pointT_eval f hd _ hm hq]
    exact hg _ _ (ravel_lt hq)
  · have hr' : Fits (f.xs.batch ++ f.i.2) (unravel f.out r) := by simpa [Point.out, hd] using hfr
    obtain ⟨m, q, hqm, hm, hq⟩ := fits_split hr'
    rw [hqm, pointT_dirac f hd _ hm hq, pointT_dirac f hd _ hm hq]
    exact hg _ _ (ravel_lt hq)

mutual
/-- Functionals look only at the entries of the input shape. -/
lemma fn_floc (dom : Shp) : ∀ (F : Fn X) (i : Shapes) (o : Shp), F.Typed dom i o → FLoc i.2 o F.T
  | .base b, i, o, h => by rw [Fn.T]; exact h.2.2
  | .point f, i, o, h => by rw [Fn.T, ← h.1, ← h.2.1]; exact point_floc f
  | .comp j A F L, i, o, h => by
    obtain ⟨_, m, n, hL, hF, hA⟩ := h
    have ih := fn_floc dom F m n hF
    rw [Fn.T]
    have hL' : Loc i.2 m.2 (preT L) := by
      cases L with
      | none => simp only at hL; subst hL; exact loc_id _
      | some L => exact typed_loc L i m hL
    have h1 : FLoc i.2 n (F.T ∘ₗ preT L) := fun f g hfg r hr => ih _ _ (fun y p hp => hL' f g hfg y p hp) r hr
    cases A with
    | none => simp only at hA; subst hA; exact h1
    | some A =>
      obtain ⟨hn, ho⟩ := hA
      intro f g hfg r hr
      show ∑ j ∈ Finset.range A.cols, A.a r j * _ = ∑ j ∈ Finset.range A.cols, A.a r j * _
      refine Finset.sum_congr rfl fun j hj => ?_
      rw [h1 f g hfg j (by rw [hn]; simpa using hj)]
  | .scaled F c, i, o, h => by
    have ih := fn_floc dom F i o h
    intro f g hfg r hr
    rw [Fn.T]
    show c * F.T f r = c * F.T g r
    rw [ih f g hfg r hr]
  | .sum Fs, i, o, h => by rw [Fn.T]; exact fns_floc dom Fs i o h.2
/-- Sums of them. -/
lemma fns_floc (dom : Shp) : ∀ (Fs : List (Fn X)) (i : Shapes) (o : Shp), typedFs dom Fs i o → FLoc i.2 o (sumFT Fs)
  | [], i, o, _ => by rw [sumFT]; exact floc_zero _ _
  | F :: Fs, i, o, h => by
    have h1 := fn_floc dom F i o h.1
    have h2 := fns_floc dom Fs i o h.2
    intro f g hfg r hr
    rw [sumFT]
    show F.T f r + sumFT Fs f r = F.T g r + sumFT Fs g r
    rw [h1 f g hfg r hr, h2 f g hfg r hr]
end

lemma preOp_inv {L : Option (LOp X)} {arg : Bool} {k k' : K X} (h : preOp L arg k = .ok k') :
    match L with | none => k' = k | some L => L.call arg k = .ok k' := by
  cases L with
  | none => cases h; rfl
  | some L =>
    unfold preOp at h
    simp only at h ⊢
    cases hc : L.call arg k with
    | ok m => rw [hc] at h; cases h; rfl
    | error e => rw [hc] at h; cases h

lemma goodF_congr {T T' : Fl X} {o : Shp} {arg : Bool} {k : K X} {c : PV X} (h : GoodF T o arg k c) (e : T = T') :
    GoodF T' o arg k c := e ▸ h

lemma sumFT_act (rev : Bool) (k : KVal X) (x : X) (p r : ℕ) : ∀ Fs : List (Fn X),
    actF (sumFT Fs) rev k x p r = (Fs.map ((fun d : X → ℕ → ℕ → ℝ => d x p r) ∘ fun F : Fn X => actF F.T rev k)).sum
  | [] => by rw [sumFT]; unfold actF; cases rev <;> rfl
  | F :: Fs => by
    rw [List.map_cons, List.sum_cons, ← sumFT_act rev k x p r Fs, sumFT]
    unfold actF
    cases rev <;> rfl

mutual
/-- Applying any functional expression (point evaluations, integrals, projections, compositions with operators and matrices,
scalings and sums) to any kernel expression gives, whenever the call returns, the cross-covariance of the functional. -/
theorem functional_correct (dom : Shp) (s : Option Shp) (arg : Bool) : ∀ (F : Fn X) (i : Shapes) (o : Shp) (k : K X) (c : PV X),
    F.Typed dom i o → F.Doms s → k.WF → (F.hasBase = true → k.Safe arg) → Fit i arg k → Side s arg k → k.sh.inA (!arg) = dom →
    F.call arg k = .ok c → GoodF F.T o arg k c
  | .base b, i, o, k, c, ht, _, hw, hsf, _, _, _, h => by
    obtain ⟨h1, h2, h3⟩ := ht
    rw [Fn.call] at h
    rw [Fn.T, ← h2]
    exact bfn_correct b arg (by rw [h1, h2]; exact h3) k c hw (hsf rfl) h
  | .point f, i, o, k, c, ht, _, hw, _, hf, _, hd, h => by
    obtain ⟨h1, h2, h3, h4⟩ := ht
    rw [Fn.call] at h
    obtain ⟨u, _, h5⟩ := bind_ok' h
    cases h5
    have hfi := hf.1
    have hfo := hf.2
    rw [← h1] at hfi hfo
    have hin : k.sh.in1 = k.sh.in0 ∧ k.sh.in0 = dom := by
      cases arg
      · simp [KSh.inA] at hfi hd
        exact ⟨by rw [hd, hfi, h4], by rw [hfi, h4]⟩
      · simp [KSh.inA] at hfi hd
        exact ⟨by rw [hd, hfi, h4], hd⟩
    refine ⟨⟨hin.1, by rw [h3, hin.2], ?_⟩, ?_, rfl, h2, rfl, fun x p r _ _ => ?_⟩
    · rw [Bool.not_not]; exact hfo.symm
    · rw [hd]; exact hin.2
    · rw [PV.den, Fn.T]
  | .comp j A F L, i, o, k, c, ht, hD, hw, hsf, hf, hs, hd, h => by
    obtain ⟨_, m, n, hL, hF, hA⟩ := ht
    rw [Fn.call] at h
    obtain ⟨u, _, h2⟩ := bind_ok' h
    obtain ⟨k', h3, h4⟩ := bind_ok' h2
    obtain ⟨c', h5, h6⟩ := bind_ok' h4
    have hpre := preOp_inv h3
    have hg : k'.WF ∧ k'.sh = k.sh.set arg m ∧ Agree (preT L) arg k k' ∧ (k.Safe arg → k'.Safe arg) := by
      cases L with
      | none =>
        simp only at hL hpre
        subst hL; subst hpre
        refine ⟨hw, ?_, fun x0 x1 p q _ _ => ?_, id⟩
        · obtain ⟨f1, f2⟩ := hf
          cases arg
          · simp [KSh.inA, KSh.outA] at f1 f2
            simp [KSh.set, ← f1, ← f2]
          · simp [KSh.inA, KSh.outA] at f1 f2
            simp [KSh.set, ← f1, ← f2]
        · unfold act preT
          cases arg <;> simp
      | some L =>
        have hg := apply_correct s arg L i m k k' hL hD.2 hw hf hs hpre
        exact ⟨hg.wf, hg.sh, hg.ev, hg.safe⟩
    obtain ⟨g1, g2, g3, g4⟩ := hg
    have hin' : k'.sh.inA (!arg) = k.sh.inA (!arg) := by rw [g2]; cases arg <;> rfl
    have hout' : k'.sh.outA (!arg) = k.sh.outA (!arg) := by rw [g2]; cases arg <;> rfl
    have hfit' : Fit m arg k' := by rw [Fit, g2]; cases arg <;> exact ⟨rfl, rfl⟩
    have hside' : Side s arg k' := fun d hd' => ⟨g4 (hs d hd').1, by rw [hin']; exact (hs d hd').2⟩
    have ih := functional_correct dom s arg F m n k' c' hF hD.1 g1 (fun hb => g4 (hsf hb)) hfit' hside' (by rw [hin']; exact hd) h5
    have hloc := fn_floc dom F m n hF
    have hcore : GoodF (F.T ∘ₗ preT L) n arg k c' := by
      refine ⟨ih.wf, by rw [ih.inS, hin'], by rw [ih.outS, hout'], ih.rv, ih.rev, fun x p r hp hr => ?_⟩
      rw [ih.den x p r (by rw [hout']; exact hp) hr, ← actF_act]
      refine actF_congr hloc (!arg) hr fun y q hq => ?_
      have hp' : p < (k'.sh.outA (!arg)).prod := by rw [hout']; exact hp
      have hq' : q < (k'.sh.outA arg).prod := by rw [hfit'.2]; exact hq
      cases arg
      · exact g3 y x q p hq' hp'
      · exact g3 x y p q hp' hq'
    cases A with
    | none =>
      simp only at hA
      subst hA
      cases h6
      exact goodF_congr hcore rfl
    | some A =>
      obtain ⟨hn, rfl⟩ := hA
      unfold postOp mkLinopPV at h6
      simp only at h6
      split_ifs at h6
      cases h6
      refine ⟨⟨by rw [hcore.rv, hn], hcore.wf⟩, hcore.inS, hcore.outS, rfl, hcore.rev, fun x p r hp hr => ?_⟩
      rw [PV.den]
      have e : actF (Fn.comp j (some A) F L).T (!arg) k.eval x p r =
          ∑ j ∈ Finset.range A.cols, A.a r j * actF (F.T ∘ₗ preT L) (!arg) k.eval x p j := by
        rw [Fn.T]
        unfold actF
        cases arg <;> rfl
      rw [e]
      refine Finset.sum_congr rfl fun t ht => ?_
      rw [hcore.den x p t hp (by rw [hn]; simpa using ht)]
  | .scaled F a, i, o, k, c, ht, hD, hw, hsf, hf, hs, hd, h => by
    rw [Fn.call] at h
    obtain ⟨d, h1, h2⟩ := bind_ok' h
    cases h2
    have ih := functional_correct dom s arg F i o k d ht hD hw hsf hf hs hd h1
    refine ⟨ih.wf, ih.inS, ih.outS, ih.rv, ih.rev, fun x p r hp hr => ?_⟩
    rw [PV.den]
    show a * _ = _
    rw [ih.den x p r hp hr, Fn.T]
    unfold actF
    cases arg <;> rfl
  | .sum Fs, i, o, k, c, ht, hD, hw, hsf, hf, hs, hd, h => by
    rw [Fn.call] at h
    obtain ⟨cs, h1, h2⟩ := bind_ok' h
    have ih := functionals_correct dom s arg Fs i o k cs ht.2 hD hw hsf hf hs hd h1
    have hall : List.Forall₂ (fun (c : PV X) d => c.WF ∧ c.inS = k.sh.inA (!arg) ∧ c.outS = k.sh.outA (!arg) ∧ c.rv = o ∧
        c.rev = (!arg) ∧ ∀ x p r, p < (k.sh.outA (!arg)).prod → r < o.prod → c.den x p r = d x p r) cs
        (Fs.map fun F => actF F.T (!arg) k.eval) := by
      rw [List.forall₂_map_right_iff]
      exact (ih.imp fun F c hc => ⟨hc.wf, hc.inS, hc.outS, hc.rv, hc.rev, hc.den⟩).flip
    obtain ⟨f1, f2, f3, f4, f5, f6⟩ := reduce_good k.sh hall h2
    refine ⟨f1, f2, f3, f4, f5, fun x p r hp hr => ?_⟩
    rw [f6 x p r hp hr, List.map_map, Fn.T]
    exact (sumFT_act (!arg) k.eval x p r Fs).symm
/-- Every summand. -/
theorem functionals_correct (dom : Shp) (s : Option Shp) (arg : Bool) : ∀ (Fs : List (Fn X)) (i : Shapes) (o : Shp) (k : K X)
    (cs : List (PV X)), typedFs dom Fs i o → domsFs s Fs → k.WF → (hasBaseAny Fs = true → k.Safe arg) → Fit i arg k → Side s arg k →
    k.sh.inA (!arg) = dom → Fn.callAll arg Fs k = .ok cs → List.Forall₂ (fun (F : Fn X) c => GoodF F.T o arg k c) Fs cs
  | [], i, o, k, cs, _, _, _, _, _, _, _, h => by rw [Fn.callAll] at h; cases h; exact .nil
  | F :: Fs, i, o, k, cs, ht, hD, hw, hsf, hf, hs, hd, h => by
    rw [Fn.callAll] at h
    obtain ⟨c, h1, h2⟩ := bind_ok' h
    obtain ⟨ds, h3, h4⟩ := bind_ok' h2
    cases h4
    exact .cons (functional_correct dom s arg F i o k c ht.1 hD.1 hw (fun hb => hsf (by rw [hasBaseAny, hb]; rfl)) hf hs hd h1)
      (functionals_correct dom s arg Fs i o k ds ht.2 hD.2 hw (fun hb => hsf (by rw [hasBaseAny, hb, Bool.or_true])) hf hs hd h3)
end

end LinPDE.XCov
