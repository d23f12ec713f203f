import Verif.CovAlg.Total

/-!
# Where applying an operator to a covariance function goes wrong, and instances of the correct cases
-/

namespace LinPDE.CovAlg
open LinPDE.Nd LinPDE.Ops
variable {X : Type}

/-- `SelectOutput` with a negative index on independent outputs: the result claims `n - idx` outputs in the other
argument instead of `n` (`covfuncs/linfuncops/_registry.py:104-122` repeats the zero kernel `idx` times before and
`n - idx - 1` times behind). -/
theorem select_negative (inS : Shp) (ks : List (K X)) (m : ℕ) (hm : 0 < m) (hk : m ≤ ks.length) (hw : (K.imo inS ks).WF) :
    ∃ k', (LOp.select (inS, [ks.length]) (.int (-m))).call false (.imo inS ks) = .ok k' ∧
      k'.sh = ⟨inS, inS, [], [ks.length + m]⟩ := by
  have hlt : ks.length - m < ks.length := by omega
  have hn : normIdx ks.length (-(m : ℤ)) = .ok (ks.length - m) := by
    unfold normIdx
    rw [if_neg (by omega), if_pos (by omega)]
    congr 1; omega
  have hr : ((ks.length : ℤ) - -(m : ℤ) - 1).toNat = ks.length + m - 1 := by omega
  have h0 : (-(m : ℤ)).toNat = 0 := by omega
  have hsh := hw.2.1
  have hk0 : (ks[ks.length - m]'hlt).sh = ⟨inS, inS, [], []⟩ := hsh _ (List.getElem_mem _)
  refine ⟨.stack inS inS [ks.length + m] true
    ((ks[ks.length - m]'hlt) :: List.replicate (ks.length + m - 1) (.zero ⟨inS, inS, [], []⟩)), ?_, rfl⟩
  rw [LOp.call, H.call]
  refine wrap_own ?_
  show some _ = some _
  congr 1
  rw [validate_ok _ _ _ ⟨rfl, rfl⟩]
  simp only [bind, Except.bind, hn, List.getElem?_eq_getElem hlt, hr, h0, List.replicate_zero, List.nil_append,
    List.singleton_append, List.length_cons, List.length_replicate, mkStack]
  have hall : ∀ q : K X → Prop, q (ks[ks.length - m]'hlt) → q (.zero ⟨inS, inS, [], []⟩) →
      ∀ x ∈ (ks[ks.length - m]'hlt) :: List.replicate (ks.length + m - 1) (.zero ⟨inS, inS, [], []⟩ : K X), q x := by
    intro q h1 h2 x hx
    rcases List.mem_cons.mp hx with rfl | hx
    · exact h1
    · rw [List.eq_of_mem_replicate hx]; exact h2
  rw [if_neg, if_neg, if_neg]
  · rw [hk0]
    simp only [Bool.not_false]
    congr 3; omega
  all_goals
    simp only [List.all_eq_true, decide_eq_true_eq, not_not]
  · exact hall (fun x => x.sh.out0 = [] ∧ x.sh.out1 = []) (by rw [hk0]; exact ⟨rfl, rfl⟩) ⟨rfl, rfl⟩
  · exact hall (fun x => x.sh.in1 = _) rfl (by rw [hk0]; rfl)
  · exact hall (fun x => x.sh.in0 = _) rfl (by rw [hk0]; rfl)

/-- So the output shape is not the one of the operator applied in that argument. -/
theorem select_negative_violated : ∃ (k k' : K Unit), k.WF ∧ Fit ([], [2]) false k ∧
    (LOp.select ([], [2]) (.int (-1))).call false k = .ok k' ∧ k'.sh ≠ k.sh.set false ([], []) := by
  have hw : (K.imo [] [.zero ⟨[], [], [], []⟩, .zero ⟨[], [], [], []⟩] : K Unit).WF := by
    simp [K.WF, allWF, K.sh]
  obtain ⟨k', h1, h2⟩ := select_negative [] _ 1 (by norm_num) (by norm_num) hw
  refine ⟨_, k', hw, ⟨rfl, rfl⟩, h1, ?_⟩
  rw [h2]
  decide

/-- Every differential operator on vector-valued functions fails on independent outputs: its summands select the entries
with tuples, and the rule for independent outputs insists on an integer. -/
theorem diff_imo (D : Diff X) (arg : Bool) (inS : Shp) (ks : List (K X)) (hf : Fit D.i arg (.imo inS ks))
    (hne : D.terms ≠ []) (ht : ∀ t ∈ D.terms, t.1 ≠ [] ∧ t.2 ≠ []) :
    (LOp.diff D).call arg (.imo inS ks) = .error .assertionError := by
  rw [LOp.call, H.call, wrap_noRule hf rfl]
  have h : D.toSumNoJax arg (.imo inS ks) = .error .assertionError := by
    unfold Diff.toSumNoJax
    rw [if_neg (by push Not; exact ⟨hne, fun t h => (ht t h).2⟩)]
    cases hT : D.terms with
    | nil => exact absurd hT hne
    | cons t ts =>
      obtain ⟨h1, h2⟩ := ht t (by rw [hT]; exact List.mem_cons_self)
      rw [reduceK]
      cases hU : t.2 with
      | nil => exact absurd hU h2
      | cons u us =>
        have : D.summand arg (.imo inS ks) t.1 u = .error .assertionError := by
          unfold Diff.summand Diff.entry
          rw [if_neg h1, H.call]
          rw [wrap_own (r := .error .assertionError)]
          · rfl
          · show some _ = some _
            rw [validate_ok _ _ _ hf]; rfl
        rw [reduceK, this]; rfl
  show (match D.toSumNoJax arg (.imo inS ks) with
    | .error .notImplemented => _
    | r => r) = _
  rw [h]

/-- A linear map to stand for a derivative: the forward difference. -/
def stepT : Val ℝ →ₗ[ℝ] Val ℝ where
  toFun f := fun x p => f (x + 1) p - f x p
  map_add' f g := by funext x p; simp; ring
  map_smul' c f := by funext x p; simp; ring

lemma stepT_loc (s : Shp) : Loc s s stepT := fun f g h x p hp => by simp [stepT, h x p hp, h (x + 1) p hp]

/-- A partial derivative without closed forms. -/
def exPD : PD ℝ where
  dom := []
  order := 1
  T := stepT
  closed := fun _ _ => none

lemma exPD_ok : exPD.OK := ⟨stepT_loc [], by simp [exPD]⟩

/-- A first-order operator on pairs of functions. -/
noncomputable def exDiff : Diff ℝ where
  i := ([], [2])
  terms := [([0], [(exPD, 1)])]
  closed := fun _ _ => none
  custom := false

lemma exDiff_ok : exDiff.OK := ⟨by simp [exDiff, Fits], by simp [exDiff, exPD_ok, show exPD.dom = [] from rfl], by simp [exDiff]⟩

theorem diff_imo_violated : ∃ (D : Diff ℝ) (k : K ℝ), D.OK ∧ k.WF ∧ Fit D.i false k ∧
    (LOp.diff D).call false k = .error .assertionError :=
  ⟨exDiff, .imo [] [.zero ⟨[], [], [], []⟩, .zero ⟨[], [], [], []⟩], exDiff_ok, by simp [K.WF, allWF, K.sh], ⟨rfl, rfl⟩,
    diff_imo exDiff false _ _ ⟨rfl, rfl⟩ (by simp [exDiff]) (by simp [exDiff])⟩

/-- A differential operator without its own JAX fallback is useless on JAX kernels without a closed form: here one term
of positive order. -/
theorem diff_generic_violated (D : PD X) (c : ℝ) (sh : KSh) (cls : ℕ) (ev : KVal X) (arg : Bool) (h0 : D.order ≠ 0)
    (hc : D.closed cls arg = none) (hf : Fit (D.dom, []) arg (.base sh cls true ev : K X)) :
    (LOp.diff ⟨(D.dom, []), [([], [(D, c)])], fun _ _ => none, false⟩).call arg (.base sh cls true ev) =
      .error .typeError := by
  rw [LOp.call, H.call, wrap_noRule hf rfl]
  have ho : (D.hNoJax arg).own (.base sh cls true ev) = none := by
    show D.own arg _ = none
    simp [PD.own, ownClosed, hc, h0]
  have h : Diff.toSumNoJax ⟨(D.dom, []), [([], [(D, c)])], fun _ _ => none, false⟩ arg (.base sh cls true ev) =
      .error .notImplemented := by
    unfold Diff.toSumNoJax
    rw [if_neg (by simp)]
    have : (D.hNoJax arg).call arg (.base sh cls true ev) = .error .notImplemented := by
      rw [H.call, wrap_noRule hf ho]; rfl
    simp only [reduceK, Diff.summand, Diff.entry, if_true, this, bind, Except.bind]
  show (match Diff.toSumNoJax _ arg (.base sh cls true ev) with
    | .error .notImplemented => _
    | r => r) = _
  rw [h]
  rfl

/-- The JAX fallback forgets the output shape of the other argument. -/
theorem fallback_shape_violated (D : PD X) (sh : KSh) (cls : ℕ) (ev : KVal X) (arg : Bool) (h0 : D.order ≠ 0)
    (hc : D.closed cls arg = none) (hf : Fit (D.dom, []) arg (.base sh cls true ev : K X)) (hs : sh.outA (!arg) ≠ []) :
    ∃ k', (LOp.pd D).call arg (.base sh cls true ev) = .ok k' ∧ k'.sh ≠ sh.set arg (D.dom, []) := by
  refine ⟨jaxFallback D.dom D.T arg (.base sh cls true ev), ?_, ?_⟩
  · have ho : (D.h arg).own (.base sh cls true ev) = none := by
      show D.own arg _ = none
      simp [PD.own, ownClosed, hc, h0]
    rw [LOp.call, H.call, wrap_noRule hf ho]
    rfl
  · intro h
    apply hs
    have h' : (⟨D.dom, D.dom, [], []⟩ : KSh) = sh.set arg (D.dom, []) := h
    cases arg <;> simp_all [KSh.set, KSh.outA]

/-- The JAX view of a stack is zero. -/
theorem stack_jax (i0 i1 s : Shp) (idx : Bool) (ks : List (K X)) (x0 x1 : X) (p q : ℕ) :
    (K.stack i0 i1 s idx ks).evalJax x0 x1 p q = 0 := by simp [K.evalJax, K.evalG]

/-- So it differs from its NumPy view. -/
theorem stack_jax_violated : ∃ k : K ℝ, k.WF ∧ k.isJax = true ∧ k.evalJax 0 0 0 0 ≠ k.eval 0 0 0 0 :=
  ⟨.stack [] [] [1] false [.base ⟨[], [], [], []⟩ 7 true fun _ _ _ _ => 1],
    by simp [K.WF, allWF, K.sh], rfl, by rw [stack_jax]; simp [K.eval, K.evalG, evalAll]⟩

mutual
/-- No stacks inside. -/
def K.NoStack : K X → Prop
  | .base .. => True
  | .scaled k _ => K.NoStack k
  | .sum _ ks => allNoStack ks
  | .stack .. => False
  | .imo _ ks => allNoStack ks
  | .zero _ => True
/-- Every kernel of a list. -/
def allNoStack : List (K X) → Prop
  | [] => True
  | k :: ks => K.NoStack k ∧ allNoStack ks
end

mutual
/-- Without stacks the two views agree (given that they do for the base kernels). -/
theorem jax_eq : ∀ k : K X, k.NoStack → k.evalJax = k.eval
  | .base .., _ => by simp [K.evalJax, K.eval, K.evalG]
  | .scaled k c, h => by
    have ih := jax_eq k h
    simp only [K.evalJax, K.eval] at ih ⊢
    simp only [K.evalG, ih]
  | .sum sh ks, h => by
    have ih := jaxAll_eq ks h
    simp only [K.evalJax, K.eval, K.evalG, ih]
  | .stack .., h => h.elim
  | .imo i ks, h => by
    have ih := jaxAll_eq ks h
    simp only [K.evalJax, K.eval, K.evalG, ih]
  | .zero _, _ => by simp [K.evalJax, K.eval, K.evalG]
/-- Every kernel of a list. -/
theorem jaxAll_eq : ∀ ks : List (K X), allNoStack ks → evalAll true ks = evalAll false ks
  | [], _ => by simp [evalAll]
  | k :: ks, h => by
    have h1 := jax_eq k h.1
    have h2 := jaxAll_eq ks h.2
    simp only [K.evalJax, K.eval] at h1
    simp only [evalAll, h1, h2]
end

/-- The partial derivative of order 0 takes kernels of any shape. -/
theorem order_zero_unvalidated (D : PD X) (arg : Bool) (h0 : D.order = 0) (k : K X)
    (hk : ¬∃ sh cls j ev, k = .base sh cls j ev) : (LOp.pd D).call arg k = .ok k := by
  have ho : (D.h arg).own k = some (.ok k) := by
    show D.own arg k = _
    unfold PD.own
    rw [ownClosed_other arg k hk]
    simp [h0]
  rw [LOp.call]
  cases k <;> (rw [H.call]; exact wrap_own ho)

theorem order_zero_violated : ∃ (D : PD ℝ) (k : K ℝ), D.OK ∧ k.WF ∧ ¬Fit (D.dom, []) true k ∧ (LOp.pd D).call true k = .ok k :=
  ⟨⟨[], 0, LinearMap.id, fun _ _ => none⟩, .zero ⟨[3], [4], [5], [6]⟩, ⟨fun f g h => h, fun _ _ _ => rfl⟩, trivial,
    by simp [Fit, K.sh, KSh.inA], order_zero_unvalidated _ true rfl _ (by simp)⟩

/-! ## Instances -/

/-- A JAX kernel without closed forms. -/
noncomputable def exBase : K ℝ := .base ⟨[], [], [], []⟩ 5 true fun x y _ _ => x * x * y

/-- A stack in argument 0 of a scaled sum and a zero kernel. -/
noncomputable def exK : K ℝ := .stack [] [] [2] false [.scaled (.sum ⟨[], [], [], []⟩ [exBase, exBase]) 3, .zero ⟨[], [], [], []⟩]

/-- `D ∘ (D + 2 I)`. -/
noncomputable def exL : LOp ℝ := .comp [.pd exPD, .sum [.pd exPD, .scaled (.ident ([], [])) 2]]

lemma exK_wf : exK.WF := by simp [exK, exBase, K.WF, allWF, K.sh]
lemma exK_safe : exK.Safe true := by simp [exK, exBase, K.Safe, allSafe, KSh.outA]
lemma exL_typed : exL.Typed ([], []) ([], []) := by
  simp only [exL, LOp.Typed, typedSeq, typedAll]
  exact ⟨([], []), ⟨([], []), rfl, by simp, ⟨rfl, rfl, exPD_ok⟩, ⟨rfl, rfl⟩, trivial⟩, rfl, rfl, exPD_ok⟩
lemma exL_doms : exL.Doms (some []) := by simp [exL, LOp.Doms, domsAll, exPD]

/-- `apply_total` and `apply_correct` apply to it. -/
example : ∃ k', exL.call true exK = .ok k' ∧ k'.sh = ⟨[], [], [2], []⟩ ∧ ∀ x y, k'.eval x y 0 0 = 12 * x * x := by
  have hf : Fit ([], []) true exK := ⟨rfl, rfl⟩
  have hs : Side (some []) true exK := fun d hd => ⟨exK_safe, by cases hd; rfl⟩
  obtain ⟨k', h1, _⟩ := apply_total (some []) true exL _ _ exK exL_typed exL_doms
    (by simp [exL, LOp.Full, fullAll, JaxClosed, exPD]) exK_wf (by simp [exK, exBase, K.Reg, allReg]) hf hs
  have hg := apply_correct (some []) true exL _ _ exK k' exL_typed exL_doms exK_wf hf hs h1
  have hsh : k'.sh = ⟨[], [], [2], []⟩ := hg.sh
  refine ⟨k', h1, hsh, fun x y => ?_⟩
  rw [hg.ev x y 0 0 (by rw [hsh]; simp) (by rw [hsh]; simp)]
  simp only [exL, LOp.T, compT, sumT, exPD, act, if_true]
  simp [exK, exBase, K.eval, K.evalG, evalAll, stepT]
  ring

/-- Selecting from a stack. -/
example : (LOp.select ([], [2]) (.int 0)).call false exK = .ok (.scaled (.sum ⟨[], [], [], []⟩ [exBase, exBase]) 3) := by
  rw [LOp.call, exK, H.call]
  exact wrap_own rfl

/-- Each output of the stacked kernel is a vector-valued kernel in argument 1, and a partial derivative in argument 0 loses
that shape. -/
example : ∃ k', (LOp.pd exPD).call false (.base ⟨[], [], [], [2]⟩ 5 true fun x _ _ _ => x) = .ok k' ∧ k'.sh ≠ ⟨[], [], [], [2]⟩ :=
  fallback_shape_violated exPD ⟨[], [], [], [2]⟩ 5 _ false (by simp [exPD]) rfl ⟨rfl, rfl⟩ (by simp [KSh.outA])

/-- `diff_generic_violated` applies. -/
example : (LOp.diff ⟨([], []), [([], [(exPD, 2)])], fun _ _ => none, false⟩).call true exBase = .error .typeError :=
  diff_generic_violated exPD 2 ⟨[], [], [], []⟩ 5 _ true (by simp [exPD]) rfl ⟨rfl, rfl⟩

end LinPDE.CovAlg
