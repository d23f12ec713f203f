import Verif.CovAlg.Model

/-!
# What applying an operator to a covariance function should give, and the lemmas about single steps
-/

namespace LinPDE.CovAlg
open LinPDE.Nd LinPDE.Ops
variable {X : Type}

mutual
/-- Invariants of the constructors: parts have the shapes recorded in the whole. -/
def K.WF : K X → Prop
  | .base .. => True
  | .scaled k _ => K.WF k
  | .sum sh ks => ks ≠ [] ∧ (∀ m ∈ ks, m.sh = sh) ∧ allWF ks
  | .stack i0 i1 s _ ks => ks.length = s.prod ∧ ks ≠ [] ∧ (∀ m ∈ ks, m.sh = ⟨i0, i1, [], []⟩) ∧ allWF ks
  | .imo i ks => ks ≠ [] ∧ (∀ m ∈ ks, m.sh = ⟨i, i, [], []⟩) ∧ allWF ks
  | .zero _ => True
/-- Every kernel of a list. -/
def allWF : List (K X) → Prop
  | [] => True
  | k :: ks => K.WF k ∧ allWF ks
end

mutual
/-- Kernels for which the JAX fallback records the right shapes when it is applied in argument `arg`: the base kernels
are scalar in the other argument, and arrays of kernels stacked in argument `arg` have at least one axis. -/
def K.Safe (arg : Bool) : K X → Prop
  | .base sh _ _ _ => sh.outA (!arg) = []
  | .scaled k _ => K.Safe arg k
  | .sum _ ks => allSafe arg ks
  | .stack _ _ s idx ks => (idx = arg → s ≠ []) ∧ allSafe arg ks
  | .imo _ ks => allSafe arg ks
  | .zero _ => True
/-- Every kernel of a list. -/
def allSafe (arg : Bool) : List (K X) → Prop
  | [] => True
  | k :: ks => K.Safe arg k ∧ allSafe arg ks
end

/-- The entries of `T f` in the codomain shape `o` depend only on the entries of `f` in the codomain shape `s`. -/
def Loc (s o : Shp) (T : Val X →ₗ[ℝ] Val X) : Prop :=
  ∀ f g : Val X, (∀ x, ∀ p < s.prod, f x p = g x p) → ∀ x, ∀ p < o.prod, T f x p = T g x p

/-- The values of `k'` are those of `T` applied to `k` in argument `arg`. -/
def Agree (T : Val X →ₗ[ℝ] Val X) (arg : Bool) (k k' : K X) : Prop :=
  ∀ x0 x1 p q, p < k'.sh.out0.prod → q < k'.sh.out1.prod → k'.eval x0 x1 p q = act T arg k.eval x0 x1 p q

/-- `k'` is `k` with `T` applied in argument `arg`, giving functions of the shapes `o`. -/
structure Good (T : Val X →ₗ[ℝ] Val X) (o : Shapes) (arg : Bool) (k k' : K X) : Prop where
  wf : k'.WF
  sh : k'.sh = k.sh.set arg o
  ev : Agree T arg k k'
  safe : k.Safe arg → k'.Safe arg

/-- `k` has the shapes `i` in argument `arg`. -/
def Fit (i : Shapes) (arg : Bool) (k : K X) : Prop := k.sh.inA arg = i.1 ∧ k.sh.outA arg = i.2

/-- When JAX fallbacks can occur (`some dom`): the kernel is safe and both arguments have the domain `dom`. -/
def Side (s : Option Shp) (arg : Bool) (k : K X) : Prop := ∀ dom, s = some dom → k.Safe arg ∧ k.sh.inA (!arg) = dom

/-! ## Basic facts -/

lemma validate_ok (i : Shapes) (k : K X) (arg : Bool) (h : Fit i arg k) : validate i k arg = .ok () := by
  unfold validate; rw [if_neg (by simpa using h.1), if_neg (by simpa using h.2)]

lemma validate_iff (i : Shapes) (k : K X) (arg : Bool) : validate i k arg = .ok () ↔ Fit i arg k := by
  refine ⟨fun h => ?_, validate_ok i k arg⟩
  unfold validate at h
  split_ifs at h with h1 h2
  exact ⟨by simpa using h1, by simpa using h2⟩

lemma validate_ne_ni (i : Shapes) (k : K X) (arg : Bool) : validate i k arg ≠ .error .notImplemented := by
  unfold validate; split_ifs <;> simp

lemma allWF_iff : ∀ ks : List (K X), allWF ks ↔ ∀ m ∈ ks, m.WF
  | [] => by simp [allWF]
  | k :: ks => by simp [allWF, allWF_iff ks]

lemma allSafe_iff (arg : Bool) : ∀ ks : List (K X), allSafe arg ks ↔ ∀ m ∈ ks, m.Safe arg
  | [] => by simp [allSafe]
  | k :: ks => by simp [allSafe, allSafe_iff arg ks]

lemma evalAll_eq (b : Bool) : ∀ ks : List (K X), evalAll b ks = ks.map (K.evalG b)
  | [] => by simp [evalAll]
  | k :: ks => by simp [evalAll, evalAll_eq b ks]

lemma allJax_iff : ∀ ks : List (K X), allJax ks = true ↔ ∀ m ∈ ks, m.isJax = true
  | [] => by simp [allJax]
  | k :: ks => by simp [allJax, allJax_iff ks]

lemma eval_sum (sh : KSh) (ks : List (K X)) (x0 x1 : X) (p q : ℕ) :
    (K.sum sh ks).eval x0 x1 p q = (ks.map fun k => k.eval x0 x1 p q).sum := by
  simp [K.eval, K.evalG, evalAll_eq, Function.comp_def]

lemma eval_scaled (k : K X) (c : ℝ) (x0 x1 : X) (p q : ℕ) : (K.scaled k c).eval x0 x1 p q = c * k.eval x0 x1 p q := by
  simp [K.eval, K.evalG]

lemma eval_stack (i0 i1 s : Shp) (idx : Bool) (ks : List (K X)) (x0 x1 : X) (p q : ℕ) :
    (K.stack i0 i1 s idx ks).eval x0 x1 p q = ((ks[if idx then q else p]?).map fun k => k.eval x0 x1 0 0).getD 0 := by
  simp [K.eval, K.evalG, evalAll_eq, Option.map_map, Function.comp_def]

lemma eval_imo (i : Shp) (ks : List (K X)) (x0 x1 : X) (p q : ℕ) :
    (K.imo i ks).eval x0 x1 p q = if p = q then ((ks[p]?).map fun k => k.eval x0 x1 0 0).getD 0 else 0 := by
  simp [K.eval, K.evalG, evalAll_eq, Option.map_map, Function.comp_def]

lemma eval_zero (sh : KSh) (x0 x1 : X) (p q : ℕ) : (K.zero sh : K X).eval x0 x1 p q = 0 := by simp [K.eval, K.evalG]

lemma smul_spec (c : ℝ) (k : K X) :
    (k.smul c).sh = k.sh ∧ (∀ x0 x1 p q, (k.smul c).eval x0 x1 p q = c * k.eval x0 x1 p q) ∧ ((k.smul c).WF ↔ k.WF) ∧
      (∀ arg, (k.smul c).Safe arg ↔ k.Safe arg) ∧ (k.smul c).isJax = k.isJax := by
  cases k <;> simp [K.smul, K.sh, K.eval, K.evalG, K.WF, K.Safe, K.isJax, mul_assoc]

/-! ## The action of a linear map on one argument -/

lemma act_zero (T : Val X →ₗ[ℝ] Val X) (arg : Bool) : act T arg (fun _ _ _ _ => 0) = fun _ _ _ _ => 0 := by
  funext x0 x1 p q
  have h : (fun (_ : X) (_ : ℕ) => (0 : ℝ)) = (0 : Val X) := rfl
  cases arg <;> simp [act, h]

lemma act_mul (T : Val X →ₗ[ℝ] Val X) (arg : Bool) (c : ℝ) (k : KVal X) :
    act T arg (fun x0 x1 p q => c * k x0 x1 p q) = fun x0 x1 p q => c * act T arg k x0 x1 p q := by
  funext x0 x1 p q
  cases arg
  · have h : (fun y r => c * k y x1 r q) = c • (fun y r => k y x1 r q : Val X) := rfl
    simp [act, h]
  · have h : (fun y r => c * k x0 y p r) = c • (fun y r => k x0 y p r : Val X) := rfl
    simp [act, h]

lemma act_add (T : Val X →ₗ[ℝ] Val X) (arg : Bool) (k m : KVal X) :
    act T arg (fun x0 x1 p q => k x0 x1 p q + m x0 x1 p q) =
      fun x0 x1 p q => act T arg k x0 x1 p q + act T arg m x0 x1 p q := by
  funext x0 x1 p q
  cases arg
  · have h : (fun y r => k y x1 r q + m y x1 r q) = (fun y r => k y x1 r q : Val X) + (fun y r => m y x1 r q : Val X) := rfl
    simp [act, h]
  · have h : (fun y r => k x0 y p r + m x0 y p r) = (fun y r => k x0 y p r : Val X) + (fun y r => m x0 y p r : Val X) := rfl
    simp [act, h]

lemma act_listsum (T : Val X →ₗ[ℝ] Val X) (arg : Bool) : ∀ es : List (KVal X),
    act T arg (fun x0 x1 p q => (es.map fun e => e x0 x1 p q).sum) =
      fun x0 x1 p q => (es.map fun e => act T arg e x0 x1 p q).sum
  | [] => by simpa using act_zero T arg
  | e :: es => by
    have := act_add T arg e (fun x0 x1 p q => (es.map fun e => e x0 x1 p q).sum)
    simp only [List.map_cons, List.sum_cons]
    rw [this, act_listsum T arg es]

lemma act_addT (S T : Val X →ₗ[ℝ] Val X) (arg : Bool) (k : KVal X) (x0 x1 : X) (p q : ℕ) :
    act (S + T) arg k x0 x1 p q = act S arg k x0 x1 p q + act T arg k x0 x1 p q := by
  cases arg <;> simp [act]

lemma act_smulT (T : Val X →ₗ[ℝ] Val X) (c : ℝ) (arg : Bool) (k : KVal X) (x0 x1 : X) (p q : ℕ) :
    act (c • T) arg k x0 x1 p q = c * act T arg k x0 x1 p q := by
  cases arg <;> simp [act]

lemma act_comp (S T : Val X →ₗ[ℝ] Val X) (arg : Bool) (k : KVal X) :
    act (S ∘ₗ T) arg k = act S arg (act T arg k) := by
  funext x0 x1 p q
  cases arg <;> simp [act]

lemma act_id (arg : Bool) (k : KVal X) : act LinearMap.id arg k = k := by
  funext x0 x1 p q
  cases arg <;> simp [act]

/-- A local map sees only the entries of its codomain. -/
lemma act_congr (s o : Shp) (T : Val X →ₗ[ℝ] Val X) (hT : Loc s o T) (arg : Bool) (k m : KVal X) (x0 x1 : X) (p q : ℕ)
    (hpq : if arg then q < o.prod else p < o.prod)
    (h : ∀ y, ∀ r < s.prod, if arg then k x0 y p r = m x0 y p r else k y x1 r q = m y x1 r q) :
    act T arg k x0 x1 p q = act T arg m x0 x1 p q := by
  cases arg
  · simp only [act, Bool.false_eq_true, ↓reduceIte] at h hpq ⊢
    exact hT _ _ h _ _ hpq
  · simp only [act, ↓reduceIte] at h hpq ⊢
    exact hT _ _ h _ _ hpq

/-! ## Shapes -/

lemma set_inA (s : KSh) (arg : Bool) (o : Shapes) : (s.set arg o).inA arg = o.1 := by
  cases arg <;> simp [KSh.set, KSh.inA]
lemma set_outA (s : KSh) (arg : Bool) (o : Shapes) : (s.set arg o).outA arg = o.2 := by
  cases arg <;> simp [KSh.set, KSh.outA]
lemma set_inA_other (s : KSh) (arg : Bool) (o : Shapes) : (s.set arg o).inA (!arg) = s.inA (!arg) := by
  cases arg <;> simp [KSh.set, KSh.inA]
lemma set_outA_other (s : KSh) (arg : Bool) (o : Shapes) : (s.set arg o).outA (!arg) = s.outA (!arg) := by
  cases arg <;> simp [KSh.set, KSh.outA]
lemma set_set (s : KSh) (arg : Bool) (o o' : Shapes) : (s.set arg o).set arg o' = s.set arg o' := by
  cases arg <;> simp [KSh.set]
lemma set_self (s : KSh) (arg : Bool) (i : Shapes) (h1 : s.inA arg = i.1) (h2 : s.outA arg = i.2) : s.set arg i = s := by
  cases arg <;> simp_all [KSh.set, KSh.inA, KSh.outA] <;> simp [← h1, ← h2]

lemma sh_ext (s t : KSh) (arg : Bool) (h1 : s.inA arg = t.inA arg) (h2 : s.outA arg = t.outA arg)
    (h3 : s.inA (!arg) = t.inA (!arg)) (h4 : s.outA (!arg) = t.outA (!arg)) : s = t := by
  cases s; cases t; cases arg <;> simp_all [KSh.inA, KSh.outA]

/-! ## Sums and stacks of kernels -/

lemma expandK_spec : ∀ ks : List (K X), (∀ k ∈ ks, k.WF) →
    (∀ x0 x1 p q, ((expandK ks).map fun k => k.eval x0 x1 p q).sum = (ks.map fun k => k.eval x0 x1 p q).sum) ∧
    (∀ m ∈ expandK ks, m.WF ∧ ∃ k ∈ ks, m.sh = k.sh) ∧ (ks ≠ [] → expandK ks ≠ []) ∧
    (∀ arg, (∀ k ∈ ks, k.Safe arg) → ∀ m ∈ expandK ks, m.Safe arg)
  | [], _ => by simp [expandK]
  | k :: ks, hk => by
    obtain ⟨h1, h2, _, h4⟩ := expandK_spec ks fun m hm => hk m (List.mem_cons_of_mem _ hm)
    have hk0 := hk k List.mem_cons_self
    have key : (∃ sh gs, k = .sum sh gs ∧ expandK (k :: ks) = gs ++ expandK ks) ∨ expandK (k :: ks) = k :: expandK ks := by
      cases k <;> simp [expandK]
    rcases key with ⟨sh, gs, rfl, he⟩ | he
    · rw [he]
      obtain ⟨hne, hsh, hwf⟩ := hk0
      rw [allWF_iff] at hwf
      refine ⟨fun x0 x1 p q => ?_, fun m hm => ?_, fun _ hc => hne (List.append_eq_nil_iff.mp hc).1, fun arg hs m hm => ?_⟩
      · rw [List.map_append, List.sum_append, h1, List.map_cons, List.sum_cons, eval_sum]
      · rcases List.mem_append.mp hm with hm | hm
        · exact ⟨hwf m hm, _, List.mem_cons_self, by rw [hsh m hm]; rfl⟩
        · obtain ⟨ha, n, hn, hb⟩ := h2 m hm
          exact ⟨ha, n, List.mem_cons_of_mem _ hn, hb⟩
      · rcases List.mem_append.mp hm with hm | hm
        · have := hs _ List.mem_cons_self
          rw [K.Safe, allSafe_iff] at this
          exact this m hm
        · exact h4 arg (fun n hn => hs n (List.mem_cons_of_mem _ hn)) m hm
    · rw [he]
      refine ⟨fun x0 x1 p q => by simp [h1], fun m hm => ?_, fun _ => by simp, fun arg hs m hm => ?_⟩
      · rcases List.mem_cons.mp hm with rfl | hm
        · exact ⟨hk0, _, List.mem_cons_self, rfl⟩
        · obtain ⟨ha, n, hn, hb⟩ := h2 m hm
          exact ⟨ha, n, List.mem_cons_of_mem _ hn, hb⟩
      · rcases List.mem_cons.mp hm with rfl | hm
        · exact hs _ List.mem_cons_self
        · exact h4 arg (fun n hn => hs n (List.mem_cons_of_mem _ hn)) m hm

lemma mkPnSum_spec (ks : List (K X)) (k : K X) (h : mkPnSum ks = .ok k) (hw : ∀ m ∈ ks, m.WF) :
    k.WF ∧ (∀ m ∈ ks, m.sh = k.sh) ∧ (∀ x0 x1 p q, k.eval x0 x1 p q = (ks.map fun m => m.eval x0 x1 p q).sum) ∧
      (∀ arg, (∀ m ∈ ks, m.Safe arg) → k.Safe arg) := by
  cases ks with
  | nil => simp [mkPnSum] at h
  | cons m ms =>
    rw [mkPnSum] at h
    split_ifs at h with hc
    cases h
    have hsh : ∀ n ∈ m :: ms, n.sh = m.sh := by simpa using hc
    obtain ⟨h1, h2, h3, h4⟩ := expandK_spec (m :: ms) hw
    refine ⟨?_, ?_, ?_, ?_⟩
    · rw [K.WF, allWF_iff]
      refine ⟨h3 (by simp), fun n hn => ?_, fun n hn => (h2 n hn).1⟩
      obtain ⟨_, a, ha, hb⟩ := h2 n hn
      rw [hb, hsh a ha]
    · exact fun n hn => by rw [hsh n hn]; rfl
    · intro x0 x1 p q; rw [eval_sum, h1]
    · intro arg hs; rw [K.Safe, allSafe_iff]; exact h4 arg hs

lemma mkPnSum_ne_ni (ks : List (K X)) : mkPnSum ks ≠ .error .notImplemented := by
  cases ks with
  | nil => simp [mkPnSum]
  | cons m ms => rw [mkPnSum]; split_ifs <;> simp

lemma mkJaxSum_spec (ks : List (K X)) (k : K X) (h : mkJaxSum ks = .ok k) : mkPnSum ks = .ok k := by
  unfold mkJaxSum at h; split_ifs at h; exact h

lemma mkJaxSum_ne_ni (ks : List (K X)) : mkJaxSum ks ≠ .error .notImplemented := by
  unfold mkJaxSum; split_ifs
  · exact mkPnSum_ne_ni ks
  · simp

lemma add_spec (k m n : K X) (h : k.add m = .ok n) : mkPnSum [k, m] = .ok n := by
  unfold K.add at h; split_ifs at h
  · exact mkJaxSum_spec _ _ h
  · exact h

lemma add_ne_ni (k m : K X) : k.add m ≠ .error .notImplemented := by
  unfold K.add; split_ifs
  · exact mkJaxSum_ne_ni _
  · exact mkPnSum_ne_ni _

lemma mkStack_spec (s : Shp) (ks : List (K X)) (idx : Bool) (k : K X) (h : mkStack s ks idx = .ok k) :
    ∃ i0 i1, k = .stack i0 i1 s idx ks ∧ ks ≠ [] ∧ ∀ m ∈ ks, m.sh = ⟨i0, i1, [], []⟩ := by
  cases ks with
  | nil => simp [mkStack] at h
  | cons m ms =>
    rw [mkStack] at h
    split_ifs at h with h1 h2 h3
    cases h
    refine ⟨_, _, rfl, by simp, fun n hn => ?_⟩
    rw [List.all_eq_true] at h1 h2 h3
    have a := h1 n hn; have b := h2 n hn; have c := h3 n hn
    simp only [decide_eq_true_eq] at a b c
    cases hs : n.sh; simp_all

lemma mkStack_ne_ni (s : Shp) (ks : List (K X)) (idx : Bool) : mkStack s ks idx ≠ .error .notImplemented := by
  cases ks with
  | nil => simp [mkStack]
  | cons m ms => rw [mkStack]; split_ifs <;> simp

end LinPDE.CovAlg
