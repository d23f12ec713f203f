import Verif.CovAlg.Violations

/-!
# Incompatible shapes are refused

Which lists of kernels the constructors accept, and that an operator does not return anything for a kernel whose shapes
are not its own.
-/

namespace LinPDE.CovAlg
open LinPDE.Nd LinPDE.Ops
variable {X : Type}

/-! ## Constructors -/

/-- A sum is built exactly from at least one kernel, all of the same four shapes. -/
theorem mkPnSum_isOk_iff (ks : List (K X)) : (∃ k, mkPnSum ks = .ok k) ↔ ks ≠ [] ∧ ∀ a ∈ ks, ∀ b ∈ ks, a.sh = b.sh := by
  cases ks with
  | nil => simp [mkPnSum]
  | cons m ms =>
    rw [mkPnSum]
    constructor
    · rintro ⟨k, h⟩
      split_ifs at h with hc
      have : ∀ a ∈ m :: ms, a.sh = m.sh := by simpa using hc
      exact ⟨by simp, fun a ha b hb => (this a ha).trans (this b hb).symm⟩
    · rintro ⟨-, h⟩
      rw [if_pos (by simpa using fun a ha => h a (List.mem_cons_of_mem _ ha) m List.mem_cons_self)]
      exact ⟨_, rfl⟩

/-- A stack is built exactly from at least one kernel, all scalar and of the same input shapes; the parts are kept. -/
theorem mkStack_ok_iff (s : Shp) (ks : List (K X)) (idx : Bool) (k : K X) :
    mkStack s ks idx = .ok k ↔ ks ≠ [] ∧ ∃ i0 i1, (∀ m ∈ ks, m.sh = ⟨i0, i1, [], []⟩) ∧ k = .stack i0 i1 s idx ks := by
  constructor
  · intro h
    obtain ⟨i0, i1, h1, h2, h3⟩ := mkStack_spec s ks idx k h
    exact ⟨h2, i0, i1, h3, h1⟩
  · rintro ⟨h0, i0, i1, h, rfl⟩
    cases ks with
    | nil => exact absurd rfl h0
    | cons m ms =>
      have hm := h m List.mem_cons_self
      rw [mkStack, if_neg, if_neg, if_neg, hm]
      all_goals
        simp only [not_not, List.all_eq_true, decide_eq_true_eq]
        intro n hn
        simp [h n hn, hm]

/-- Independent outputs are built exactly from at least one kernel, all scalar and with one and the same shape for both
arguments; the parts are kept. Anything else is an `AssertionError`. -/
theorem mkImo_ok_iff (ks : List (K X)) (k : K X) :
    mkImo ks = .ok k ↔ ks ≠ [] ∧ ∃ i, (∀ m ∈ ks, m.sh = ⟨i, i, [], []⟩) ∧ k = .imo i ks := by
  cases ks with
  | nil => simp [mkImo]
  | cons m ms =>
    rw [mkImo]
    constructor
    · intro h
      split_ifs at h with hc
      cases h
      simp only [List.all_eq_true, decide_eq_true_eq] at hc
      refine ⟨by simp, _, fun n hn => ?_, rfl⟩
      obtain ⟨h1, h2, h3, h4⟩ := hc n hn
      rcases hs : n.sh with ⟨a, b, c, d⟩
      rw [hs] at h1 h2 h3 h4
      simp_all
    · rintro ⟨-, i, h, rfl⟩
      have hm := h m List.mem_cons_self
      rw [if_pos, hm]
      simp only [List.all_eq_true, decide_eq_true_eq]
      intro n hn
      simp [h n hn, hm]

theorem mkImo_error (ks : List (K X)) (h : ¬∃ k, mkImo ks = .ok k) : mkImo ks = .error .assertionError := by
  cases ks with
  | nil => rfl
  | cons m ms =>
    rw [mkImo] at h ⊢
    split_ifs at h ⊢ with hc
    · exact absurd ⟨_, rfl⟩ h
    · rfl

example : ∃ k, mkImo [exBase, exBase] = .ok k :=
  ⟨_, (mkImo_ok_iff _ _).mpr ⟨by simp, [], by simp [exBase, K.sh], rfl⟩⟩

example : mkImo [exBase, (.zero ⟨[2], [2], [], []⟩ : K ℝ)] = .error .assertionError :=
  mkImo_error _ fun ⟨_, h⟩ => by
    obtain ⟨-, i, h, -⟩ := (mkImo_ok_iff _ _).mp h
    have h1 := h exBase (by simp)
    have h2 := h (.zero ⟨[2], [2], [], []⟩) (by simp)
    simp only [exBase, K.sh, KSh.mk.injEq] at h1 h2
    rw [← h1.1] at h2
    simp at h2

/-! ## Operators -/

lemma fit_of_validate {i : Shapes} {k : K X} {arg : Bool} {u : Unit} (h : validate i k arg = .ok u) : Fit i arg k :=
  (validate_iff i k arg).mp h

lemma noRule_fit {h : H X} {k : K X} {arg : Bool} (hp : h.pre = true) (hn : h.noRule k arg = .error .notImplemented) :
    Fit h.i arg k := by
  unfold H.noRule at hn
  rw [if_pos hp] at hn
  rcases hv : validate h.i k arg with e | u
  · rw [hv] at hn
    cases hn
    exact absurd hv (validate_ne_ni h.i k arg)
  · exact fit_of_validate hv

/-- A rule that validates first: it returns, or says `NotImplementedError`, only for fitting kernels. -/
lemma bind_validate_fit {α : Type} {i : Shapes} {k : K X} {arg : Bool} {f : Unit → Except Err α}
    (h : (∃ r, (validate i k arg >>= f) = .ok r) ∨ (validate i k arg >>= f) = .error .notImplemented) : Fit i arg k := by
  rcases hv : validate i k arg with e | u
  · rw [hv] at h
    rcases h with ⟨r, h⟩ | h
    · cases h
    · cases h
      exact absurd hv (validate_ne_ni i k arg)
  · exact fit_of_validate hv

lemma wrap_ok {h : H X} {k r : K X} {g : Except Err (K X)} (hw : h.wrap k g = .ok r) :
    h.own k = some (.ok r) ∨ g = .ok r ∨ (g = .error .notImplemented ∧ h.rescue k = .ok r) := by
  unfold H.wrap at hw
  split at hw
  next r' ho => rw [ho, hw]; exact .inl rfl
  next ho =>
    split at hw
    · exact .inr (.inr ⟨rfl, hw⟩)
    · exact .inr (.inl hw)

/-- A class refuses kernels of other shapes if its own registrations do, its rescue does for kernels without the JAX
mixin, and it either validates before the rescue or has no rescue. -/
lemma call_fit (h : H X) (arg : Bool) (hown : ∀ k r, h.own k = some (.ok r) → Fit h.i arg k)
    (hres : ∀ k r, k.isJax = false → h.rescue k = .ok r → Fit h.i arg k)
    (hpre : h.pre = true ∨ ∀ k r, h.rescue k ≠ .ok r) (k k' : K X) (hc : h.call arg k = .ok k') : Fit h.i arg k := by
  have hno : ∀ k r, h.wrap k (h.noRule k arg) = .ok r → Fit h.i arg k := fun k r hw => by
    rcases wrap_ok hw with h1 | h1 | ⟨h1, h2⟩
    · exact hown k r h1
    · exact absurd h1 (noRule_ne_ok _ _ _ _)
    · rcases hpre with hp | hp
      · exact noRule_fit hp h1
      · exact absurd h2 (hp _ _)
  cases k with
  | base sh cls j ev => rw [H.call] at hc; exact hno _ _ hc
  | imo i ks => rw [H.call] at hc; exact hno _ _ hc
  | scaled m c =>
    rw [H.call] at hc
    rcases wrap_ok hc with h1 | h1 | ⟨h1, h2⟩
    · exact hown _ _ h1
    · split_ifs at h1 with hj
      exact bind_validate_fit (.inl ⟨_, h1⟩)
    · split_ifs at h1 with hj
      · exact bind_validate_fit (.inr h1)
      · exact hres _ _ (by simpa [K.isJax] using hj) h2
  | sum sh ks =>
    rw [H.call] at hc
    rcases wrap_ok hc with h1 | h1 | ⟨h1, h2⟩
    · exact hown _ _ h1
    · split_ifs at h1 with hj
      exact bind_validate_fit (.inl ⟨_, h1⟩)
    · split_ifs at h1 with hj
      · exact bind_validate_fit (.inr h1)
      · exact hres _ _ (by simpa [K.isJax] using hj) h2
  | stack i0 i1 s idx ks =>
    rw [H.call] at hc
    rcases wrap_ok hc with h1 | h1 | ⟨h1, h2⟩
    · exact hown _ _ h1
    · exact bind_validate_fit (.inl ⟨_, h1⟩)
    · exact bind_validate_fit (.inr h1)
  | zero sh =>
    rw [H.call] at hc
    rcases wrap_ok hc with h1 | h1 | ⟨h1, h2⟩
    · exact hown _ _ h1
    · exact bind_validate_fit (.inl ⟨_, h1⟩)
    · exact bind_validate_fit (.inr h1)

lemma ownClosed_fit {i o : Shapes} {T : Val X →ₗ[ℝ] Val X} {closed : ℕ → Bool → Option (ℕ × Bool)} {arg : Bool} {k k' : K X}
    (h : ownClosed i o T closed arg k = some (.ok k')) : Fit i arg k := by
  cases k with
  | base sh cls j ev =>
    simp only [ownClosed] at h
    split at h
    · simp only [Option.some.injEq] at h
      exact bind_validate_fit (.inl ⟨_, h⟩)
    · cases h
  | _ => simp [ownClosed] at h

lemma select_fit (i : Shapes) (idx : SIdx) (arg : Bool) (k k' : K X) (hc : (selectH i idx arg).call arg k = .ok k') :
    Fit i arg k := by
  refine call_fit _ arg (fun k r h => ?_) (fun k r _ h => by cases h) (.inr fun k r => by simp [selectH]) k k' hc
  cases k with
  | stack i0 i1 s j ks =>
    simp only [selectH] at h
    split_ifs at h
    simp only [Option.some.injEq] at h
    exact bind_validate_fit (.inl ⟨_, h⟩)
  | imo inS ks =>
    simp only [selectH, Option.some.injEq] at h
    exact bind_validate_fit (.inl ⟨_, h⟩)
  | _ => simp [selectH] at h

lemma pdOwn_fit {D : PD X} (h0 : D.order ≠ 0) {arg : Bool} {k k' : K X} (h : D.own arg k = some (.ok k')) :
    Fit (D.dom, []) arg k := by
  unfold PD.own at h
  split at h
  next r hr => cases h; exact ownClosed_fit hr
  next => rw [if_neg h0] at h; cases h

lemma pdNoJax_fit (D : PD X) (h0 : D.order ≠ 0) (arg : Bool) (k k' : K X) (hc : (D.hNoJax arg).call arg k = .ok k') :
    Fit (D.dom, []) arg k :=
  call_fit (D.hNoJax arg) arg (fun _ _ h => pdOwn_fit h0 h) (fun _ _ _ h => by cases h) (.inl rfl) k k' hc

lemma reduceK_head {α : Type} {f : α → Except Err (K X)} {as : List α} {k : K X} (h : reduceK f as = .ok k) :
    ∃ a ∈ as, ∃ m, f a = .ok m := by
  cases as with
  | nil => cases h
  | cons a as =>
    obtain ⟨m, h1, -⟩ := bind_ok h
    exact ⟨a, List.mem_cons_self, m, h1⟩

lemma toSum_fit (D : Diff X) (hD : D.OK) (h0 : ∀ t ∈ D.terms, ∀ u ∈ t.2, u.1.order ≠ 0) (arg : Bool) (k k' : K X)
    (h : D.toSumNoJax arg k = .ok k') : Fit D.i arg k := by
  unfold Diff.toSumNoJax at h
  split_ifs at h
  obtain ⟨t, ht, m, hm⟩ := reduceK_head h
  obtain ⟨u, hu, n, hn⟩ := reduceK_head hm
  obtain ⟨e, h1, h2⟩ := bind_ok hn
  obtain ⟨e', h3, -⟩ := bind_ok h2
  unfold Diff.entry at h1
  split_ifs at h1 with ht0
  · cases h1
    have hf := pdNoJax_fit u.1 (h0 t ht u hu) arg _ _ h3
    have hi : D.i.2 = [] := by
      have hfit := hD.fits t ht
      rw [ht0] at hfit
      cases hi : D.i.2 with
      | nil => rfl
      | cons a b => rw [hi] at hfit; exact hfit.elim
    exact ⟨by rw [hf.1]; exact (hD.pds t ht u hu).2, by rw [hf.2, hi]⟩
  · exact select_fit _ _ _ _ _ h1

mutual
/-- No derivative of order 0, which takes anything (`order_zero_unvalidated`), and no empty composition. -/
def LOp.Checks : LOp X → Prop
  | .ident _ => True
  | .select .. => True
  | .gen _ => True
  | .pd D => D.order ≠ 0
  | .diff D => ∀ t ∈ D.terms, ∀ u ∈ t.2, u.1.order ≠ 0
  | .scaled L _ => LOp.Checks L
  | .sum Ls => checksAll Ls
  | .comp Ls => Ls ≠ [] ∧ checksAll Ls
/-- Every operator. -/
def checksAll : List (LOp X) → Prop
  | [] => True
  | L :: Ls => LOp.Checks L ∧ checksAll Ls
end

mutual
/-- An operator expression without derivatives of order 0 returns a result only for kernels that have its input shapes in
the chosen argument. -/
theorem apply_refuses (arg : Bool) : ∀ (L : LOp X) (i o : Shapes) (k k' : K X), L.Typed i o → L.Checks → L.call arg k = .ok k' →
    Fit i arg k
  | .ident t, i, o, k, k', ht, _, h => by
    obtain ⟨rfl, rfl⟩ := ht
    rw [LOp.call] at h
    refine call_fit (identH t arg) arg (fun k r h => ?_) (fun k r _ h => by cases h) (.inr fun k r => by simp [identH]) k k' h
    simp only [identH, Option.some.injEq] at h
    exact bind_validate_fit (.inl ⟨_, h⟩)
  | .select j idx, i, o, k, k', ht, _, h => by
    obtain ⟨rfl, -⟩ := ht
    rw [LOp.call] at h
    exact select_fit _ _ _ _ _ h
  | .gen g, i, o, k, k', ht, _, h => by
    obtain ⟨rfl, -⟩ := ht
    rw [LOp.call] at h
    exact call_fit (g.h arg) arg (fun k r h => ownClosed_fit h) (fun k r _ h => by cases h) (.inr fun k r => by simp [Gen.h]) k k' h
  | .pd D, i, o, k, k', ht, hc, h => by
    obtain ⟨rfl, -⟩ := ht
    rw [LOp.call] at h
    refine call_fit (D.h arg) arg (fun k r h => pdOwn_fit hc h) (fun k r hj h => ?_) (.inl rfl) k k' h
    simp [PD.h, hj] at h
  | .diff D, i, o, k, k', ht, hc, h => by
    obtain ⟨rfl, rfl, hD⟩ := ht
    rw [LOp.call] at h
    refine call_fit (D.h arg) arg (fun k r h => ownClosed_fit h) (fun k r hj h => ?_) (.inl rfl) k k' h
    simp only [Diff.h] at h
    split at h
    · simp [hj] at h
    · exact toSum_fit D hD hc arg k r h
  | .scaled L c, i, o, k, k', ht, hc, h => by
    rw [LOp.call] at h
    obtain ⟨m, h1, -⟩ := bind_ok h
    exact apply_refuses arg L i o k m ht hc h1
  | .sum [], _, _, _, _, ht, _, _ => absurd rfl ht.1
  | .sum (L :: Ls), i, o, k, k', ht, hc, h => by
    rw [LOp.call, reduceOps] at h
    obtain ⟨m, h1, -⟩ := bind_ok h
    exact apply_refuses arg L i o k m ht.2.1 hc.1 h1
  | .comp Ls, i, o, k, k', ht, hc, h => by
    rw [LOp.call] at h
    exact seq_refuses arg Ls i o k k' ht hc.1 hc.2 h
/-- The same for compositions: the last factor is the one that looks at the kernel. -/
theorem seq_refuses (arg : Bool) : ∀ (Ls : List (LOp X)) (i o : Shapes) (k k' : K X), typedSeq Ls i o → Ls ≠ [] → checksAll Ls →
    callSeq arg Ls k = .ok k' → Fit i arg k
  | [], _, _, _, _, _, h, _, _ => absurd rfl h
  | [L], i, o, k, k', ht, _, hc, h => by
    obtain ⟨m, hm, hL⟩ := ht
    have hm : i = m := hm
    subst hm
    rw [callSeq] at h
    obtain ⟨n, h1, h2⟩ := bind_ok h
    rw [callSeq] at h1
    cases h1
    exact apply_refuses arg L i o k k' hL hc.1 h2
  | L :: M :: Ls, i, o, k, k', ht, _, hc, h => by
    obtain ⟨m, hm, hL⟩ := ht
    rw [callSeq] at h
    obtain ⟨n, h1, h2⟩ := bind_ok h
    exact seq_refuses arg (M :: Ls) i m k n hm (by simp) hc.2 h1
end

/-- The composition of derivatives used above refuses the stack in the stacked argument. -/
example : ∀ k', exL.call false exK ≠ .ok k' := fun k' h => by
  have := apply_refuses false exL ([], []) ([], []) exK k' exL_typed (by simp [exL, LOp.Checks, checksAll, exPD]) h
  exact absurd this.2 (by simp [exK, K.sh, KSh.outA])

end LinPDE.CovAlg
