import Verif.Piecewise.Props
import Mathlib.Analysis.SpecialFunctions.Integrals.Basic

/-! # Integrals of piecewise functions (C21) -/

namespace LinPDE.Piecewise
open LinPDE.Polys (Poly)
open MeasureTheory

/-- Every kind of piecewise function follows piece `i` on the half-open interval `(X i, X (i + 1)]`. -/
lemma eval_Ioc {f : PW} (h : f.Ok) {i : ℕ} (hi : i < f.fns.length) {x : ℝ} (hx : x ∈ Set.Ioc (f.X i) (f.X (i + 1))) :
    f.evaluate x = .ok (f.fns[i].ev x) := by
  have hin : f.In i x := by
    refine ⟨?_, hx.2⟩
    split_ifs with h0
    · subst h0; exact hx.1.le
    · exact hx.1
  by_cases hk : f.kind = .constant
  · have h' : PW.Ok ⟨.general, f.xs, f.fns⟩ := ⟨h.len, h.pos, h.inc⟩
    rw [constant_eval_partial hk h (ne_of_gt (lt_of_le_of_lt (h.le (Nat.zero_le i) hi.le) hx.1))]
    exact piecewise_eval (by simp) h' hi hin
  · exact piecewise_eval hk h hi hin

lemma searchsorted_eq {f : PW} (h : f.Ok) {i : ℕ} (hi : i ≤ f.fns.length) {v : ℝ} (h0 : f.X i ≤ v)
    (h1 : i < f.fns.length → v < f.X (i + 1)) : searchsortedRight f.xs v = i + 1 := by
  classical
  have hlen := h.len
  unfold searchsortedRight
  conv_lhs => rw [← List.take_append_drop (i + 1) f.xs]
  rw [List.filter_append, List.filter_eq_self.mpr, List.filter_eq_nil_iff.mpr]
  · simp; omega
  · intro x hx
    obtain ⟨k, hk, rfl⟩ := List.getElem_of_mem hx
    rw [List.getElem_drop]
    rw [List.length_drop] at hk
    have h2 := h.le (show i + 1 ≤ i + 1 + k by omega) (by omega)
    have h3 := h1 (by omega)
    have h4 : f.X (i + 1 + k) = f.xs[i + 1 + k] := by
      simp [PW.X, List.getD_eq_getElem?_getD, show i + 1 + k < f.xs.length by omega]
    simp only [decide_eq_true_eq, not_le]
    rw [← h4]; linarith
  · intro x hx
    obtain ⟨k, hk, rfl⟩ := List.getElem_of_mem hx
    rw [List.getElem_take]
    rw [List.length_take] at hk
    have h2 := h.le (show k ≤ i by omega) hi
    have h4 : f.X k = f.xs[k] := by
      simp [PW.X, List.getD_eq_getElem?_getD, show k < f.xs.length by omega]
    simp only [decide_eq_true_eq]
    rw [← h4]; linarith

lemma exists_index {f : PW} {v : ℝ} (h0 : f.X 0 ≤ v) :
    ∃ i ≤ f.fns.length, f.X i ≤ v ∧ (i < f.fns.length → v < f.X (i + 1)) := by
  classical
  refine ⟨Nat.findGreatest (fun i => f.X i ≤ v) f.fns.length, Nat.findGreatest_le _, ?_, fun hlt => ?_⟩
  · exact Nat.findGreatest_spec (P := fun i => f.X i ≤ v) (Nat.zero_le _) h0
  · exact not_le.mp (Nat.findGreatest_is_greatest (P := fun i => f.X i ≤ v) (Nat.lt_succ_self _) hlt)

/-- The pieces are integrable on every interval (automatic for polynomials and constants). -/
def PW.Integrable (f : PW) : Prop := ∀ p ∈ f.fns, ∀ l r : ℝ, IntervalIntegrable p.ev volume l r

lemma poly_continuous (p : Poly ℝ) : Continuous p.eval :=
  continuous_iff_continuousAt.mpr fun x => (LinPDE.Polys.hasDerivAt_eval p x).continuousAt

lemma piece_integral (p : Piece) (l r : ℝ) : p.integral l r = ∫ x in l..r, p.ev x := by
  cases p with
  | poly p =>
    show _ = ∫ x in l..r, p.eval x
    rw [intervalIntegral.integral_eq_sub_of_hasDerivAt (fun x _ => (LinPDE.Polys.hasDerivAt_integrate p x).1)
      ((poly_continuous p).intervalIntegrable _ _)]
    rfl
  | const c => simp [Piece.integral, Piece.ev, mul_comm]
  | fn f => rfl

lemma integratePiece_ok {l r : ℝ} (h : l ≤ r) (p : Piece) : integratePiece l r p = .ok (∫ x in l..r, p.ev x) := by
  unfold integratePiece
  simp [LinPDE.Domains.asdomain, LinPDE.Domains.mkInterval, not_lt.mpr h, piece_integral]

/-- The loop of the integral. -/
noncomputable def loop (fs : List Piece) (c : ℝ) (cs : List ℝ) (s : ℝ) : Except Err ℝ :=
  (fs.zip ((c :: cs).zip cs)).foldlM (fun s t => do
      let v ← integratePiece t.2.1 t.2.2 t.1
      .ok (s + v)) s

lemma loop_cons {p : Piece} {fs : List Piece} {c c' : ℝ} {cs : List ℝ} {s : ℝ} (h : c ≤ c') :
    loop (p :: fs) c (c' :: cs) s = loop fs c' cs (s + ∫ x in c..c', p.ev x) := by
  unfold loop
  rw [List.zip_cons_cons, List.zip_cons_cons, List.foldlM_cons, integratePiece_ok h]
  rfl

lemma slice_cons {α : Type} (l : List α) {i j : ℕ} (hij : i < j) (hj : i < l.length) :
    slice l i j = l[i] :: slice l (i + 1) j := by
  unfold slice
  rw [List.drop_eq_getElem_cons (by simp; omega)]
  simp

lemma slice_nil {α : Type} (l : List α) {i j : ℕ} (h : j ≤ i) : slice l i j = [] := by
  unfold slice
  apply List.drop_eq_nil_of_le
  simp; omega

lemma integral_piece_eq {f : PW} (h : f.Ok) {F : ℝ → ℝ} (hF : ∀ x, f.evaluate x = .ok (F x)) {i : ℕ}
    (hi : i < f.fns.length) (hint : f.Integrable) {l r : ℝ} (hl : f.X i ≤ l) (hlr : l ≤ r) (hr : r ≤ f.X (i + 1)) :
    ∫ x in l..r, f.fns[i].ev x = ∫ x in l..r, F x ∧ IntervalIntegrable F volume l r := by
  have e : ∀ x ∈ Set.uIoc l r, f.fns[i].ev x = F x := by
    intro x hx
    rw [Set.uIoc_of_le hlr] at hx
    have := eval_Ioc h hi (x := x) ⟨lt_of_le_of_lt hl hx.1, hx.2.trans hr⟩
    rw [hF] at this
    exact (Except.ok.inj this).symm
  refine ⟨intervalIntegral.integral_congr_ae (Filter.Eventually.of_forall e), ?_⟩
  refine IntervalIntegrable.congr (f := f.fns[i].ev) ?_ (hint _ (List.getElem_mem _) l r)
  exact fun x hx => e x hx

lemma loop_eq {f : PW} (h : f.Ok) (hint : f.Integrable) {F : ℝ → ℝ} (hF : ∀ x, f.evaluate x = .ok (F x))
    {j : ℕ} (hj : j ≤ f.fns.length) (hj0 : j - 1 < f.fns.length) {b : ℝ} (hb : f.X j ≤ b) (m : ℕ) : ∀ (i : ℕ) (a s : ℝ),
    i + 1 + m = j → f.X i ≤ a → a ≤ f.X (i + 1) →
    loop (slice f.fns i j) a (slice f.xs (i + 1) j ++ [b]) s =
      .ok (s + ((∫ x in a..f.X j, F x) + ∫ x in f.X j..b, f.fns[j - 1].ev x)) ∧
    IntervalIntegrable F volume a (f.X j) := by
  have hlen := h.len
  induction m with
  | zero =>
    intro i a s hij ha ha'
    have hj' : j = i + 1 := by omega
    subst hj'
    have hi : i < f.fns.length := by omega
    rw [slice_cons _ (by omega) hi, slice_nil f.fns le_rfl, slice_nil f.xs le_rfl, List.nil_append,
      loop_cons (ha'.trans hb)]
    obtain ⟨e, hI⟩ := integral_piece_eq h hF hi hint ha ha' le_rfl
    refine ⟨?_, hI⟩
    have hp := hint f.fns[i] (List.getElem_mem _)
    rw [← e]
    simp only [Nat.add_sub_cancel]
    rw [intervalIntegral.integral_add_adjacent_intervals (hp _ _) (hp _ _)]
    rfl
  | succ m ih =>
    intro i a s hij ha ha'
    have hi : i < f.fns.length := by omega
    rw [slice_cons _ (by omega) hi, slice_cons f.xs (show i + 1 < j by omega) (by omega), List.cons_append]
    have hX : f.xs[i + 1] = f.X (i + 1) := by
      simp [PW.X, List.getD_eq_getElem?_getD, show i + 1 < f.xs.length by omega]
    rw [hX, loop_cons ha']
    obtain ⟨e, hI⟩ := integral_piece_eq h hF hi hint ha ha' le_rfl
    obtain ⟨h1, h2⟩ := ih (i + 1) (f.X (i + 1)) (s + ∫ x in a..f.X (i + 1), f.fns[i].ev x) (by omega) le_rfl
      (h.le (by omega) (by omega))
    refine ⟨?_, hI.trans h2⟩
    rw [h1, e, ← intervalIntegral.integral_add_adjacent_intervals hI h2]
    congr 1
    ring

/-- What the integral functional computes for a piecewise function, for every interval starting inside of the domain:
the pieces up to the last breakpoint `X j ≤ b` are right, but beyond it the *previous* piece is integrated; if no
breakpoint separates `a` and `b`, the result is zero. -/
theorem integral_computed {f : PW} (h : f.Ok) (hint : f.Integrable) {F : ℝ → ℝ}
    (hF : ∀ x, f.evaluate x = .ok (F x)) {a b : ℝ} {i j : ℕ} (hj : j ≤ f.fns.length)
    (ha : f.X i ≤ a) (ha' : i < f.fns.length → a < f.X (i + 1)) (hb : f.X j ≤ b)
    (hb' : j < f.fns.length → b < f.X (j + 1)) (hij : i ≤ j) :
    f.integral a b = .ok (if i = j then 0 else (∫ x in a..f.X j, F x) + ∫ x in f.X j..b, (f.fns.getD (j - 1) (.const 0)).ev x) := by
  have hlen := h.len
  have e1 := searchsorted_eq h (hij.trans hj) ha ha'
  have e2 := searchsorted_eq h hj hb hb'
  unfold PW.integral
  simp only [e1, e2, Nat.add_sub_cancel, Nat.add_eq_zero_iff, one_ne_zero, and_false, if_false, List.cons_append,
    List.tail_cons]
  show loop (slice f.fns i j) a (slice f.xs (i + 1) j ++ [b]) 0 = _
  split_ifs with he
  · subst he
    rw [slice_nil f.fns le_rfl]
    rfl
  · have hj0 : j - 1 < f.fns.length := by have := h.pos; omega
    rw [(loop_eq h hint hF hj hj0 hb (j - (i + 1)) i a 0 (by omega) ha (ha' (by omega)).le).1]
    simp [List.getD_eq_getElem?_getD, hj0]

/-- C21 (part): the integral over `[a, b]` is right whenever `b` is a breakpoint. -/
theorem integral_partial {f : PW} (h : f.Ok) (hint : f.Integrable) {F : ℝ → ℝ}
    (hF : ∀ x, f.evaluate x = .ok (F x)) {a : ℝ} (ha : f.X 0 ≤ a) {j : ℕ} (hj : j ≤ f.fns.length)
    (hb : a ≤ f.X j) : f.integral a (f.X j) = .ok (∫ x in a..f.X j, F x) := by
  obtain ⟨i, hi, h0, h1⟩ := exists_index ha
  have hij : i ≤ j := by
    by_contra hc
    have := h.lt (show j < i by omega) hi
    linarith
  rw [integral_computed h hint hF hj h0 h1 le_rfl (fun hlt => h.lt (by omega) (by omega)) hij]
  split_ifs with he
  · subst he
    rw [le_antisymm h0 hb, intervalIntegral.integral_same]
  · rw [intervalIntegral.integral_same, add_zero]

/-- C21: intervals starting before the first breakpoint are refused. -/
theorem integral_left_of_domain {f : PW} (h : f.Ok) {a b : ℝ} (ha : a < f.X 0) : f.integral a b = .error .valueError := by
  have : searchsortedRight f.xs a = 0 := by
    classical
    unfold searchsortedRight
    rw [List.length_eq_zero_iff, List.filter_eq_nil_iff]
    intro x hx
    obtain ⟨k, hk, rfl⟩ := List.getElem_of_mem hx
    have h2 := h.le (Nat.zero_le k) (by have := h.len; omega)
    have h4 : f.X k = f.xs[k] := by simp [PW.X, List.getD_eq_getElem?_getD, hk]
    simp only [decide_eq_true_eq, not_le]
    rw [← h4]; linarith
  unfold PW.integral
  simp [this]

/-- C21 is violated: the integral over an interval strictly inside of one piece is always zero. -/
theorem integral_inside_piece_zero {f : PW} (h : f.Ok) {a b : ℝ} {i : ℕ} (hi : i < f.fns.length) (ha : f.X i ≤ a)
    (hab : a ≤ b) (hb : b < f.X (i + 1)) : f.integral a b = .ok 0 := by
  have e1 := searchsorted_eq h hi.le ha fun _ => lt_of_le_of_lt hab hb
  have e2 := searchsorted_eq h hi.le (ha.trans hab) fun _ => hb
  unfold PW.integral
  simp only [e1, e2, Nat.add_sub_cancel, Nat.add_eq_zero_iff, one_ne_zero, and_false, if_false]
  rw [slice_nil f.fns le_rfl]
  rfl

/-- C21 is violated, witness: the function which is 1 on `[0, 1]` integrates to 0 over `[0, 1/2]`. -/
theorem integral_violated :
    ∃ (f : PW) (F : ℝ → ℝ), f.Ok ∧ f.Integrable ∧ (∀ x, f.evaluate x = .ok (F x)) ∧
      f.integral 0 (1 / 2) = .ok 0 ∧ ∫ x in (0 : ℝ)..(1 / 2), F x = 1 / 2 := by
  have h : PW.Ok ⟨.general, [0, 1], [.const 1]⟩ := ⟨rfl, by simp, by simp⟩
  have hF : ∀ x, PW.evaluate ⟨.general, [0, 1], [.const 1]⟩ x =
      .ok (open Classical in if 0 ≤ x ∧ x ≤ 1 then 1 else 0) := by
    intro x
    rw [evaluate_general (by simp) (by simp)]
    simp [npPiecewise, Piece.ev]
  refine ⟨⟨.general, [0, 1], [.const 1]⟩, _, h, ?_, hF, ?_, ?_⟩
  · intro p hp l r
    simp only [List.mem_singleton] at hp
    subst hp
    exact intervalIntegrable_const
  · exact integral_inside_piece_zero h (i := 0) (by simp) (by simp [PW.X]) (by norm_num) (by simp [PW.X]; norm_num)
  · rw [intervalIntegral.integral_congr (g := fun _ => (1 : ℝ))]
    · simp
    · intro x hx
      rw [Set.uIcc_of_le (by norm_num)] at hx
      have h1 := hx.1
      have h2 := hx.2
      simp only
      rw [if_pos ⟨h1, by linarith⟩]

/-- C21 is violated in the way of `integral_computed` also beyond a breakpoint: for the pieces 0 and 1 on `[0, 1]` and
`[1, 2]`, the integral over `[0, 3/2]` is computed as 0. -/
theorem integral_beyond_breakpoint_violated :
    ∃ (f : PW) (F : ℝ → ℝ), f.Ok ∧ f.Integrable ∧ (∀ x, f.evaluate x = .ok (F x)) ∧
      f.integral 0 (3 / 2) = .ok 0 ∧ ∫ x in (0 : ℝ)..(3 / 2), F x = 1 / 2 := by
  have h : PW.Ok ⟨.constant, [0, 1, 2], [.const 0, .const 1]⟩ := ⟨rfl, by simp, by simp⟩
  have hF : ∀ x, PW.evaluate ⟨.constant, [0, 1, 2], [.const 0, .const 1]⟩ x =
      .ok (open Classical in if 1 < x ∧ x ≤ 2 then 1 else 0) := by
    intro x
    rw [evaluate_constant rfl]
    simp [npPiecewise, Piece.ev]
  have hint : PW.Integrable ⟨.constant, [0, 1, 2], [.const 0, .const 1]⟩ := by
    intro p hp l r
    simp only [List.mem_cons, List.not_mem_nil, or_false] at hp
    rcases hp with rfl | rfl <;> exact intervalIntegrable_const
  have z : ∫ x in (0 : ℝ)..1, (open Classical in if 1 < x ∧ x ≤ 2 then (1 : ℝ) else 0) = 0 := by
    rw [intervalIntegral.integral_congr (g := fun _ => (0 : ℝ))]
    · simp
    · intro x hx
      rw [Set.uIcc_of_le (by norm_num)] at hx
      have h2 := hx.2
      simp only
      rw [if_neg (by intro hc; linarith [hc.1])]
  have o := integral_piece_eq h hF (i := 1) (by simp) hint (l := 1) (r := 3 / 2) (by simp [PW.X]) (by norm_num)
    (by simp [PW.X]; norm_num)
  have o' := integral_piece_eq h hF (i := 0) (by simp) hint (l := 0) (r := 1) (by simp [PW.X]) (by norm_num)
    (by simp [PW.X])
  refine ⟨⟨.constant, [0, 1, 2], [.const 0, .const 1]⟩, _, h, hint, hF, ?_, ?_⟩
  · rw [integral_computed h hint hF (i := 0) (j := 1) (by simp) (by simp [PW.X]) (by simp [PW.X]) (by simp [PW.X]; norm_num)
      (by simp [PW.X]; norm_num) (by omega)]
    rw [if_neg (by omega)]
    simp only [PW.X, List.getD_eq_getElem?_getD]
    simp [Piece.ev, z]
  · rw [← intervalIntegral.integral_add_adjacent_intervals o'.2 o.2, z, ← o.1]
    simp [Piece.ev]
    norm_num

/-- Polynomial and constant pieces are integrable, so `integral_partial` applies to all of them. -/
theorem integrable_of_poly {f : PW} (h : ∀ p ∈ f.fns, ∀ g, p ≠ .fn g) : f.Integrable := by
  intro p hp l r
  cases p with
  | poly p => exact (poly_continuous p).intervalIntegrable l r
  | const c => exact intervalIntegrable_const
  | fn g => exact absurd rfl (h _ hp g)

/-- Non-vacuity: the integral of the interpolant of three points, from inside of the first piece to the end. -/
example : ∃ (f : PW) (F : ℝ → ℝ), f.kind = .linear ∧ f.Ok ∧ f.Integrable ∧ (∀ x, f.evaluate x = .ok (F x)) ∧
    f.X 0 ≤ 1 / 2 ∧ 1 / 2 ≤ f.X 2 := by
  obtain ⟨f, hf, hk, hx, ok, hev⟩ := fromPoints_spec (xs := [0, 1, 3]) (ys := [2, 5, 1]) rfl (by simp) (by simp)
  refine ⟨f, fun x => (f.evaluate x).toOption.getD 0, hk, ok, ?_, ?_, ?_, ?_⟩
  · apply integrable_of_poly
    intro p hp g hg
    unfold fromPoints mkPW at hf
    split_ifs at hf
    obtain rfl := Except.ok.inj hf
    subst hg
    simp at hp
  · intro x
    obtain ⟨y, hy⟩ : ∃ y, f.evaluate x = .ok y := by
      rw [evaluate_general (by rw [hk]; simp) (by rw [hx]; simp)]
      exact ⟨_, rfl⟩
    simp only [hy]
    rfl
  · simp [PW.X, hx]
  · simp [PW.X, hx]; norm_num

end LinPDE.Piecewise
