import Verif.Piecewise.Model
import Verif.Poly.IntEvalProps
import Mathlib.MeasureTheory.Integral.IntervalIntegral.FundThmCalculus
import Mathlib.Tactic.FieldSimp

/-! # Piecewise functions (C20, C21, C55) -/

namespace LinPDE.Piecewise
open LinPDE.Polys (Poly)
open MeasureTheory

/-! ## Helpers -/

open Classical in
lemma foldl_false (x y : ℝ) (l : List (Prop × (ℝ → ℝ))) (h : ∀ c ∈ l, ¬c.1) :
    l.foldl (fun y cf => if cf.1 then cf.2 x else y) y = y := by
  induction l generalizing y with
  | nil => rfl
  | cons c l ih =>
    rw [List.foldl_cons, if_neg (h c (by simp))]
    exact ih y fun c hc => h c (by simp [hc])

lemma evaluate_general {f : PW} (hk : f.kind ≠ .constant) (h : 2 ≤ f.xs.length) (x : ℝ) :
    f.evaluate x = .ok (npPiecewise (f.fns.mapIdx fun i p =>
      ((if i = 0 then f.xs.getD 0 0 ≤ x ∧ x ≤ f.xs.getD 1 0 else f.xs.getD i 0 < x ∧ x ≤ f.xs.getD (i + 1) 0), p.ev)) x) := by
  unfold PW.evaluate
  rw [if_pos (show f.indexable from Or.inr (by omega))]
  congr 2
  unfold PW.conds
  cases hkk : f.kind
  · exact List.ext_getElem (by simp) fun i _ _ => by simp
  · exact List.ext_getElem (by simp) fun i _ _ => by simp
  · exact absurd hkk hk

lemma evaluate_constant {f : PW} (hk : f.kind = .constant) (x : ℝ) :
    f.evaluate x = .ok (npPiecewise (f.fns.mapIdx fun i p =>
      ((f.xs.getD i 0 < x ∧ x ≤ f.xs.getD (i + 1) 0), p.ev)) x) := by
  unfold PW.evaluate
  rw [if_pos (show f.indexable from Or.inl hk)]
  congr 2
  unfold PW.conds
  rw [hk]
  exact List.ext_getElem (by simp) fun i _ _ => by simp

lemma np_none (l : List (Prop × (ℝ → ℝ))) (x : ℝ) (h : ∀ c ∈ l, ¬c.1) : npPiecewise l x = 0 :=
  foldl_false x 0 l h

lemma np_at (l : List (Prop × (ℝ → ℝ))) (x : ℝ) (i : ℕ) (hi : i < l.length) (h : l[i].1)
    (hr : ∀ j (hj : j < l.length), i < j → ¬l[j].1) : npPiecewise l x = l[i].2 x := by
  have e : l = l.take i ++ l[i] :: l.drop (i + 1) := by
    rw [List.getElem_cons_drop, List.take_append_drop]
  have hd : ∀ c ∈ l.drop (i + 1), ¬c.1 := by
    intro c hc
    obtain ⟨j, hj, rfl⟩ := List.getElem_of_mem hc
    rw [List.getElem_drop]
    exact hr _ _ (by omega)
  unfold npPiecewise
  conv_lhs => rw [e]
  rw [List.foldl_append, List.foldl_cons, if_pos h, foldl_false x _ _ hd]

lemma getD_lt {xs : List ℝ} (hs : xs.Pairwise (· < ·)) {i j : ℕ} (hij : i < j) (hj : j < xs.length) :
    xs.getD i 0 < xs.getD j 0 := by
  have := List.pairwise_iff_getElem.mp hs i j (by omega) hj hij
  simpa [List.getD_eq_getElem?_getD, show i < xs.length by omega, hj] using this

lemma getD_le {xs : List ℝ} (hs : xs.Pairwise (· < ·)) {i j : ℕ} (hij : i ≤ j) (hj : j < xs.length) :
    xs.getD i 0 ≤ xs.getD j 0 := by
  rcases hij.eq_or_lt with rfl | h
  · exact le_rfl
  · exact (getD_lt hs h hj).le

/-- A well-formed piecewise function: what the constructor guarantees, at least one piece, increasing breakpoints. -/
structure PW.Ok (f : PW) : Prop where
  len : f.fns.length + 1 = f.xs.length
  pos : 0 < f.fns.length
  inc : f.xs.Pairwise (· < ·)

/-- The `i`-th breakpoint. -/
def PW.X (f : PW) (i : ℕ) : ℝ := f.xs.getD i 0

/-- The interval of piece `i`: closed for the first piece, left-open for the others. -/
def PW.In (f : PW) (i : ℕ) (x : ℝ) : Prop := (if i = 0 then f.X 0 ≤ x else f.X i < x) ∧ x ≤ f.X (i + 1)

lemma PW.Ok.lt {f : PW} (h : f.Ok) {i j : ℕ} (hij : i < j) (hj : j ≤ f.fns.length) : f.X i < f.X j :=
  getD_lt h.inc hij (by have := h.len; omega)

lemma PW.Ok.le {f : PW} (h : f.Ok) {i j : ℕ} (hij : i ≤ j) (hj : j ≤ f.fns.length) : f.X i ≤ f.X j :=
  getD_le h.inc hij (by have := h.len; omega)

lemma PW.In.lower {f : PW} {i : ℕ} {x : ℝ} (h : f.In i x) : f.X i ≤ x := by
  obtain ⟨h, _⟩ := h
  split_ifs at h with h0
  · rwa [h0]
  · exact h.le

/-! ## C20 -/

/-- C20: a piecewise function takes at every point the value of the piece whose interval contains it. -/
theorem piecewise_eval {f : PW} (hk : f.kind ≠ .constant) (h : f.Ok) {i : ℕ} (hi : i < f.fns.length) {x : ℝ}
    (hx : f.In i x) : f.evaluate x = .ok (f.fns[i].ev x) := by
  have hlen := h.len
  have hpos := h.pos
  have key : npPiecewise (f.fns.mapIdx fun i p =>
      ((if i = 0 then f.X 0 ≤ x ∧ x ≤ f.X 1 else f.X i < x ∧ x ≤ f.X (i + 1)), p.ev)) x = f.fns[i].ev x := by
    rw [np_at _ x i (by simpa using hi)]
    · simp
    · simp only [List.getElem_mapIdx]
      obtain ⟨h1, h3⟩ := hx
      split_ifs at h1 ⊢ with h0
      · subst h0; exact ⟨h1, h3⟩
      · exact ⟨h1, h3⟩
    · intro j hj hij hc
      simp only [List.getElem_mapIdx] at hc
      rw [if_neg (by omega)] at hc
      have := h.le (show i + 1 ≤ j by omega) (by simp at hj; omega)
      have h4 := hx.2
      linarith [hc.1]
  rw [evaluate_general hk (by omega)]
  exact congrArg Except.ok key

/-- C20: it vanishes outside of its domain. -/
theorem piecewise_eval_outside {f : PW} (h : f.Ok) {x : ℝ} (hx : x < f.X 0 ∨ f.X f.fns.length < x) :
    f.evaluate x = .ok 0 := by
  have hlen := h.len
  have hpos := h.pos
  have hb : ∀ i < f.fns.length, ¬(f.X i ≤ x ∧ x ≤ f.X (i + 1)) := by
    rintro i hi ⟨h1, h3⟩
    have := h.le (Nat.zero_le i) hi.le
    have := h.le (show i + 1 ≤ f.fns.length by omega) le_rfl
    rcases hx with hx | hx <;> linarith
  have key1 : npPiecewise (f.fns.mapIdx fun i p =>
      ((if i = 0 then f.X 0 ≤ x ∧ x ≤ f.X 1 else f.X i < x ∧ x ≤ f.X (i + 1)), p.ev)) x = 0 := by
    refine np_none _ _ fun c hc hcx => ?_
    obtain ⟨i, hi, rfl⟩ := List.getElem_of_mem hc
    simp only [List.getElem_mapIdx] at hcx
    simp only [List.length_mapIdx] at hi
    split_ifs at hcx with h0
    · subst h0; exact hb 0 hi hcx
    · exact hb i hi ⟨hcx.1.le, hcx.2⟩
  have key2 : npPiecewise (f.fns.mapIdx fun i p => ((f.X i < x ∧ x ≤ f.X (i + 1)), p.ev)) x = 0 := by
    refine np_none _ _ fun c hc hcx => ?_
    obtain ⟨i, hi, rfl⟩ := List.getElem_of_mem hc
    simp only [List.getElem_mapIdx] at hcx
    simp only [List.length_mapIdx] at hi
    exact hb i hi ⟨hcx.1.le, hcx.2⟩
  by_cases hk : f.kind = .constant
  · rw [evaluate_constant hk]; exact congrArg Except.ok key2
  · rw [evaluate_general hk (by omega)]; exact congrArg Except.ok key1

/-- C20: the intervals of the pieces partition the domain. -/
theorem piecewise_cover {f : PW} (h : f.Ok) {x : ℝ} (h0 : f.X 0 ≤ x) (h1 : x ≤ f.X f.fns.length) :
    ∃! i, i < f.fns.length ∧ f.In i x := by
  classical
  have ex : ∃ i, x ≤ f.X (i + 1) := ⟨f.fns.length - 1, by
    have := h.pos
    rwa [show f.fns.length - 1 + 1 = f.fns.length by omega]⟩
  refine ⟨Nat.find ex, ⟨?_, ?_, Nat.find_spec ex⟩, ?_⟩
  · have := Nat.find_min' ex (m := f.fns.length - 1) (by
      have := h.pos
      rwa [show f.fns.length - 1 + 1 = f.fns.length by omega])
    have := h.pos
    omega
  · split_ifs with hz
    · exact h0
    · have := Nat.find_min ex (m := Nat.find ex - 1) (by omega)
      rw [show Nat.find ex - 1 + 1 = Nat.find ex by omega] at this
      exact not_le.mp this
  · rintro j ⟨hj, hj1, hj2⟩
    have hle : Nat.find ex ≤ j := Nat.find_min' ex hj2
    by_contra hne
    have hlt : Nat.find ex < j := by omega
    rw [if_neg (by omega)] at hj1
    have := h.le (show Nat.find ex + 1 ≤ j by omega) hj.le
    have := Nat.find_spec ex
    linarith

/-- C20: the constant variant agrees with the general one except at the first breakpoint. -/
theorem constant_eval_partial {f : PW} (hk : f.kind = .constant) (h : f.Ok) {x : ℝ} (hx : x ≠ f.X 0) :
    f.evaluate x = PW.evaluate ⟨.general, f.xs, f.fns⟩ x := by
  have hlen := h.len
  have hpos := h.pos
  rw [evaluate_constant hk, evaluate_general (by simp) (by show 2 ≤ f.xs.length; omega)]
  congr 2
  refine List.ext_getElem (by simp) fun i h3 h4 => ?_
  simp only [List.getElem_mapIdx, Prod.mk.injEq, and_true]
  split_ifs with h0
  · subst h0
    apply propext
    constructor
    · exact fun hc => ⟨hc.1.le, hc.2⟩
    · exact fun hc => ⟨lt_of_le_of_ne hc.1 (Ne.symm hx), hc.2⟩
  · rfl

/-- C20 is violated for the constant variant: at the first breakpoint it evaluates to zero, not to the first value. -/
theorem constant_eval_violated {xs ys : List ℝ} {f : PW} (hf : mkConstant xs ys = .ok f) (hs : xs.Pairwise (· < ·))
    (hy : ys ≠ []) :
    f.evaluate (xs.getD 0 0) = .ok 0 ∧
      PW.evaluate ⟨.general, f.xs, f.fns⟩ (xs.getD 0 0) = .ok (ys.getD 0 0) := by
  unfold mkConstant mkPW at hf
  split_ifs at hf with hlen
  cases hf
  rw [not_not] at hlen
  have hpos : 0 < ys.length := List.length_pos_of_ne_nil hy
  have ok : PW.Ok ⟨.constant, xs, ys.map .const⟩ := ⟨hlen, by simpa using hpos, hs⟩
  have ok' : PW.Ok ⟨.general, xs, ys.map .const⟩ := ⟨hlen, by simpa using hpos, hs⟩
  constructor
  · rw [evaluate_constant rfl]
    refine congrArg Except.ok (np_none _ _ fun c hc hcx => ?_)
    obtain ⟨i, hi, rfl⟩ := List.getElem_of_mem hc
    simp only [List.getElem_mapIdx] at hcx
    have := ok.le (Nat.zero_le i) (by simp at hi ⊢; omega)
    exact absurd hcx.1 (not_lt.mpr this)
  · rw [piecewise_eval (by simp) ok' (i := 0) (by simpa using hpos)]
    · simp [Piece.ev, List.getD_eq_getElem?_getD, hpos]
    · exact ⟨by simp [PW.X], ok'.le (by omega) (by simpa using Nat.succ_le_of_lt hpos)⟩

/-- C20 is violated at integer arguments: interpolants raise `TypeError` there. -/
theorem evaluateInt_linear_violated :
    ∃ f : PW, fromPoints [0, 2] [0, 1] = .ok f ∧ f.evaluate 1 = .ok (1 / 2) ∧ f.evaluateInt 1 = .error .typeError := by
  refine ⟨⟨.linear, [0, 2], [.poly (.ofCoeffs [0, 1 / 2])]⟩, ?_, ?_, ?_⟩
  · simp [fromPoints, mkPW]
  · rw [evaluate_general (by simp) (by simp)]
    simp [npPiecewise, Piece.ev, LinPDE.Polys.eval_eq_sum, Poly.ofCoeffs, Finset.sum_range_succ]
  · have : (Poly.ofCoeffs [0, 2⁻¹] : Poly ℝ).evalInt 1 = .error .typeError :=
      LinPDE.Polys.evalInt_violated _ (by decide) 1
    simp [PW.evaluateInt, PW.indexable, PW.conds, Piece.evInt, this]

/-- C20 is violated at integer arguments: the values of piecewise constants are truncated. -/
theorem evaluateInt_constant_violated :
    ∃ f : PW, mkConstant [0, 1] [1 / 2] = .ok f ∧ f.evaluate 1 = .ok (1 / 2) ∧ f.evaluateInt 1 = .ok 0 := by
  refine ⟨⟨.constant, [0, 1], [.const (1 / 2)]⟩, ?_, ?_, ?_⟩
  · simp [mkConstant, mkPW]
  · rw [evaluate_constant rfl]
    simp [npPiecewise, Piece.ev]
  · have : LinPDE.Polys.truncTo (2⁻¹ : ℝ) = 0 := by
      unfold LinPDE.Polys.truncTo
      rw [if_pos (by norm_num), Int.floor_eq_iff]
      norm_num
    simp [PW.evaluateInt, PW.indexable, PW.conds, Piece.evInt, this]

lemma eval_lin (a b x : ℝ) : (Poly.ofCoeffs [a, b]).eval x = a + b * x := by
  simp [LinPDE.Polys.eval_eq_sum, Poly.ofCoeffs, Finset.sum_range_succ]

lemma fromPoints_spec {xs ys : List ℝ} (hlen : ys.length = xs.length) (h2 : 2 ≤ xs.length) (hs : xs.Pairwise (· < ·)) :
    ∃ f, fromPoints xs ys = .ok f ∧ f.kind = .linear ∧ f.xs = xs ∧ f.Ok ∧
      ∀ i (hi : i < f.fns.length) (x : ℝ), f.fns[i].ev x =
        ys.getD i 0 + (ys.getD (i + 1) 0 - ys.getD i 0) / (xs.getD (i + 1) 0 - xs.getD i 0) * (x - xs.getD i 0) := by
  have hl : (((xs.zip xs.tail).zip (ys.zip ys.tail)).map fun t => (Piece.poly (.ofCoeffs
      [t.2.1 - (t.2.2 - t.2.1) / (t.1.2 - t.1.1) * t.1.1, (t.2.2 - t.2.1) / (t.1.2 - t.1.1)]) : Piece)).length + 1 = xs.length := by
    simp; omega
  refine ⟨⟨.linear, xs, ((xs.zip xs.tail).zip (ys.zip ys.tail)).map fun t => (Piece.poly (.ofCoeffs
      [t.2.1 - (t.2.2 - t.2.1) / (t.1.2 - t.1.1) * t.1.1, (t.2.2 - t.2.1) / (t.1.2 - t.1.1)]))⟩, ?_, rfl, rfl, ⟨hl, ?_, hs⟩, ?_⟩
  · unfold fromPoints mkPW
    rw [if_neg (not_not.mpr hl)]
  · simp; omega
  · intro i hi x
    have hi' : i + 1 < xs.length := by
      simp at hi
      omega
    have hx : (xs.zip xs.tail).length = xs.length - 1 := by simp
    simp only [List.getElem_map, List.getElem_zip, List.getElem_tail, Piece.ev, eval_lin]
    simp only [List.getD_eq_getElem?_getD, hi', show i < xs.length by omega, show i < ys.length by omega,
      show i + 1 < ys.length by omega, List.getElem?_eq_getElem, Option.getD_some]
    ring

/-- C20: between neighbouring points the interpolant is the affine function through them. -/
theorem fromPoints_affine {xs ys : List ℝ} (hlen : ys.length = xs.length) (h2 : 2 ≤ xs.length)
    (hs : xs.Pairwise (· < ·)) :
    ∃ f, fromPoints xs ys = .ok f ∧ ∀ i, i + 1 < xs.length → ∀ x, xs.getD i 0 ≤ x → x ≤ xs.getD (i + 1) 0 →
      f.evaluate x = .ok (ys.getD i 0 +
        (ys.getD (i + 1) 0 - ys.getD i 0) / (xs.getD (i + 1) 0 - xs.getD i 0) * (x - xs.getD i 0)) := by
  obtain ⟨f, hf, hk, hx, ok, hev⟩ := fromPoints_spec hlen h2 hs
  refine ⟨f, hf, fun i hi x hl hr => ?_⟩
  have hfl := ok.len
  rw [hx] at hfl
  by_cases hin : f.In i x
  · rw [piecewise_eval (by rw [hk]; simp) ok (by omega) hin, hev]
  · have hi0 : i ≠ 0 := by
      rintro rfl
      exact hin ⟨by simpa [PW.X, hx] using hl, by simpa [PW.X, hx] using hr⟩
    have hxe : x = xs.getD i 0 := by
      by_contra hne
      refine hin ⟨?_, by simpa [PW.X, hx] using hr⟩
      rw [if_neg hi0]
      simpa [PW.X, hx] using lt_of_le_of_ne hl (Ne.symm hne)
    obtain ⟨j, rfl⟩ : ∃ j, i = j + 1 := ⟨i - 1, by omega⟩
    have hlt : xs.getD j 0 < xs.getD (j + 1) 0 := getD_lt hs (by omega) (by omega)
    have hin' : f.In j x := by
      refine ⟨?_, by simp [PW.X, hx, hxe]⟩
      split_ifs with h0
      · subst h0; simpa [PW.X, hx, hxe] using hlt.le
      · simpa [PW.X, hx, hxe] using hlt
    rw [piecewise_eval (by rw [hk]; simp) ok (by omega) hin', hev, hxe]
    congr 1
    have : xs.getD (j + 1) 0 - xs.getD j 0 ≠ 0 := by linarith
    rw [div_mul_cancel₀ _ this]
    ring

/-- C20: the interpolant passes through all the points. -/
theorem fromPoints_interpolates {xs ys : List ℝ} (hlen : ys.length = xs.length) (h2 : 2 ≤ xs.length)
    (hs : xs.Pairwise (· < ·)) :
    ∃ f, fromPoints xs ys = .ok f ∧ ∀ i < xs.length, f.evaluate (xs.getD i 0) = .ok (ys.getD i 0) := by
  obtain ⟨f, hf, h⟩ := fromPoints_affine hlen h2 hs
  refine ⟨f, hf, fun i hi => ?_⟩
  by_cases h1 : i + 1 < xs.length
  · rw [h i h1 _ le_rfl (getD_le hs (by omega) h1)]
    simp
  · obtain ⟨j, rfl⟩ : ∃ j, i = j + 1 := ⟨i - 1, by omega⟩
    have hlt : xs.getD j 0 < xs.getD (j + 1) 0 := getD_lt hs (by omega) hi
    rw [h j hi _ hlt.le le_rfl]
    have : xs.getD (j + 1) 0 - xs.getD j 0 ≠ 0 := by linarith
    rw [div_mul_cancel₀ _ this]
    simp

/-- C20: construction fails exactly when the number of values does not allow one piece per interval. -/
theorem fromPoints_error_iff (xs ys : List ℝ) :
    (∃ e, fromPoints xs ys = .error e) ↔ xs = [] ∨ ys.length < xs.length ∧ xs.length ≠ 1 := by
  unfold fromPoints mkPW
  constructor
  · rintro ⟨e, h⟩
    split_ifs at h with hl
    simp only [List.length_map, List.length_zip, List.length_tail] at hl
    by_cases hx : xs = []
    · exact Or.inl hx
    · have := List.length_pos_of_ne_nil hx
      exact Or.inr ⟨by omega, by omega⟩
  · intro h
    refine ⟨.valueError, if_pos ?_⟩
    simp only [List.length_map, List.length_zip, List.length_tail]
    rcases h with rfl | ⟨h1, h2⟩
    · simp
    · by_cases hx : xs = []
      · subst hx; simp
      · have := List.length_pos_of_ne_nil hx
        omega

/-! ## C55 -/

lemma ev_smul (c : ℝ) (p : Piece) (x : ℝ) : (p.smul c).ev x = c * p.ev x := by
  cases p with
  | poly p => simp [Piece.smul, Piece.ev, LinPDE.Polys.eval_eq_toPoly_eval, LinPDE.Polys.toPoly_smul]
  | const v => rfl
  | fn f => rfl

lemma ev_addPoly (q : Poly ℝ) (p : Piece) (x : ℝ) : (p.addPoly q).ev x = p.ev x + q.eval x := by
  cases p with
  | poly p => simp [Piece.addPoly, Piece.ev, LinPDE.Polys.eval_eq_toPoly_eval, LinPDE.Polys.toPoly_add]
  | const v =>
    simp [Piece.addPoly, Piece.ev, LinPDE.Polys.eval_eq_toPoly_eval, LinPDE.Polys.toPoly_addConst]
    ring
  | fn f => rfl

lemma ev_addConst (v : ℝ) (p : Piece) (x : ℝ) : (p.addConst v).ev x = p.ev x + v := by
  cases p with
  | poly p => simp [Piece.addConst, Piece.ev, LinPDE.Polys.eval_eq_toPoly_eval, LinPDE.Polys.toPoly_addConst]
  | const w => rfl
  | fn f => rfl

/-- Evaluation after transforming all the pieces. -/
lemma eval_map {f : PW} (h : f.Ok) {k : Kind} (hk : f.kind ≠ .constant) (hk' : k ≠ .constant) (T : Piece → Piece)
    {g : PW} (hg : mkPW k f.xs (f.fns.map T) = .ok g) :
    (∀ x, f.X 0 ≤ x → x ≤ f.X f.fns.length → ∃ p : Piece,
      f.evaluate x = .ok (p.ev x) ∧ g.evaluate x = .ok ((T p).ev x)) ∧
    ∀ x, x < f.X 0 ∨ f.X f.fns.length < x → g.evaluate x = .ok 0 := by
  have hlen := h.len
  unfold mkPW at hg
  rw [if_neg (by simpa using hlen)] at hg
  cases hg
  have hok : PW.Ok ⟨k, f.xs, f.fns.map T⟩ := ⟨by simpa using hlen, by simpa using h.pos, h.inc⟩
  refine ⟨fun x h0 h1 => ?_, fun x hx => ?_⟩
  · obtain ⟨i, ⟨hi, hin⟩, _⟩ := piecewise_cover h h0 h1
    refine ⟨f.fns[i], piecewise_eval hk h hi hin, ?_⟩
    rw [piecewise_eval hk' hok (i := i) (by simpa using hi) hin]
    simp
  · exact piecewise_eval_outside hok (by simpa [PW.X] using hx)

lemma mkPW_map {f : PW} (h : f.Ok) (k : Kind) (T : Piece → Piece) : ∃ g, mkPW k f.xs (f.fns.map T) = .ok g := by
  unfold mkPW
  rw [if_neg (by simpa using h.len)]
  exact ⟨_, rfl⟩

/-- C55: a number times a piecewise function is the pointwise multiple (the constant variant excepted). -/
theorem smul_eval {f : PW} (h : f.Ok) (hk : f.kind ≠ .constant) (c : ℝ) :
    ∃ g, f.smul c = .ok g ∧ ∀ x, ∃ y, f.evaluate x = .ok y ∧ g.evaluate x = .ok (c * y) := by
  obtain ⟨g, hg⟩ := mkPW_map h (if f.kind = .linear then .linear else .general) (Piece.smul c)
  refine ⟨g, hg, fun x => ?_⟩
  obtain ⟨h1, h2⟩ := eval_map h hk (by split_ifs <;> simp) _ hg
  by_cases hx : f.X 0 ≤ x ∧ x ≤ f.X f.fns.length
  · obtain ⟨p, e1, e2⟩ := h1 x hx.1 hx.2
    exact ⟨_, e1, by rw [e2, ev_smul]⟩
  · have hx : x < f.X 0 ∨ f.X f.fns.length < x := by
      rw [not_and_or, not_le, not_le] at hx; exact hx
    exact ⟨0, piecewise_eval_outside h hx, by rw [h2 x hx, mul_zero]⟩

/-- C55: a piecewise linear function plus a polynomial or a constant is the pointwise sum on the domain. -/
theorem add_eval_partial {f : PW} (h : f.Ok) (hk : f.kind = .linear) (q : Poly ℝ) (v : ℝ) :
    ∃ g g', f.addPoly q = .ok g ∧ f.addConst v = .ok g' ∧ ∀ x, f.X 0 ≤ x → x ≤ f.X f.fns.length →
      ∃ y, f.evaluate x = .ok y ∧ g.evaluate x = .ok (y + q.eval x) ∧
        g'.evaluate x = .ok (y + v) := by
  obtain ⟨g, hg⟩ := mkPW_map h (if q.degree = 1 then .linear else .general) (Piece.addPoly q)
  obtain ⟨g', hg'⟩ := mkPW_map h .linear (Piece.addConst v)
  have hkc : f.kind ≠ .constant := by rw [hk]; simp
  refine ⟨g, g', hg, hg', fun x h0 h1 => ?_⟩
  obtain ⟨p, e1, e2⟩ := (eval_map h hkc (by split_ifs <;> simp) _ hg).1 x h0 h1
  obtain ⟨p', e1', e2'⟩ := (eval_map h hkc (by simp) _ hg').1 x h0 h1
  have : p.ev x = p'.ev x := by
    have := e1.symm.trans e1'
    exact Except.ok.inj this
  exact ⟨_, e1, by rw [e2, ev_addPoly], by rw [e2', ev_addConst, this]⟩

/-- C55 is violated outside of the domain: the sum vanishes there although the added constant does not. -/
theorem add_eval_violated {f : PW} (h : f.Ok) (hk : f.kind = .linear) {v : ℝ} (hv : v ≠ 0) {x : ℝ}
    (hx : x < f.X 0 ∨ f.X f.fns.length < x) :
    ∃ g, f.addConst v = .ok g ∧ ∃ y, f.evaluate x = .ok y ∧ g.evaluate x ≠ .ok (y + v) := by
  obtain ⟨g, hg⟩ := mkPW_map h .linear (Piece.addConst v)
  refine ⟨g, hg, 0, piecewise_eval_outside h hx, ?_⟩
  rw [(eval_map h (by rw [hk]; simp) (by simp) _ hg).2 x hx, zero_add]
  exact fun e => hv (Except.ok.inj e).symm

/-- C55 is violated for piecewise constants at the first breakpoint: multiplication by one changes the value there. -/
theorem smul_constant_violated {xs ys : List ℝ} {f : PW} (hf : mkConstant xs ys = .ok f) (hs : xs.Pairwise (· < ·))
    (hy : ys.getD 0 0 ≠ 0) :
    ∃ g, f.smul 1 = .ok g ∧ f.evaluate (xs.getD 0 0) = .ok 0 ∧
      g.evaluate (xs.getD 0 0) = .ok (ys.getD 0 0) := by
  have hne : ys ≠ [] := by rintro rfl; simp at hy
  obtain ⟨h1, h2⟩ := constant_eval_violated hf hs hne
  have hf' := hf
  unfold mkConstant mkPW at hf'
  split_ifs at hf' with hlen
  rw [not_not] at hlen
  have hok : PW.Ok ⟨.general, xs, ys.map .const⟩ := ⟨hlen, by simpa using List.length_pos_of_ne_nil hne, hs⟩
  obtain ⟨g, hg, hge⟩ := smul_eval hok (by simp) 1
  obtain rfl : ⟨.constant, xs, ys.map .const⟩ = f := Except.ok.inj hf'
  refine ⟨g, hg, h1, ?_⟩
  obtain ⟨y, e1, e2⟩ := hge (xs.getD 0 0)
  rw [e2, one_mul]
  exact e1.symm.trans h2

/-! ## Non-vacuity -/

/-- A function with three pieces of different kinds. -/
noncomputable def exF : PW := ⟨.general, [0, 1, 2, 4], [.const 3, .poly (.ofCoeffs [0, 1]), .fn Real.sqrt]⟩

lemma exF_ok : exF.Ok := ⟨rfl, by simp [exF], by simp [exF]; norm_num⟩

/-- At the breakpoint 1 the first piece applies. -/
example : exF.evaluate 1 = .ok 3 :=
  piecewise_eval (by simp [exF]) exF_ok (i := 0) (by simp [exF]) ⟨by simp [PW.X, exF], by simp [PW.X, exF]⟩

example : exF.evaluate 5 = .ok 0 := piecewise_eval_outside exF_ok (Or.inr (by simp [PW.X, exF]; norm_num))

example : ∃ f, fromPoints [0, 1, 3] [2, 5, 1] = .ok f ∧ f.evaluate 2 = .ok 3 := by
  obtain ⟨f, hf, h⟩ := fromPoints_affine (xs := [0, 1, 3]) (ys := [2, 5, 1]) rfl (by simp) (by simp)
  refine ⟨f, hf, ?_⟩
  rw [h 1 (by simp) 2 (by simp) (by simp; norm_num)]
  simp; norm_num

example : ∃ f, mkConstant [0, 1] [7] = .ok f ∧ f.evaluate 0 = .ok 0 :=
  ⟨_, rfl, (constant_eval_violated (xs := [0, 1]) (ys := [7]) rfl (by simp) (by simp)).1⟩

end LinPDE.Piecewise
