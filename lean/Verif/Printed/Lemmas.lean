import Verif.Printed.Model
import Verif.Poly.Props
import Verif.Op.Lemmas
import Mathlib.Data.Nat.Digits.Lemmas
import Mathlib.Data.Rat.Lemmas
import Mathlib.Algebra.Polynomial.Roots

/-! Helper lemmas about printed forms. -/

namespace LinPDE.Printed
open LinPDE.Polys LinPDE.Coeff LinPDE.Ops LinPDE.Nd

/-! ### Splitting -/

section
variable {α : Type} [DecidableEq α]

/-- Splitting a list at a separator. -/
def spl (s : α) : List α → List (List α)
  | [] => [[]]
  | c :: cs => if c = s then [] :: spl s cs else ((c :: (spl s cs).headD []) :: (spl s cs).tail)

lemma spl_ne (s : α) (l : List α) : spl s l ≠ [] := by cases l <;> simp [spl] <;> split <;> simp

lemma spl_of_notMem {s : α} : ∀ {l : List α}, s ∉ l → spl s l = [l]
  | [], _ => rfl
  | c :: cs, h => by
    rw [List.mem_cons, not_or] at h
    rw [spl, if_neg (Ne.symm h.1), spl_of_notMem h.2]
    rfl

lemma spl_append (s : α) : ∀ a b : List α, spl s (a ++ s :: b) = spl s a ++ spl s b
  | [], b => by simp [spl]
  | c :: cs, b => by
    have h := spl_append s cs b
    have hne := spl_ne s cs
    rw [List.cons_append, spl, spl, h]
    split
    · rfl
    · cases hs : spl s cs with
      | nil => exact absurd hs hne
      | cons w ws => simp

/-- one word -/
lemma spl_word {s : α} {a : List α} (h : s ∉ a) (b : List α) : spl s (a ++ s :: b) = a :: spl s b := by
  rw [spl_append, spl_of_notMem h]; rfl

end

lemma spl_join : ∀ {ws : List Str}, ws ≠ [] → (∀ w ∈ ws, ' ' ∉ w) → spl ' ' (join [' '] ws) = ws
  | [], h, _ => absurd rfl h
  | [w], _, h => spl_of_notMem (h w (List.mem_singleton_self w))
  | w :: v :: ws, _, h => by
    have e : join [' '] (w :: v :: ws) = w ++ ' ' :: join [' '] (v :: ws) := by simp [join]
    rw [e, spl_word (h w List.mem_cons_self), spl_join (by simp) fun u hu => h u (List.mem_cons_of_mem _ hu)]

/-! ### Numbers -/

lemma digitChar_lt {d : ℕ} (h : d < 10) : Nat.digitChar d ∈ ['0', '1', '2', '3', '4', '5', '6', '7', '8', '9'] := by
  interval_cases d <;> decide

lemma digitChar_inj {d e : ℕ} (hd : d < 10) (he : e < 10) (h : Nat.digitChar d = Nat.digitChar e) : d = e := by
  interval_cases d <;> interval_cases e <;> first | rfl | (exact absurd h (by decide))

/-- decimal digits -/
abbrev Digits : List Char := ['0', '1', '2', '3', '4', '5', '6', '7', '8', '9']

lemma mem_natStr {n : ℕ} {c : Char} (h : c ∈ natStr n) : c ∈ Digits := by
  rw [natStr] at h
  split_ifs at h with h0
  · rw [List.mem_singleton] at h
    rw [h]; decide
  · obtain ⟨d, hd, rfl⟩ := List.mem_map.mp h
    exact digitChar_lt (Nat.digits_lt_base (by norm_num) (List.mem_reverse.mp hd))

lemma natStr_ne (n : ℕ) : natStr n ≠ [] := by
  rw [natStr]
  split_ifs with h0
  · simp
  · simpa [Nat.digits_ne_nil_iff_ne_zero] using h0

lemma map_digit_inj : ∀ {l m : List ℕ}, (∀ d ∈ l, d < 10) → (∀ d ∈ m, d < 10) → l.map Nat.digitChar = m.map Nat.digitChar → l = m
  | [], [], _, _, _ => rfl
  | [], _ :: _, _, _, h => by simp at h
  | _ :: _, [], _, _, h => by simp at h
  | a :: l, b :: m, hl, hm, h => by
    rw [List.map_cons, List.map_cons, List.cons.injEq] at h
    rw [digitChar_inj (hl a List.mem_cons_self) (hm b List.mem_cons_self) h.1,
      map_digit_inj (fun d hd => hl d (List.mem_cons_of_mem _ hd)) (fun d hd => hm d (List.mem_cons_of_mem _ hd)) h.2]

lemma digits_map_ne_zero {n : ℕ} (h : n ≠ 0) : (Nat.digits 10 n).reverse.map Nat.digitChar ≠ ['0'] := by
  intro he
  have h1 : (Nat.digits 10 n).reverse.map Nat.digitChar = [0].map Nat.digitChar := by rw [he]; decide
  have h2 := map_digit_inj (fun d hd => Nat.digits_lt_base (by norm_num) (List.mem_reverse.mp hd)) (by simp) h1
  have h3 : Nat.digits 10 n = [0] := by rw [← List.reverse_reverse (Nat.digits 10 n), h2]; rfl
  have h4 := Nat.ofDigits_digits 10 n
  rw [h3] at h4
  exact h (by simpa using h4.symm)

lemma natStr_inj {m n : ℕ} (h : natStr m = natStr n) : m = n := by
  rw [natStr, natStr] at h
  split_ifs at h with h0 h1 h1
  · rw [h0, h1]
  · exact absurd h.symm (digits_map_ne_zero h1)
  · exact absurd h (digits_map_ne_zero h0)
  · have h2 := map_digit_inj (fun d hd => Nat.digits_lt_base (by norm_num) (List.mem_reverse.mp hd))
      (fun d hd => Nat.digits_lt_base (by norm_num) (List.mem_reverse.mp hd)) h
    exact Nat.digits_inj_iff.mp (List.reverse_injective h2)

lemma mem_intStr {z : ℤ} {c : Char} (h : c ∈ intStr z) : c ∈ '-' :: Digits := by
  rw [intStr] at h
  split_ifs at h
  · rcases List.mem_cons.mp h with rfl | h
    · exact List.mem_cons_self
    · exact List.mem_cons_of_mem _ (mem_natStr h)
  · exact List.mem_cons_of_mem _ (mem_natStr h)

lemma natStr_head {n : ℕ} {s : Str} : natStr n ≠ '-' :: s := by
  intro h
  have : '-' ∈ natStr n := by rw [h]; exact List.mem_cons_self
  exact absurd (mem_natStr this) (by decide)

lemma intStr_inj {y z : ℤ} (h : intStr y = intStr z) : y = z := by
  rw [intStr, intStr] at h
  split_ifs at h with h0 h1 h1
  · have := natStr_inj (List.cons.inj h).2
    omega
  · exact absurd h.symm natStr_head
  · exact absurd h natStr_head
  · have := natStr_inj h
    omega

lemma mem_fracStr {q : ℚ} {c : Char} (h : c ∈ fracStr q) : c ∈ '/' :: '-' :: Digits := by
  rw [fracStr] at h
  split_ifs at h
  · exact List.mem_cons_of_mem _ (mem_intStr h)
  · rcases List.mem_append.mp h with h | h
    · exact List.mem_cons_of_mem _ (mem_intStr h)
    · rcases List.mem_cons.mp h with rfl | h
      · exact List.mem_cons_self
      · exact List.mem_cons_of_mem _ (List.mem_cons_of_mem _ (mem_natStr h))

lemma slash_intStr (z : ℤ) : '/' ∉ intStr z := fun h => absurd (mem_intStr h) (by decide)

lemma fracStr_inj {p q : ℚ} (h : fracStr p = fracStr q) : p = q := by
  have e : ∀ r : ℚ, spl '/' (fracStr r) = if r.den = 1 then [intStr r.num] else [intStr r.num, natStr r.den] := by
    intro r
    rw [fracStr]
    split_ifs
    · exact spl_of_notMem (slash_intStr _)
    · rw [spl_word (slash_intStr _), spl_of_notMem fun h => absurd (mem_natStr h) (by decide)]
  have h1 := congrArg (spl '/') h
  rw [e, e] at h1
  split_ifs at h1 with h2 h3 h3
  · exact Rat.ext (intStr_inj (by simpa using h1)) (h2.trans h3.symm)
  · simp at h1
  · simp at h1
  · simp only [List.cons.injEq, and_true] at h1
    exact Rat.ext (intStr_inj h1.1) (natStr_inj h1.2)

lemma intStr_ne (z : ℤ) : intStr z ≠ [] ∧ intStr z ≠ ['-'] := by
  rw [intStr]
  split_ifs
  · exact ⟨by simp, by simpa using natStr_ne _⟩
  · exact ⟨natStr_ne _, natStr_head⟩

lemma fracStr_ne_sign (q : ℚ) : fracStr q ≠ ['+'] ∧ fracStr q ≠ ['-'] := by
  constructor
  · intro h
    have : '+' ∈ fracStr q := by rw [h]; exact List.mem_cons_self
    exact absurd (mem_fracStr this) (by decide)
  · rw [fracStr]
    split_ifs
    · exact (intStr_ne _).2
    · intro h
      have h1 := (intStr_ne q.num).1
      cases h2 : intStr q.num with
      | nil => exact h1 h2
      | cons a l => rw [h2] at h; simp at h

lemma fracStr_zero : fracStr 0 = ['0'] := by simp [fracStr, intStr, natStr]

/-! ### Terms of rational polynomials -/

/-- The words of a term. -/
def words (t : ℚ × ℕ) : List Str :=
  if t.2 = 0 then [fracStr t.1]
  else (if 0 < t.1 then ['+'] else ['-']) :: ((if |t.1| ≠ 1 then [fracStr |t.1|] else []) ++ ['x' :: '^' :: natStr t.2])

lemma words_ne (t : ℚ × ℕ) : words t ≠ [] := by rw [words]; split_ifs <;> simp

lemma space_natStr (n : ℕ) : ' ' ∉ natStr n := fun h => absurd (mem_natStr h) (by decide)
lemma space_fracStr (q : ℚ) : ' ' ∉ fracStr q := fun h => absurd (mem_fracStr h) (by decide)

lemma space_words (t : ℚ × ℕ) : ∀ w ∈ words t, ' ' ∉ w := by
  intro w hw
  rw [words] at hw
  have hx : ' ' ∉ 'x' :: '^' :: natStr t.2 := by simpa using space_natStr t.2
  split_ifs at hw <;> simp only [List.mem_cons, List.mem_append, List.not_mem_nil, or_false, false_or] at hw
  · rw [hw]; exact space_fracStr _
  all_goals rcases hw with rfl | rfl | rfl <;> first | exact hx | exact space_fracStr _ | decide

lemma spl_term (k : ℕ) (c : ℚ) : spl ' ' (termStr k c) = words (c, k) := by
  have hx : spl ' ' ('x' :: '^' :: natStr k) = ['x' :: '^' :: natStr k] := spl_of_notMem (by simpa using space_natStr k)
  rw [termStr, words]
  dsimp only
  by_cases hk : k = 0
  · rw [if_pos hk, if_pos hk, spl_of_notMem (space_fracStr c)]
  rw [if_neg hk, if_neg hk]
  have hs : ∀ b, spl ' ' ((if 0 < c then ['+'] else ['-']) ++ ' ' :: b) = (if 0 < c then ['+'] else ['-']) :: spl ' ' b :=
    fun b => spl_word (by split_ifs <;> decide) b
  by_cases h1 : |c| ≠ 1
  · rw [if_pos h1, if_pos h1]
    have e : (if 0 < c then ['+'] else ['-']) ++ ' ' :: fracStr |c| ++ ([' ', 'x', '^'] ++ natStr k) =
        (if 0 < c then ['+'] else ['-']) ++ ' ' :: (fracStr |c| ++ ' ' :: ('x' :: '^' :: natStr k)) := by simp
    rw [e, hs, spl_word (space_fracStr _), hx]
    rfl
  · rw [if_neg h1, if_neg h1]
    have e : (if 0 < c then ['+'] else ['-']) ++ [] ++ ([' ', 'x', '^'] ++ natStr k) =
        (if 0 < c then ['+'] else ['-']) ++ ' ' :: ('x' :: '^' :: natStr k) := by simp
    rw [e, hs, hx]
    rfl

lemma spl_terms : ∀ {ts : List (ℚ × ℕ)}, ts ≠ [] → spl ' ' (join [' '] (ts.map fun t => termStr t.2 t.1)) = ts.flatMap words
  | [], h => absurd rfl h
  | [t], _ => by simpa [join] using spl_term t.2 t.1
  | t :: u :: ts, _ => by
    have e : join [' '] ((t :: u :: ts).map fun t => termStr t.2 t.1) =
        termStr t.2 t.1 ++ ' ' :: join [' '] ((u :: ts).map fun t => termStr t.2 t.1) := by simp [join]
    rw [e, spl_append, spl_term, spl_terms (by simp)]
    simp [List.flatMap_cons]

lemma frac_ne_x (q : ℚ) (s : Str) : fracStr q ≠ 'x' :: s := by
  intro h
  have : 'x' ∈ fracStr q := by rw [h]; exact List.mem_cons_self
  exact absurd (mem_fracStr this) (by decide)

lemma words_inj {t u : ℚ × ℕ} (ht : t.1 ≠ 0) (hu : u.1 ≠ 0) {r s : List Str} (h : words t ++ r = words u ++ s) : t = u ∧ r = s := by
  obtain ⟨c, k⟩ := t
  obtain ⟨d, l⟩ := u
  simp only [words] at h ht hu
  by_cases hk : k = 0 <;> by_cases hl : l = 0
  · simp only [hk, hl, if_true, List.cons_append, List.nil_append, List.cons.injEq] at h
    exact ⟨by rw [fracStr_inj h.1, hk, hl], h.2⟩
  · simp only [hk, hl, if_true, if_false, List.cons_append, List.cons.injEq] at h
    split_ifs at h
    · exact absurd h.1 (fracStr_ne_sign c).1
    · exact absurd h.1 (fracStr_ne_sign c).1
    · exact absurd h.1 (fracStr_ne_sign c).2
    · exact absurd h.1 (fracStr_ne_sign c).2
  · simp only [hk, hl, if_true, if_false, List.cons_append, List.cons.injEq] at h
    split_ifs at h
    · exact absurd h.1.symm (fracStr_ne_sign d).1
    · exact absurd h.1.symm (fracStr_ne_sign d).1
    · exact absurd h.1.symm (fracStr_ne_sign d).2
    · exact absurd h.1.symm (fracStr_ne_sign d).2
  · simp only [hk, hl, if_false, List.cons_append, List.cons.injEq, List.append_assoc, List.nil_append] at h
    obtain ⟨hs, h⟩ := h
    have hsign : 0 < c ↔ 0 < d := by
      by_cases h1 : 0 < c <;> by_cases h2 : 0 < d <;> simp [h1, h2] at hs ⊢
    have key : |c| = |d| ∧ k = l ∧ r = s := by
      by_cases h1 : |c| ≠ 1 <;> by_cases h2 : |d| ≠ 1
      · simp only [h1, h2, ne_eq, not_false_eq_true, if_true, List.cons_append, List.nil_append, List.cons.injEq] at h
        exact ⟨fracStr_inj h.1, natStr_inj h.2.1.2.2, h.2.2⟩
      · rw [if_pos h1, if_neg h2] at h
        simp only [List.cons_append, List.nil_append, List.cons.injEq] at h
        exact absurd h.1 (frac_ne_x _ _)
      · rw [if_neg h1, if_pos h2] at h
        simp only [List.cons_append, List.nil_append, List.cons.injEq] at h
        exact absurd h.1.symm (frac_ne_x _ _)
      · rw [if_neg h1, if_neg h2] at h
        simp only [List.nil_append, List.cons.injEq] at h
        exact ⟨(not_not.mp h1).trans (not_not.mp h2).symm, natStr_inj h.1.2.2, h.2⟩
    refine ⟨?_, key.2.2⟩
    have hc : c = d := by
      rcases lt_or_gt_of_ne ht with h1 | h1 <;> rcases lt_or_gt_of_ne hu with h2 | h2
      · have := key.1; rw [abs_of_neg h1, abs_of_neg h2] at this; linarith
      · exact absurd (hsign.mpr h2) (by linarith)
      · exact absurd (hsign.mp h1) (by linarith)
      · have := key.1; rw [abs_of_pos h1, abs_of_pos h2] at this; exact this
    rw [hc, key.2.1]

lemma flatMap_words_inj : ∀ {ts us : List (ℚ × ℕ)}, (∀ t ∈ ts, t.1 ≠ 0) → (∀ u ∈ us, u.1 ≠ 0) →
    ts.flatMap words = us.flatMap words → ts = us
  | [], [], _, _, _ => rfl
  | [], u :: us, _, _, h => by
    rw [List.flatMap_nil, List.flatMap_cons] at h
    exact absurd (List.append_eq_nil_iff.mp h.symm).1 (words_ne u)
  | t :: ts, [], _, _, h => by
    rw [List.flatMap_nil, List.flatMap_cons] at h
    exact absurd (List.append_eq_nil_iff.mp h).1 (words_ne t)
  | t :: ts, u :: us, ht, hu, h => by
    rw [List.flatMap_cons, List.flatMap_cons] at h
    obtain ⟨h1, h2⟩ := words_inj (ht t List.mem_cons_self) (hu u List.mem_cons_self) h
    rw [h1, flatMap_words_inj (fun v hv => ht v (List.mem_cons_of_mem _ hv)) (fun v hv => hu v (List.mem_cons_of_mem _ hv)) h2]

/-- the terms of a polynomial -/
lemma terms_eq_iff : ∀ (p q : List ℚ) (n : ℕ), ((p.zipIdx n).filter fun t => t.1 ≠ 0) = ((q.zipIdx n).filter fun t => t.1 ≠ 0) ↔
    ∀ k, p.getD k 0 = q.getD k 0 := by
  have hz : ∀ (p : List ℚ) (n : ℕ), ((p.zipIdx n).filter fun t => t.1 ≠ 0) = [] ↔ ∀ k, p.getD k 0 = 0 := by
    intro p
    induction p with
    | nil => simp
    | cons a p ih =>
      intro n
      rw [List.zipIdx_cons, List.filter_cons]
      by_cases h : a = 0
      · simp only [h, ne_eq, not_true, decide_false, Bool.false_eq_true, if_false]
        rw [ih (n + 1)]
        constructor
        · rintro h1 (_ | k)
          · rfl
          · exact h1 k
        · exact fun h1 k => h1 (k + 1)
      · simp only [h, ne_eq, not_false_eq_true, decide_true, if_true]
        constructor
        · intro h1; simp at h1
        · intro h1; exact absurd (h1 0) h
  have hm : ∀ (p : List ℚ) (n : ℕ), ∀ t ∈ ((p.zipIdx n).filter fun t => t.1 ≠ 0), n ≤ t.2 := by
    intro p n t ht
    exact List.le_snd_of_mem_zipIdx (List.mem_filter.mp ht).1
  intro p
  induction p with
  | nil =>
    intro q n
    rw [List.zipIdx_nil, List.filter_nil, eq_comm, hz]
    constructor
    · intro h k; rw [h]; simp
    · intro h k; rw [← h]; simp
  | cons a p ih =>
    intro q n
    cases q with
    | nil =>
      rw [List.zipIdx_nil, List.filter_nil, hz]
      constructor
      · intro h k; rw [h]; simp
      · intro h k; rw [h]; simp
    | cons b q =>
      rw [List.zipIdx_cons, List.zipIdx_cons, List.filter_cons, List.filter_cons]
      have hsplit : (∀ k, (a :: p).getD k 0 = (b :: q).getD k 0) ↔ a = b ∧ ∀ k, p.getD k 0 = q.getD k 0 := by
        constructor
        · exact fun h => ⟨h 0, fun k => h (k + 1)⟩
        · rintro ⟨h1, h2⟩ (_ | k)
          · exact h1
          · exact h2 k
      rw [hsplit, ← ih q (n + 1)]
      by_cases ha : a = 0 <;> by_cases hb : b = 0
      · simp [ha, hb]
      · simp only [ha, hb, ne_eq, not_true, not_false_eq_true, decide_false, decide_true, Bool.false_eq_true, if_false, if_true]
        constructor
        · intro h
          have := hm p (n + 1) (b, n) (by simp only [ne_eq]; rw [h]; exact List.mem_cons_self)
          simp at this
        · exact fun h => absurd h.1.symm hb
      · simp only [ha, hb, ne_eq, not_true, not_false_eq_true, decide_false, decide_true, Bool.false_eq_true, if_false, if_true]
        constructor
        · intro h
          have := hm q (n + 1) (a, n) (by simp only [ne_eq]; rw [← h]; exact List.mem_cons_self)
          simp at this
        · exact fun h => h.1.elim
      · simp [ha, hb]

end LinPDE.Printed
