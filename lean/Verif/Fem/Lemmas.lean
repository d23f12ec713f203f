import Verif.Fem.Model
import Mathlib.Tactic.FieldSimp
import Mathlib.Tactic.Linarith
import Mathlib.Tactic.Ring
import Mathlib.Tactic.Positivity

/-! # Lemmas on the finite element basis -/

namespace LinPDE.Fem
namespace Basis

/-- Grid point `i` (with sentinels). -/
def g (b : Basis) (i : ℕ) : ℝ := b.grid.getD i 0

/-- Component `i` of the evaluation. -/
noncomputable def phi (b : Basis) (i : ℕ) (x : ℝ) : ℝ := (b.evaluate x).getD i 0

/-- A basis as constructed from a strictly increasing grid. -/
structure Good (b : Basis) : Prop where
  size : 3 ≤ b.grid.length
  size' : b.zeroBoundary = false → 5 ≤ b.grid.length
  incr : ∀ i, i + 1 < b.grid.length → b.g i < b.g (i + 1)

lemma Good.lt {b : Basis} (h : b.Good) {i j : ℕ} (hij : i < j) (hj : j < b.grid.length) : b.g i < b.g j := by
  induction j with
  | zero => omega
  | succ j ih =>
    rcases Nat.lt_succ_iff_lt_or_eq.mp hij with h1 | rfl
    · exact (ih h1 (by omega)).trans (h.incr j hj)
    · exact h.incr i hj

lemma Good.le {b : Basis} (h : b.Good) {i j : ℕ} (hij : i ≤ j) (hj : j < b.grid.length) : b.g i ≤ b.g j := by
  rcases hij.lt_or_eq with h1 | rfl
  · exact (h.lt h1 hj).le
  · exact le_rfl

variable {b : Basis}

lemma getD_take' {l : List ℝ} {n i : ℕ} (h : i < n) : (l.take n).getD i 0 = l.getD i 0 := by
  simp [List.getD_eq_getElem?_getD, h]

lemma getD_drop' {l : List ℝ} {n i : ℕ} : (l.drop n).getD i 0 = l.getD (n + i) 0 := by
  simp [List.getD_eq_getElem?_getD]

lemma getD_zipWith' {l m : List ℝ} {f : ℝ → ℝ → ℝ} {i : ℕ} (h : i < l.length) (h' : i < m.length) :
    (List.zipWith f l m).getD i 0 = f (l.getD i 0) (m.getD i 0) := by
  simp [List.getD_eq_getElem?_getD, h, h']

lemma len_lt {i : ℕ} (hi : i < b.len) : i + 2 < b.grid.length := by unfold len at hi; omega

lemma xim1_getD {i : ℕ} (hi : i < b.len) : b.xim1.getD i 0 = b.g i := getD_take' hi

lemma xi_getD {i : ℕ} (hi : i < b.len) : b.xi.getD i 0 = b.g (i + 1) := by
  have := len_lt hi
  unfold xi g
  rw [getD_drop', getD_take' (by omega), add_comm]

lemma xip1_getD (i : ℕ) : b.xip1.getD i 0 = b.g (i + 2) := by
  unfold xip1 g
  rw [getD_drop', add_comm]

lemma xim1_length : b.xim1.length = b.len := by simp [xim1, len]
lemma xi_length : b.xi.length = b.len := by simp [xi, len]; omega
lemma xip1_length : b.xip1.length = b.len := by simp [xip1, len]

lemma leftFactors_getD {i : ℕ} (hi : i < b.len) : b.leftFactors.getD i 0 = 1 / (b.g (i + 1) - b.g i) := by
  unfold leftFactors
  rw [getD_zipWith' (by rw [xi_length]; exact hi) (by rw [xim1_length]; exact hi), xi_getD hi, xim1_getD hi]

lemma rightFactors_getD {i : ℕ} (hi : i < b.len) : b.rightFactors.getD i 0 = 1 / (b.g (i + 2) - b.g (i + 1)) := by
  unfold rightFactors
  rw [getD_zipWith' (by rw [xip1_length]; exact hi) (by rw [xi_length]; exact hi), xi_getD hi, xip1_getD]

open Classical in
lemma hatAt_eq {i : ℕ} (hi : i < b.len) (x : ℝ) :
    b.hatAt i x = max 0 (if x < b.g (i + 1) then (x - b.g i) / (b.g (i + 1) - b.g i)
      else (b.g (i + 2) - x) / (b.g (i + 2) - b.g (i + 1))) := by
  unfold hatAt
  rw [xi_getD hi, xim1_getD hi, xip1_getD, leftFactors_getD hi, rightFactors_getD hi, mul_one_div, mul_one_div]

lemma evaluate_length (x : ℝ) : (b.evaluate x).length = b.len := by
  unfold evaluate
  simp only
  split_ifs <;> simp

open Classical in
lemma phi_eq {i : ℕ} (hi : i < b.len) (x : ℝ) :
    b.phi i x = if b.zeroBoundary = false ∧ ((i = 0 ∧ x < b.g 1) ∨ (i = b.len - 1 ∧ b.g (b.grid.length - 2) < x)) then 0
      else b.hatAt i x := by
  have h0 : ((List.range b.len).map fun i => b.hatAt i x).getD i 0 = b.hatAt i x := by
    simp [List.getD_eq_getElem?_getD, hi]
  have hs : ∀ (l : List ℝ) (k : ℕ), l.length = b.len → k < b.len →
      (l.set k 0).getD i 0 = if i = k then 0 else l.getD i 0 := by
    intro l k hl hk
    rw [List.getD_eq_getElem?_getD, List.getD_eq_getElem?_getD, List.getElem?_set]
    by_cases h : k = i
    · subst h
      simp [hl, hi]
    · rw [if_neg h, if_neg (Ne.symm h)]
  unfold phi evaluate
  simp only [gt_iff_lt]
  change List.getD (if (!b.zeroBoundary) = true then if b.g (b.grid.length - 2) < x then _ else if x < b.g 1 then _ else _ else _) i 0 = _
  cases hz : b.zeroBoundary
  · simp only [Bool.not_false, if_true, true_and]
    have hlen : ∀ (c : Prop) [Decidable c], ((if c then ((List.range b.len).map fun i => b.hatAt i x).set 0 0
        else (List.range b.len).map fun i => b.hatAt i x) : List ℝ).length = b.len := by
      intro c _
      split_ifs <;> simp
    have e1 : ((if x < b.g 1 then ((List.range b.len).map fun i => b.hatAt i x).set 0 0
        else (List.range b.len).map fun i => b.hatAt i x) : List ℝ).getD i 0 =
        if i = 0 ∧ x < b.g 1 then 0 else b.hatAt i x := by
      by_cases hx : x < b.g 1
      · rw [if_pos hx, hs _ 0 (by simp) (by omega), h0]
        simp [hx]
      · rw [if_neg hx, h0]
        simp [hx]
    by_cases hx2 : b.g (b.grid.length - 2) < x
    · rw [if_pos hx2, hs _ _ (hlen _) (by rw [hlen]; omega), hlen]
      change (if i = b.len - 1 then 0 else List.getD (if x < b.g 1 then _ else _) i 0) = _
      rw [e1]
      by_cases hl : i = b.len - 1
      · rw [if_pos hl, if_pos (Or.inr ⟨hl, hx2⟩)]
      · rw [if_neg hl]
        simp [hl]
    · rw [if_neg hx2, e1]
      simp [hx2]
  · simp only [Bool.not_true, Bool.false_eq_true, if_false]
    simpa using h0

/-- The left half of the hat is active. -/
def Al (b : Basis) (i : ℕ) : Prop := b.zeroBoundary = true ∨ i ≠ 0

/-- The right half of the hat is active. -/
def Be (b : Basis) (i : ℕ) : Prop := b.zeroBoundary = true ∨ i ≠ b.len - 1

lemma grid_last {i : ℕ} (hi : i < b.len) (h : i = b.len - 1) : b.grid.length - 2 = i + 1 := by
  unfold len at *; omega

lemma phi_low (h : b.Good) {i : ℕ} (hi : i < b.len) {x : ℝ} (hx : x ≤ b.g i) : b.phi i x = 0 := by
  classical
  have h1 := h.incr i (by have := len_lt hi; omega)
  rw [phi_eq hi]
  split_ifs
  · rfl
  · rw [hatAt_eq hi, if_pos (hx.trans_lt h1), max_eq_left]
    exact div_nonpos_of_nonpos_of_nonneg (by linarith) (by linarith)

lemma phi_high (h : b.Good) {i : ℕ} (hi : i < b.len) {x : ℝ} (hx : b.g (i + 2) ≤ x) : b.phi i x = 0 := by
  classical
  have h1 := h.incr (i + 1) (by have := len_lt hi; omega)
  rw [phi_eq hi]
  split_ifs
  · rfl
  · rw [hatAt_eq hi, if_neg (not_lt.mpr (h1.le.trans hx)), max_eq_left]
    exact div_nonpos_of_nonpos_of_nonneg (by linarith) (by linarith)

open Classical in
lemma phi_left {i : ℕ} (hi : i < b.len) {x : ℝ} (hx : b.g i ≤ x) (hx' : x < b.g (i + 1)) :
    b.phi i x = if b.Al i then (x - b.g i) / (b.g (i + 1) - b.g i) else 0 := by
  have hil := len_lt hi
  rw [phi_eq hi, hatAt_eq hi, if_pos hx', max_eq_right (div_nonneg (by linarith) (by linarith))]
  have hn : ¬ (i = b.len - 1 ∧ b.g (b.grid.length - 2) < x) := by
    rintro ⟨h1, h2⟩
    rw [grid_last hi h1] at h2
    exact absurd h2 (not_lt.mpr hx'.le)
  by_cases ha : b.Al i
  · rw [if_pos ha, if_neg]
    rintro ⟨hz, h1 | h1⟩
    · rcases ha with ha | ha
      · rw [hz] at ha; cases ha
      · exact ha h1.1
    · exact hn h1
  · rw [if_neg ha, if_pos]
    unfold Al at ha
    push Not at ha
    obtain ⟨h1, rfl⟩ := ha
    exact ⟨by simpa using h1, Or.inl ⟨rfl, hx'⟩⟩

open Classical in
lemma phi_right {i : ℕ} (hi : i < b.len) {x : ℝ} (hx : b.g (i + 1) < x) (hx' : x ≤ b.g (i + 2)) :
    b.phi i x = if b.Be i then (b.g (i + 2) - x) / (b.g (i + 2) - b.g (i + 1)) else 0 := by
  have hil := len_lt hi
  rw [phi_eq hi, hatAt_eq hi, if_neg (not_lt.mpr hx.le), max_eq_right (div_nonneg (by linarith) (by linarith))]
  have hn : ¬ (i = 0 ∧ x < b.g 1) := by
    rintro ⟨rfl, h2⟩
    exact absurd h2 (not_lt.mpr hx.le)
  by_cases ha : b.Be i
  · rw [if_pos ha, if_neg]
    rintro ⟨hz, h1 | h1⟩
    · exact hn h1
    · rcases ha with ha | ha
      · rw [hz] at ha; cases ha
      · exact ha h1.1
  · rw [if_neg ha, if_pos]
    unfold Be at ha
    push Not at ha
    obtain ⟨h1, h2⟩ := ha
    refine ⟨by simpa using h1, Or.inr ⟨h2, ?_⟩⟩
    rw [grid_last hi h2]
    exact hx

lemma phi_node (h : b.Good) {i : ℕ} (hi : i < b.len) : b.phi i (b.g (i + 1)) = 1 := by
  classical
  have hil := len_lt hi
  have h1 := h.incr (i + 1) hil
  rw [phi_eq hi, hatAt_eq hi, if_neg (lt_irrefl _), if_neg, div_self (by linarith), max_eq_right zero_le_one]
  rintro ⟨_, ⟨rfl, h2⟩ | ⟨h2, h3⟩⟩
  · exact lt_irrefl _ h2
  · rw [grid_last hi h2] at h3
    exact lt_irrefl _ h3

lemma phi_nonneg {i : ℕ} (hi : i < b.len) (x : ℝ) : 0 ≤ b.phi i x := by
  classical
  rw [phi_eq hi]
  split_ifs
  · exact le_rfl
  · unfold hatAt
    exact le_max_left _ _

lemma phi_cases (b : Basis) (i : ℕ) (x : ℝ) :
    x ≤ b.g i ∨ (b.g i ≤ x ∧ x < b.g (i + 1)) ∨ x = b.g (i + 1) ∨ (b.g (i + 1) < x ∧ x ≤ b.g (i + 2)) ∨ b.g (i + 2) ≤ x := by
  rcases le_or_gt x (b.g i) with h1 | h1
  · exact Or.inl h1
  rcases lt_trichotomy x (b.g (i + 1)) with h2 | h2 | h2
  · exact Or.inr (Or.inl ⟨h1.le, h2⟩)
  · exact Or.inr (Or.inr (Or.inl h2))
  rcases le_or_gt x (b.g (i + 2)) with h3 | h3
  · exact Or.inr (Or.inr (Or.inr (Or.inl ⟨h2, h3⟩)))
  · exact Or.inr (Or.inr (Or.inr (Or.inr h3.le)))

lemma phi_le_one (h : b.Good) {i : ℕ} (hi : i < b.len) (x : ℝ) : b.phi i x ≤ 1 := by
  classical
  have hil := len_lt hi
  have h1 := h.incr i (by omega)
  have h2 := h.incr (i + 1) hil
  rcases phi_cases b i x with hx | ⟨hx, hx'⟩ | rfl | ⟨hx, hx'⟩ | hx
  · rw [phi_low h hi hx]; exact zero_le_one
  · rw [phi_left hi hx hx']
    split_ifs
    · rw [div_le_one (by linarith)]; linarith
    · exact zero_le_one
  · rw [phi_node h hi]
  · rw [phi_right hi hx hx']
    split_ifs
    · rw [div_le_one (by linarith)]; linarith
    · exact zero_le_one
  · rw [phi_high h hi hx]; exact zero_le_one

/-- Value on a closed cell between two interior nodes, of the basis function of its left end. -/
lemma phi_cell_left (h : b.Good) {i : ℕ} (hi : i + 1 < b.len) {x : ℝ} (hx : b.g (i + 1) ≤ x) (hx' : x ≤ b.g (i + 2)) :
    b.phi i x = (b.g (i + 2) - x) / (b.g (i + 2) - b.g (i + 1)) := by
  classical
  have hil := len_lt hi
  have h2 := h.incr (i + 1) (by omega)
  rcases hx.lt_or_eq with h1 | rfl
  · rw [phi_right (by omega) h1 hx', if_pos (show b.Be i from Or.inr (by omega))]
  · rw [phi_node h (by omega), div_self (by linarith)]

/-- Value on a closed cell between two interior nodes, of the basis function of its right end. -/
lemma phi_cell_right (h : b.Good) {i : ℕ} (hi : i + 1 < b.len) {x : ℝ} (hx : b.g (i + 1) ≤ x) (hx' : x ≤ b.g (i + 2)) :
    b.phi (i + 1) x = (x - b.g (i + 1)) / (b.g (i + 2) - b.g (i + 1)) := by
  classical
  have hil := len_lt hi
  have h2 := h.incr (i + 1) (by omega)
  rcases hx'.lt_or_eq with h1 | rfl
  · rw [phi_left hi hx h1, if_pos (show b.Al (i + 1) from Or.inr (by omega))]
  · rw [phi_node h hi, div_self (by linarith)]

/-- Other basis functions vanish on a cell `[g (c), g (c+1)]`. -/
lemma phi_cell_zero (h : b.Good) {i c : ℕ} (hi : i < b.len) (hc : c + 1 < b.grid.length) (h1 : i ≠ c) (h2 : i + 1 ≠ c) {x : ℝ}
    (hx : b.g c ≤ x) (hx' : x ≤ b.g (c + 1)) : b.phi i x = 0 := by
  rcases Nat.lt_or_ge c i with h3 | h3
  · exact phi_low h hi (hx'.trans (h.le (by omega) (by have := len_lt hi; omega)))
  · exact phi_high h hi ((h.le (by omega) (by omega)).trans hx)

end Basis

lemma mkBasis_good {grid : List ℝ} {zb : Bool} {b : Basis} (hg : grid.Pairwise (· < ·)) (h : mkBasis grid zb = .ok b) :
    b.Good ∧ b.zeroBoundary = zb := by
  unfold mkBasis at h
  split_ifs at h with h1 h2
  · have hb := Except.ok.inj h
    subst hb
    rw [not_lt] at h1
    have hi : ∀ i, i + 1 < grid.length → grid.getD i 0 < grid.getD (i + 1) 0 := by
      intro i hi
      rw [List.getD_eq_getElem?_getD, List.getD_eq_getElem?_getD, List.getElem?_eq_getElem hi,
        List.getElem?_eq_getElem (by omega)]
      exact List.pairwise_iff_getElem.mp hg i (i + 1) (by omega) hi (by omega)
    refine ⟨⟨by simp; omega, fun _ => by simp; omega, ?_⟩, by cases zb <;> simp_all⟩
    intro i hl
    have hlen : ∀ a c : ℝ, ([a] ++ grid ++ [c]).length = grid.length + 2 := by intros; simp
    rw [hlen] at hl
    have hget : ∀ (a c : ℝ) (k : ℕ), k < grid.length → ([a] ++ grid ++ [c]).getD (k + 1) 0 = grid.getD k 0 := by
      intro a c k hk
      simp [List.getD_eq_getElem?_getD, List.getElem?_append, hk]
    have hlast : ∀ (a c : ℝ), ([a] ++ grid ++ [c]).getD (grid.length + 1) 0 = c := by
      intro a c
      simp [List.getD_eq_getElem?_getD]
    unfold Basis.g
    rcases Nat.eq_zero_or_pos i with rfl | hpos
    · rw [hget _ _ 0 (by omega)]
      have := hi 0 (by omega)
      simp only [List.cons_append, List.nil_append, List.getD_cons_zero]
      linarith
    · obtain ⟨k, rfl⟩ : ∃ k, i = k + 1 := ⟨i - 1, by omega⟩
      rcases Nat.lt_or_ge (k + 1) grid.length with h3 | h3
      · rw [hget _ _ k (by omega), hget _ _ (k + 1) h3]
        exact hi k h3
      · obtain rfl : k = grid.length - 1 := by omega
        rw [hget _ _ _ (by omega), show grid.length - 1 + 1 + 1 = grid.length + 1 by omega, hlast]
        have := hi (grid.length - 2) (by omega)
        rw [show grid.length - 2 + 1 = grid.length - 1 by omega] at this
        linarith
  · have hb := Except.ok.inj h
    subst hb
    refine ⟨⟨by simpa using h1, fun hz => by simp at hz, ?_⟩, by cases zb <;> simp_all⟩
    intro i hl
    unfold Basis.g
    simp only at hl ⊢
    rw [List.getD_eq_getElem?_getD, List.getD_eq_getElem?_getD, List.getElem?_eq_getElem hl,
      List.getElem?_eq_getElem (by omega)]
    exact List.pairwise_iff_getElem.mp hg i (i + 1) (by omega) hl (by omega)

end LinPDE.Fem
