import Verif.Rounding.Model
import Mathlib.Tactic.Linarith
import Mathlib.Tactic.Positivity
import Mathlib.Tactic.Ring
import Mathlib.Algebra.Order.BigOperators.Group.Finset
import Mathlib.Algebra.BigOperators.Intervals
import Mathlib.Algebra.BigOperators.Ring.Finset

/-!
# Relative errors
-/

namespace LinPDE.Rounding
open Finset

/-- A factor that `k` roundings can produce (Higham's `1 + θ_k`). -/
def Fmt.Fac (F : Fmt) (k : ℕ) (t : ℝ) : Prop := (1 - F.u) ^ k ≤ t ∧ t ≤ (1 + F.u) ^ k

/-- `a` is `b` up to `k` roundings. -/
def Fmt.Near (F : Fmt) (k : ℕ) (a b : ℝ) : Prop := ∃ t, F.Fac k t ∧ a = t * b

variable {F : Fmt} {k l : ℕ} {a b c d t s x : ℝ}

lemma Fmt.sub_nonneg (F : Fmt) : 0 ≤ 1 - F.u := by linarith [F.u_lt]
lemma Fmt.sub_pos (F : Fmt) : 0 < 1 - F.u := by linarith [F.u_lt]
lemma Fmt.sub_le (F : Fmt) : 1 - F.u ≤ 1 := by linarith [F.u_nonneg]
lemma Fmt.le_add (F : Fmt) : 1 ≤ 1 + F.u := by linarith [F.u_nonneg]

lemma Fmt.Fac.pos (h : F.Fac k t) : 0 < t := (pow_pos F.sub_pos k).trans_le h.1

lemma fac_one : F.Fac k 1 := ⟨pow_le_one₀ F.sub_nonneg F.sub_le, one_le_pow₀ F.le_add⟩

lemma Fmt.Fac.mono (h : F.Fac k t) (hkl : k ≤ l) : F.Fac l t :=
  ⟨(pow_le_pow_of_le_one F.sub_nonneg F.sub_le hkl).trans h.1, h.2.trans (pow_le_pow_right₀ F.le_add hkl)⟩

lemma Fmt.Fac.mul (h : F.Fac k t) (h' : F.Fac l s) : F.Fac (k + l) (t * s) := by
  refine ⟨?_, ?_⟩
  · rw [pow_add]
    exact mul_le_mul h.1 h'.1 (pow_nonneg F.sub_nonneg _) h.pos.le
  · rw [pow_add]
    exact mul_le_mul h.2 h'.2 h'.pos.le (h.pos.le.trans h.2)

lemma Fmt.Fac.pow (h : F.Fac k t) (n : ℕ) : F.Fac (n * k) (t ^ n) := by
  induction n with
  | zero => simpa using fac_one (F := F) (k := 0)
  | succ n ih =>
    rw [pow_succ, add_mul, one_mul]
    exact ih.mul h

/-- Both bounds lie within `(1 + u)^k - 1` of one. -/
lemma fac_abs (h : F.Fac k t) : |t - 1| ≤ (1 + F.u) ^ k - 1 := by
  have h1 : 1 - ((1 + F.u) ^ k - 1) ≤ (1 - F.u) ^ k := by
    have : ∀ k : ℕ, 2 ≤ (1 - F.u) ^ k + (1 + F.u) ^ k := by
      intro k
      have h1 := one_add_mul_le_pow (a := F.u) (by linarith [F.u_nonneg]) k
      have h2 := one_add_mul_le_pow (a := -F.u) (by linarith [F.u_lt]) k
      rw [← sub_eq_add_neg 1 F.u] at h2
      nlinarith
    linarith [this k]
  rw [abs_le]
  exact ⟨by linarith [h.1], by linarith [h.2]⟩

lemma eps_nonneg (F : Fmt) (k : ℕ) : 0 ≤ (1 + F.u) ^ k - 1 := by linarith [one_le_pow₀ (n := k) F.le_add]

lemma eps_mono (F : Fmt) (h : k ≤ l) : (1 + F.u) ^ k - 1 ≤ (1 + F.u) ^ l - 1 := by linarith [pow_le_pow_right₀ F.le_add h]

/-- The factor of one rounding. -/
lemma rd_fac (F : Fmt) (x : ℝ) : ∃ t, F.Fac 1 t ∧ F.rd x = t * x := by
  have h := F.err x
  rcases eq_or_ne x 0 with rfl | hx
  · refine ⟨1, fac_one, ?_⟩
    simpa using h
  · refine ⟨F.rd x / x, ?_, (div_mul_cancel₀ _ hx).symm⟩
    have h1 : |F.rd x / x - 1| ≤ F.u := by
      rw [div_sub_one hx, abs_div, div_le_iff₀ (abs_pos.mpr hx)]
      exact h
    rw [abs_le] at h1
    rw [Fmt.Fac, pow_one, pow_one]
    exact ⟨by linarith, by linarith⟩

lemma rd_zero (F : Fmt) : F.rd 0 = 0 := by simpa using F.err 0

lemma near_refl (F : Fmt) (k : ℕ) (a : ℝ) : F.Near k a a := ⟨1, fac_one, (one_mul a).symm⟩

lemma Fmt.Near.mono (h : F.Near k a b) (hkl : k ≤ l) : F.Near l a b := by
  obtain ⟨t, ht, e⟩ := h
  exact ⟨t, ht.mono hkl, e⟩

lemma Fmt.Near.mul (h : F.Near k a b) (h' : F.Near l c d) : F.Near (k + l) (a * c) (b * d) := by
  obtain ⟨t, ht, rfl⟩ := h
  obtain ⟨s, hs, rfl⟩ := h'
  exact ⟨t * s, ht.mul hs, by ring⟩

lemma Fmt.Near.pow (h : F.Near k a b) (n : ℕ) : F.Near (n * k) (a ^ n) (b ^ n) := by
  obtain ⟨t, ht, rfl⟩ := h
  exact ⟨t ^ n, ht.pow n, mul_pow _ _ _⟩

lemma Fmt.Near.trans (h : F.Near k a b) (h' : F.Near l b c) : F.Near (k + l) a c := by
  obtain ⟨t, ht, rfl⟩ := h
  obtain ⟨s, hs, rfl⟩ := h'
  exact ⟨t * s, ht.mul hs, by ring⟩

lemma Fmt.Near.rd (h : F.Near k a b) : F.Near (k + 1) (F.rd a) b := by
  have h1 : F.Near 1 (F.rd a) a := rd_fac F a
  rw [add_comm]
  exact h1.trans h

lemma Fmt.Near.abs (h : F.Near k a b) : |a - b| ≤ ((1 + F.u) ^ k - 1) * |b| := by
  obtain ⟨t, ht, rfl⟩ := h
  rw [← sub_one_mul, abs_mul]
  exact mul_le_mul_of_nonneg_right (fac_abs ht) (abs_nonneg b)

lemma near_iff (hb : 0 ≤ b) : F.Near k a b ↔ (1 - F.u) ^ k * b ≤ a ∧ a ≤ (1 + F.u) ^ k * b := by
  constructor
  · rintro ⟨t, ht, rfl⟩
    exact ⟨mul_le_mul_of_nonneg_right ht.1 hb, mul_le_mul_of_nonneg_right ht.2 hb⟩
  · rintro ⟨h1, h2⟩
    rcases hb.eq_or_lt with rfl | hb
    · refine ⟨1, fac_one, ?_⟩
      linarith
    · refine ⟨a / b, ⟨?_, ?_⟩, (div_mul_cancel₀ _ hb.ne').symm⟩
      · rwa [le_div_iff₀ hb]
      · rwa [div_le_iff₀ hb]

lemma Fmt.Near.nonneg (h : F.Near k a b) (hb : 0 ≤ b) : 0 ≤ a := by
  obtain ⟨t, ht, rfl⟩ := h
  exact mul_nonneg ht.pos.le hb

lemma near_sum {ι : Type} (S : Finset ι) {f g : ι → ℝ} (hg : ∀ i ∈ S, 0 ≤ g i) (h : ∀ i ∈ S, F.Near k (f i) (g i)) :
    F.Near k (∑ i ∈ S, f i) (∑ i ∈ S, g i) := by
  rw [near_iff (sum_nonneg hg), mul_sum, mul_sum]
  exact ⟨sum_le_sum fun i hi => ((near_iff (hg i hi)).mp (h i hi)).1, sum_le_sum fun i hi => ((near_iff (hg i hi)).mp (h i hi)).2⟩

lemma near_sqrt (hb : 0 ≤ b) (h : F.Near (2 * k) a b) : F.Near k (√a) (√b) := by
  obtain ⟨t, ht, rfl⟩ := h
  refine ⟨√t, ⟨?_, ?_⟩, Real.sqrt_mul ht.pos.le b⟩
  · refine Real.le_sqrt_of_sq_le ?_
    rw [← pow_mul, mul_comm]
    exact ht.1
  · rw [Real.sqrt_le_left (pow_nonneg (by linarith [F.u_nonneg]) _), ← pow_mul, mul_comm k 2]
    exact ht.2

/-! ## Sums in any order -/

/-- The number of additions on the longest path. -/
def Tree.depth {ι : Type} : Tree ι → ℕ
  | .leaf _ => 0
  | .node l r => max l.depth r.depth + 1

variable {ι : Type}

lemma Tree.leaves_pos (t : Tree ι) : 0 < t.leaves.length := by
  induction t with
  | leaf i => exact Nat.one_pos
  | node l r h1 h2 => rw [Tree.leaves, List.length_append]; omega

lemma Tree.depth_lt (t : Tree ι) : t.depth < t.leaves.length := by
  induction t with
  | leaf i => exact Nat.one_pos
  | node l r h1 h2 =>
    have := l.leaves_pos
    have := r.leaves_pos
    rw [Tree.leaves, List.length_append, Tree.depth]
    omega

lemma Tree.fl_eq (F : Fmt) (f : ι → ℝ) (t : Tree ι) (ht : t.leaves.Nodup) :
    ∃ θ : ι → ℝ, (∀ i, F.Fac t.depth (θ i)) ∧ t.fl F f = (t.leaves.map fun i => θ i * f i).sum := by
  classical
  induction t with
  | leaf i => exact ⟨fun _ => 1, fun _ => fac_one, by simp [Tree.fl, Tree.leaves]⟩
  | node l r h1 h2 =>
    rw [Tree.leaves, List.nodup_append] at ht
    obtain ⟨θ, hθ, e1⟩ := h1 ht.1
    obtain ⟨η, hη, e2⟩ := h2 ht.2.1
    obtain ⟨δ, hδ, e⟩ := rd_fac F (l.fl F f + r.fl F f)
    refine ⟨fun i => δ * if i ∈ l.leaves then θ i else η i, fun i => ?_, ?_⟩
    · rw [Tree.depth, add_comm]
      refine hδ.mul ?_
      split_ifs
      · exact (hθ i).mono (le_max_left _ _)
      · exact (hη i).mono (le_max_right _ _)
    · rw [Tree.fl, e, e1, e2, Tree.leaves, List.map_append, List.sum_append, mul_add, ← List.sum_map_mul_left, ← List.sum_map_mul_left]
      congr 1
      · refine congrArg List.sum (List.map_congr_left fun i hi => ?_)
        dsimp only
        rw [if_pos hi, mul_assoc]
      · refine congrArg List.sum (List.map_congr_left fun i hi => ?_)
        dsimp only
        rw [if_neg fun h => ht.2.2 i h i hi rfl, mul_assoc]

variable [Fintype ι]

lemma Tree.Full.sum {t : Tree ι} (ht : t.Full) (f : ι → ℝ) : (t.leaves.map f).sum = ∑ i, f i := by
  classical
  have e : t.leaves.toFinset = Finset.univ := by ext i; simp [ht.2 i]
  rw [← e, List.sum_toFinset _ ht.1]

lemma Tree.Full.length {t : Tree ι} (ht : t.Full) : t.leaves.length = Fintype.card ι := by
  classical
  have e : t.leaves.toFinset = Finset.univ := by ext i; simp [ht.2 i]
  rw [← List.toFinset_card_of_nodup ht.1, e, Finset.card_univ]

lemma Tree.Full.fl_eq {t : Tree ι} (ht : t.Full) (F : Fmt) (f : ι → ℝ) :
    ∃ θ : ι → ℝ, (∀ i, F.Fac (Fintype.card ι - 1) (θ i)) ∧ t.fl F f = ∑ i, θ i * f i := by
  obtain ⟨θ, h1, h2⟩ := t.fl_eq F f ht.1
  refine ⟨θ, fun i => (h1 i).mono ?_, h2.trans (ht.sum _)⟩
  have := t.depth_lt
  rw [ht.length] at this
  omega

lemma Tree.Full.fl_near {t : Tree ι} (ht : t.Full) {f g : ι → ℝ} (hg : ∀ i, 0 ≤ g i) (h : ∀ i, F.Near k (f i) (g i)) :
    F.Near (Fintype.card ι - 1 + k) (t.fl F f) (∑ i, g i) := by
  obtain ⟨θ, h1, h2⟩ := ht.fl_eq F f
  rw [h2]
  refine near_sum _ (fun i _ => hg i) fun i _ => ?_
  have h3 : F.Near (Fintype.card ι - 1) (θ i * f i) (f i) := ⟨θ i, h1 i, rfl⟩
  exact h3.trans (h i)

/-! ## Polynomials -/

/-- The loop of `_matern.py` in floating point, as a sum with perturbed coefficients. -/
lemma hornerFl_eq (F : Fmt) (c : ℕ → ℝ) (r : ℝ) (n : ℕ) (res : ℝ) :
    ∃ θ : ℕ → ℝ, (∀ i < n, F.Fac (2 * i + 1) (θ i)) ∧ F.Fac (2 * n) (θ n) ∧
      hornerFl F c r n res = θ n * res * r ^ n + ∑ i ∈ range n, θ i * c i * r ^ i := by
  induction n generalizing res with
  | zero => exact ⟨fun _ => 1, fun _ _ => fac_one, fac_one, by simp [hornerFl]⟩
  | succ n ih =>
    obtain ⟨θ, hθ, hn, e⟩ := ih (F.rd (F.rd (res * r) + c n))
    obtain ⟨δ, hδ, e1⟩ := rd_fac F (F.rd (res * r) + c n)
    obtain ⟨δ', hδ', e2⟩ := rd_fac F (res * r)
    have f1 : (fun i => if i = n + 1 then θ n * δ * δ' else if i = n then θ n * δ else θ i) (n + 1) = θ n * δ * δ' := if_pos rfl
    have f2 : (fun i => if i = n + 1 then θ n * δ * δ' else if i = n then θ n * δ else θ i) n = θ n * δ := by
      dsimp only
      rw [if_neg (by omega), if_pos rfl]
    refine ⟨fun i => if i = n + 1 then θ n * δ * δ' else if i = n then θ n * δ else θ i, fun i hi => ?_, ?_, ?_⟩
    · dsimp only
      rw [if_neg (by omega)]
      split_ifs with h
      · rw [h]
        exact hn.mul hδ
      · exact hθ i (by omega)
    · rw [f1]
      exact (hn.mul hδ).mul hδ'
    · have h3 : (∑ i ∈ range n, (fun i => if i = n + 1 then θ n * δ * δ' else if i = n then θ n * δ else θ i) i * c i * r ^ i) =
          ∑ i ∈ range n, θ i * c i * r ^ i := by
        refine sum_congr rfl fun i hi => ?_
        have := mem_range.mp hi
        dsimp only
        rw [if_neg (by omega), if_neg (by omega)]
      rw [hornerFl, e, e1, e2, sum_range_succ, f1, f2, h3]
      ring

lemma hornerFl_fold (F : Fmt) (cs : List ℝ) (x res : ℝ) :
    (((cs.map fun c => (⟨c⟩ : Fl F)).reverse).foldl (fun res c => res * (⟨x⟩ : Fl F) + c) ⟨res⟩).val =
      hornerFl F (fun i => cs.getD i 0) x cs.length res := by
  induction cs using List.reverseRecOn generalizing res with
  | nil => rfl
  | append_singleton l a ih =>
    rw [List.map_append, List.reverse_append, List.map_cons, List.map_nil, List.reverse_singleton, List.singleton_append, List.foldl_cons,
      List.length_append, List.length_singleton, hornerFl]
    have h : (⟨res⟩ : Fl F) * ⟨x⟩ + ⟨a⟩ = ⟨F.rd (F.rd (res * x) + a)⟩ := rfl
    rw [h, ih]
    have e : (l ++ [a]).getD l.length 0 = a := by simp
    rw [e]
    have : ∀ (n : ℕ) (y : ℝ), n ≤ l.length → hornerFl F (fun i => l.getD i 0) x n y = hornerFl F (fun i => (l ++ [a]).getD i 0) x n y := by
      intro n
      induction n with
      | zero => intro y _; rfl
      | succ n ih => 
        intro y hn
        rw [hornerFl, hornerFl, ih _ (by omega)]
        have e : (l ++ [a]).getD n 0 = l.getD n 0 := by
          rw [List.getD_eq_getElem?_getD, List.getD_eq_getElem?_getD, List.getElem?_append_left (by omega)]
        simp only [e]
    exact this _ _ le_rfl

end LinPDE.Rounding
