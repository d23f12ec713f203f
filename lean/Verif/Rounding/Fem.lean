import Verif.Fem.ProjectProps
import Verif.Fem.LaplaceProps
import Verif.Rounding.FemModel
import Verif.Rounding.Close
import Verif.Rounding.Binary

/-!
# C95: the finite element basis in floating point
-/

namespace LinPDE.Rounding.FemFl
open Fem Finset

/-- The outer cells are at least as long as two units in the relative error of the outer points. -/
def Spaced (F : Fmt) (grid : List ℝ) : Prop :=
  2 * F.u * |grid.getD 0 0| ≤ grid.getD 1 0 - grid.getD 0 0 ∧
    2 * F.u * |grid.getD (grid.length - 1) 0| ≤ grid.getD (grid.length - 1) 0 - grid.getD (grid.length - 2) 0

/-- The bases of the exact and of the rounded constructor differ in the sentinels only. -/
structure Rel (b bf : Basis) : Prop where
  good : b.Good
  good' : bf.Good
  zb : bf.zeroBoundary = b.zeroBoundary
  len : bf.grid.length = b.grid.length
  inner : ∀ j, 1 ≤ j → j + 1 < b.grid.length → bf.g j = b.g j
  all : b.zeroBoundary = true → ∀ j, bf.g j = b.g j

variable {F : Fmt} {grid : List ℝ} {zb : Bool} {b bf : Basis}

lemma sentinel_lt (hu : F.u ≤ 1 / 4) {a d : ℝ} (hd : 0 < d) (h : 2 * F.u * |a| ≤ d) : a < F.rd (a + F.rd d) := by
  have u0 := F.u_nonneg
  obtain ⟨t, ht, e⟩ := rd_fac F d
  rw [Fmt.Fac, pow_one, pow_one] at ht
  rw [e]
  have h1 := F.err (a + t * d)
  have h2 := (abs_le.mp h1).1
  have htd : 0 < t * d := mul_pos (by linarith [ht.1]) hd
  have h3 : |a + t * d| ≤ |a| + t * d := (abs_add_le _ _).trans (by rw [abs_of_pos htd])
  have h4 := mul_le_mul_of_nonneg_left h3 u0
  have h5 : 3 / 4 * d ≤ t * d := mul_le_mul_of_nonneg_right (by linarith [ht.1]) hd.le
  have h6 : F.u * (t * d) ≤ 1 / 4 * (t * d) := mul_le_mul_of_nonneg_right hu htd.le
  linarith

lemma sentinel_gt (hu : F.u ≤ 1 / 4) {a d : ℝ} (hd : 0 < d) (h : 2 * F.u * |a| ≤ d) : F.rd (a - F.rd d) < a := by
  have := sentinel_lt (a := -a) hu hd (by rwa [abs_neg])
  rw [show -a + F.rd d = -(a - F.rd d) by ring, F.neg] at this
  linarith

lemma mk_rel (hu : F.u ≤ 1 / 4) (hg : grid.Pairwise (· < ·)) (hs : zb = false → Spaced F grid) (h : mkBasis grid zb = .ok b)
    (h' : mkBasisFl F grid zb = .ok bf) : Rel b bf := by
  have hG := mkBasis_good hg h
  unfold mkBasis at h
  unfold mkBasisFl at h'
  cases zb with
  | true =>
    simp only [Bool.not_true, Bool.false_eq_true, if_false] at h h'
    split_ifs at h h' with h1
    have e : b = bf := (Except.ok.inj h).symm.trans (Except.ok.inj h')
    subst e
    exact ⟨hG.1, hG.1, rfl, rfl, fun _ _ _ => rfl, fun _ _ => rfl⟩
  | false =>
    simp only [Bool.not_false, if_true] at h h'
    split_ifs at h h' with h1
    rw [not_lt] at h1
    obtain ⟨s1, s2⟩ := hs rfl
    have hi : ∀ i, i + 1 < grid.length → grid.getD i 0 < grid.getD (i + 1) 0 := by
      intro i hi
      rw [List.getD_eq_getElem?_getD, List.getD_eq_getElem?_getD, List.getElem?_eq_getElem hi, List.getElem?_eq_getElem (by omega)]
      exact List.pairwise_iff_getElem.mp hg i (i + 1) (by omega) hi (by omega)
    have hlen : ∀ a c : ℝ, ([a] ++ grid ++ [c]).length = grid.length + 2 := by intros; simp
    have hget : ∀ (a c : ℝ) (k : ℕ), k < grid.length → ([a] ++ grid ++ [c]).getD (k + 1) 0 = grid.getD k 0 := by
      intro a c k hk
      simp [List.getD_eq_getElem?_getD, List.getElem?_append, hk]
    have hlast : ∀ (a c : ℝ), ([a] ++ grid ++ [c]).getD (grid.length + 1) 0 = c := by
      intro a c
      simp [List.getD_eq_getElem?_getD]
    have hb := Except.ok.inj h
    have hb' := Except.ok.inj h'
    have g0 : bf.g 0 < bf.g 1 := by
      rw [← hb']
      unfold Basis.g
      rw [hget _ _ 0 (by omega)]
      exact sentinel_gt hu (by linarith [hi 0 (by omega)]) s1
    have l1 : b.grid.length = grid.length + 2 := by rw [← hb]; exact hlen _ _
    have l2 : bf.grid.length = grid.length + 2 := by rw [← hb']; exact hlen _ _
    have z1 : b.zeroBoundary = false := by rw [← hb]
    have z2 : bf.zeroBoundary = false := by rw [← hb']
    have n1 : ∀ k < grid.length, b.g (k + 1) = grid.getD k 0 := fun k hk => by rw [← hb]; exact hget _ _ k hk
    have n2 : ∀ k < grid.length, bf.g (k + 1) = grid.getD k 0 := fun k hk => by rw [← hb']; exact hget _ _ k hk
    have gl : bf.g grid.length < bf.g (grid.length + 1) := by
      have e := n2 (grid.length - 1) (by omega)
      rw [show grid.length - 1 + 1 = grid.length by omega] at e
      rw [e, ← hb']
      unfold Basis.g
      rw [hlast]
      have := hi (grid.length - 2) (by omega)
      rw [show grid.length - 2 + 1 = grid.length - 1 by omega] at this
      exact sentinel_lt hu (by linarith) s2
    refine ⟨hG.1, ⟨by omega, fun _ => by omega, fun i hl => ?_⟩, z2.trans z1.symm, l2.trans l1.symm, fun j hj hj' => ?_, fun hz => ?_⟩
    · rcases Nat.eq_zero_or_pos i with rfl | hpos
      · exact g0
      · obtain ⟨k, rfl⟩ : ∃ k, i = k + 1 := ⟨i - 1, by omega⟩
        rcases Nat.lt_or_ge (k + 1) grid.length with h3 | h3
        · rw [n2 k (by omega), n2 (k + 1) h3]
          exact hi k h3
        · have : k + 1 = grid.length := by omega
          rw [this]
          exact gl
    · obtain ⟨k, rfl⟩ : ∃ k, j = k + 1 := ⟨j - 1, by omega⟩
      rw [n1 k (by omega), n2 k (by omega)]
    · rw [z1] at hz
      cases hz

/-! ## Values -/

lemma lf_getD {i : ℕ} (hi : i < b.len) : (leftFactorsFl F b).getD i 0 = F.rd (1 / F.rd (b.g (i + 1) - b.g i)) := by
  unfold leftFactorsFl
  rw [Basis.getD_zipWith' (by rw [Basis.xi_length]; exact hi) (by rw [Basis.xim1_length]; exact hi), Basis.xi_getD hi, Basis.xim1_getD hi]

lemma rf_getD {i : ℕ} (hi : i < b.len) : (rightFactorsFl F b).getD i 0 = F.rd (1 / F.rd (b.g (i + 2) - b.g (i + 1))) := by
  unfold rightFactorsFl
  rw [Basis.getD_zipWith' (by rw [Basis.xip1_length]; exact hi) (by rw [Basis.xi_length]; exact hi), Basis.xi_getD hi, Basis.xip1_getD]

lemma near_max {k : ℕ} {x y : ℝ} (h : F.Near k x y) : F.Near k (max 0 x) (max 0 y) := by
  obtain ⟨t, ht, rfl⟩ := h
  refine ⟨t, ht, ?_⟩
  rw [mul_max_of_nonneg _ _ ht.pos.le, mul_zero]

lemma quot_near (hu : F.u ≤ 1 / 2) (x d : ℝ) : F.Near 5 (F.rd (F.rd x * F.rd (1 / F.rd d))) (x / d) := by
  have h1 : F.Near 1 (F.rd x) x := rd_fac F x
  have h2 : F.Near 1 (F.rd d) d := rd_fac F d
  have h := (h1.mul ((near_refl F 0 1).div hu h2).rd).rd
  rwa [mul_one_div] at h

lemma evaluateFl_length (x : ℝ) : (evaluateFl F b x).length = b.len := by
  unfold evaluateFl
  simp only
  split_ifs <;> simp

open Classical in
lemma phiFl_eq {i : ℕ} (hi : i < b.len) (x : ℝ) :
    (evaluateFl F b x).getD i 0 = if b.zeroBoundary = false ∧ ((i = 0 ∧ x < b.g 1) ∨ (i = b.len - 1 ∧ b.g (b.grid.length - 2) < x)) then 0
      else hatFl F b i x := by
  have h0 : ((List.range b.len).map fun i => hatFl F b i x).getD i 0 = hatFl F b i x := by
    simp [List.getD_eq_getElem?_getD, hi]
  unfold evaluateFl
  simp only [gt_iff_lt]
  change List.getD (if (!b.zeroBoundary) = true then if b.g (b.grid.length - 2) < x then _ else if x < b.g 1 then _ else _ else _) i 0 = _
  cases hz : b.zeroBoundary
  · simp only [Bool.not_false, if_true, true_and]
    have hlen : ∀ (c : Prop) [Decidable c], ((if c then ((List.range b.len).map fun i => hatFl F b i x).set 0 0
        else (List.range b.len).map fun i => hatFl F b i x) : List ℝ).length = b.len := by
      intro c _
      split_ifs <;> simp
    have e1 : ((if x < b.g 1 then ((List.range b.len).map fun i => hatFl F b i x).set 0 0
        else (List.range b.len).map fun i => hatFl F b i x) : List ℝ).getD i 0 =
        if i = 0 ∧ x < b.g 1 then 0 else hatFl F b i x := by
      by_cases hx : x < b.g 1
      · rw [if_pos hx, getD_set' (by simp; omega), h0]
        simp [hx]
      · rw [if_neg hx, h0]
        simp [hx]
    by_cases hx2 : b.g (b.grid.length - 2) < x
    · rw [if_pos hx2, getD_set' (by rw [hlen]; omega), hlen]
      change (if i = b.len - 1 then 0 else List.getD (if x < b.g 1 then _ else _) i 0) = _
      rw [e1]
      by_cases hl : i = b.len - 1
      · rw [if_pos hl, if_pos (Or.inr ⟨hl, hx2⟩)]
      · rw [if_neg hl]
        simp [hl]
    · rw [if_neg hx2, e1]
      simp [hx2]
  · simp only [Bool.not_true, Bool.false_eq_true, if_false]
    simpa using h0

open Classical in
lemma phi_near (hu : F.u ≤ 1 / 2) (r : Rel b bf) {i : ℕ} (hi : i < b.len) (x : ℝ) :
    F.Near 5 ((evaluateFl F bf x).getD i 0) (b.phi i x) := by
  have hl : bf.len = b.len := by unfold Basis.len; rw [r.len]
  have hi' : i < bf.len := by omega
  have hil := Basis.len_lt hi
  have gi : bf.g (i + 1) = b.g (i + 1) := r.inner _ (by omega) (by omega)
  have g1 : bf.g 1 = b.g 1 := r.inner _ le_rfl (by omega)
  have gl : bf.g (b.grid.length - 2) = b.g (b.grid.length - 2) := r.inner _ (by omega) (by omega)
  rw [phiFl_eq hi', Basis.phi_eq hi, r.zb, hl, r.len, g1, gl]
  split_ifs with hc
  · exact near_refl F 5 0
  · rw [hatFl, Basis.xi_getD hi', Basis.xim1_getD hi', Basis.xip1_getD, lf_getD hi', rf_getD hi', gi, Basis.hatAt_eq hi]
    refine near_max ?_
    split_ifs with hx
    · have e : bf.g i = b.g i := by
        by_cases hz : b.zeroBoundary = true
        · exact r.all hz i
        · refine r.inner i (Nat.one_le_iff_ne_zero.mpr fun h0 => hc ⟨by simpa using hz, Or.inl ⟨h0, ?_⟩⟩) (by omega)
          rw [h0] at hx
          exact hx
      rw [e]
      exact quot_near hu _ _
    · by_cases hz : b.zeroBoundary = true
      · rw [r.all hz (i + 2)]
        exact quot_near hu _ _
      · by_cases hlast : i = b.len - 1
        · have hx2 : x = b.g (i + 1) := by
            refine le_antisymm (not_lt.mp fun hlt => hc ⟨by simpa using hz, Or.inr ⟨hlast, ?_⟩⟩) (not_lt.mp hx)
            rw [Basis.grid_last hi hlast]
            exact hlt
          rw [hx2, div_self (by have := r.good.incr (i + 1) (by omega); exact (sub_pos.mpr this).ne')]
          have := quot_near hu (bf.g (i + 2) - b.g (i + 1)) (bf.g (i + 2) - b.g (i + 1))
          rwa [div_self] at this
          have h3 := r.good'.incr (i + 1) (by rw [r.len]; omega)
          rw [gi] at h3
          exact (sub_pos.mpr h3).ne'
        · have e : bf.g (i + 2) = b.g (i + 2) := r.inner _ (by omega) (by unfold Basis.len at hlast hi; omega)
          rw [e]
          exact quot_near hu _ _

/-- C95: the constructor raises on the same inputs as in exact arithmetic and yields as many basis functions, and every value of every basis function, at every
point, has a relative error of at most five roundings: values outside the support are exactly zero, also at points between a node and its sentinel. -/
theorem fem_values (hu : F.u ≤ 1 / 4) (hg : grid.Pairwise (· < ·)) (hs : zb = false → Spaced F grid) :
    (∀ e, mkBasisFl F grid zb = .error e ↔ mkBasis grid zb = .error e) ∧
    ∀ b bf, mkBasis grid zb = .ok b → mkBasisFl F grid zb = .ok bf → ∀ x, (evaluateFl F bf x).length = (b.evaluate x).length ∧
      ∀ i < b.len, |(evaluateFl F bf x).getD i 0 - (b.evaluate x).getD i 0| ≤ ((1 + F.u) ^ 5 - 1) * (b.evaluate x).getD i 0 := by
  constructor
  · intro e
    unfold mkBasis mkBasisFl
    split_ifs <;> simp
  · intro b bf h h' x
    have r := mk_rel hu hg hs h h'
    refine ⟨?_, fun i hi => ?_⟩
    · rw [evaluateFl_length, Basis.evaluate_length]
      unfold Basis.len
      rw [r.len]
    · have := (phi_near (F := F) (by linarith) r hi x).abs
      rwa [abs_of_nonneg (Basis.phi_nonneg hi x)] at this

/-- C95: at the nodes, all other basis functions are exactly zero, and the one belonging to the node is one up to five roundings. (That it is one exactly is false:
`fem_delta_violated`.) -/
theorem fem_delta_partial (hu : F.u ≤ 1 / 4) (hg : grid.Pairwise (· < ·)) (hs : zb = false → Spaced F grid) (h : mkBasis grid zb = .ok b)
    (h' : mkBasisFl F grid zb = .ok bf) {i j : ℕ} (hi : i < b.len) (hj : j < b.len) :
    (i ≠ j → (evaluateFl F bf (node grid zb j)).getD i 0 = 0) ∧
      |(evaluateFl F bf (node grid zb i)).getD i 0 - 1| ≤ (1 + F.u) ^ 5 - 1 := by
  have hv := (fem_values hu hg hs).2 b bf h h'
  constructor
  · intro hij
    have := (hv (node grid zb j)).2 i hi
    rw [basis_delta hg h hi hj, if_neg hij, mul_zero, sub_zero] at this
    exact abs_nonpos_iff.mp this
  · have := (hv (node grid zb i)).2 i hi
    rwa [basis_delta hg h hi hi, if_pos rfl, mul_one] at this

/-- C95: expansions in the computed basis differ from those in the exact basis by at most five roundings relative to the expansion of the absolute values of the
coefficients; between the outer nodes, the computed values add up to one up to five roundings. -/
theorem fem_expansion (hu : F.u ≤ 1 / 4) (hg : grid.Pairwise (· < ·)) (hs : zb = false → Spaced F grid) (h : mkBasis grid zb = .ok b)
    (h' : mkBasisFl F grid zb = .ok bf) (x : ℝ) :
    (∀ c : ℕ → ℝ, |∑ i ∈ range b.len, c i * (evaluateFl F bf x).getD i 0 - ∑ i ∈ range b.len, c i * (b.evaluate x).getD i 0| ≤
      ((1 + F.u) ^ 5 - 1) * ∑ i ∈ range b.len, |c i| * (b.evaluate x).getD i 0) ∧
    (node grid zb 0 ≤ x → x ≤ node grid zb (b.len - 1) → |∑ i ∈ range b.len, (evaluateFl F bf x).getD i 0 - 1| ≤ (1 + F.u) ^ 5 - 1) := by
  have hv := (fem_values hu hg hs).2 b bf h h' x
  have main : ∀ c : ℕ → ℝ, |∑ i ∈ range b.len, c i * (evaluateFl F bf x).getD i 0 - ∑ i ∈ range b.len, c i * (b.evaluate x).getD i 0| ≤
      ((1 + F.u) ^ 5 - 1) * ∑ i ∈ range b.len, |c i| * (b.evaluate x).getD i 0 := by
    intro c
    rw [← sum_sub_distrib, mul_sum]
    refine (abs_sum_le_sum_abs _ _).trans (sum_le_sum fun i hi => ?_)
    rw [← mul_sub, abs_mul, mul_left_comm]
    exact mul_le_mul_of_nonneg_left (hv.2 i (mem_range.mp hi)) (abs_nonneg _)
  refine ⟨main, fun h1 h2 => ?_⟩
  have hsum := basis_partition_of_unity hg h h1 h2
  have e : ∑ i ∈ range b.len, (b.evaluate x).getD i 0 = 1 := by
    rw [← hsum, ← Basis.evaluate_length (b := b) x, ← Fin.sum_univ_eq_sum_range (fun i => (b.evaluate x).getD i 0), ← List.sum_ofFn]
    congr 1
    refine List.ext_getElem (by simp) fun i h1 h2 => ?_
    simp [List.getD_eq_getElem?_getD]
  have := main 1
  simp only [Pi.one_apply, one_mul, abs_one] at this
  rwa [e, mul_one] at this

open Classical in
/-- C95: `eval_elem` returns the same floating-point number as the evaluation of the whole basis, for non-negative and negative indices, and raises for others. -/
theorem fem_eval_elem (hu : F.u ≤ 1 / 4) (hg : grid.Pairwise (· < ·)) (hs : zb = false → Spaced F grid) (h : mkBasis grid zb = .ok b)
    (h' : mkBasisFl F grid zb = .ok bf) (x : ℝ) :
    (∀ i < b.len, evalElemFl F bf i x = .ok ((evaluateFl F bf x).getD i 0) ∧
      evalElemFl F bf ((i : ℤ) - b.len) x = .ok ((evaluateFl F bf x).getD i 0)) ∧
    ∀ idx : ℤ, idx < -b.len ∨ (b.len : ℤ) ≤ idx → evalElemFl F bf idx x = .error .indexError := by
  have r := mk_rel hu hg hs h h'
  have hl : bf.len = b.len := by unfold Basis.len; rw [r.len]
  have core : ∀ (idx : ℤ) (i : ℕ), i < b.len → Basis.pyIndex bf.len idx = .ok i → evalElemFl F bf idx x = .ok ((evaluateFl F bf x).getD i 0) := by
    intro idx i hi hp
    have hi' : i < bf.len := by omega
    have hil := Basis.len_lt hi
    have hz0 : b.phi i x = 0 → (evaluateFl F bf x).getD i 0 = 0 := by
      intro e
      obtain ⟨t, _, e2⟩ := phi_near (F := F) (by linarith) r hi x
      rw [e2, e, mul_zero]
    unfold evalElemFl
    rw [hp]
    change (if (!bf.zeroBoundary) = true then Except.ok (if x > bf.g (bf.grid.length - 2) then 0 else if x < bf.g 1 then 0 else hatFl F bf i x)
      else Except.ok (hatFl F bf i x) : Except Fem.Err ℝ) = _
    have hphi := phiFl_eq (F := F) hi' x
    cases hz : bf.zeroBoundary with
    | true =>
      rw [hz] at hphi
      rw [hphi, if_neg (by simp)]
      simp
    | false =>
      simp only [Bool.not_false, if_true]
      congr 1
      have g1 : bf.g 1 = b.g 1 := r.inner _ le_rfl (by omega)
      have gl : bf.g (bf.grid.length - 2) = b.g (b.grid.length - 2) := by rw [r.len]; exact r.inner _ (by omega) (by omega)
      split_ifs with c1 c2
      · refine (hz0 ?_).symm
        rw [gt_iff_lt, gl] at c1
        by_cases hlast : i = b.len - 1
        · rw [Basis.phi_eq hi, if_pos ⟨by rw [← r.zb, hz], Or.inr ⟨hlast, c1⟩⟩]
        · exact Basis.phi_high r.good hi ((r.good.le (by unfold Basis.len at *; omega) (by omega)).trans c1.le)
      · refine (hz0 ?_).symm
        rw [g1] at c2
        by_cases h0 : i = 0
        · rw [Basis.phi_eq hi, if_pos ⟨by rw [← r.zb, hz], Or.inl ⟨h0, c2⟩⟩]
        · exact Basis.phi_low r.good hi (c2.le.trans (r.good.le (by omega) (by omega)))
      · rw [hphi, if_neg]
        rintro ⟨_, ⟨_, q⟩ | ⟨_, q⟩⟩
        · exact c2 q
        · exact c1 q
  refine ⟨fun i hi => ⟨core _ i hi ?_, core _ i hi ?_⟩, fun idx hidx => ?_⟩
  · unfold Basis.pyIndex
    rw [if_pos ⟨by omega, by omega⟩]
    simp
  · unfold Basis.pyIndex
    rw [if_neg (by omega), if_pos ⟨by omega, by omega⟩, hl]
    simp
  · unfold evalElemFl Basis.pyIndex
    rw [if_neg (by omega), if_neg (by omega)]
    rfl

/-! ## Mass matrix -/

lemma third_near (x c : ℝ) : F.Near 2 (F.rd (F.rd x / c)) (x / c) := by
  have h1 : F.Near 1 (F.rd x) x := rd_fac F x
  have h := (h1.mul (near_refl F 0 c⁻¹)).rd
  rwa [← div_eq_mul_inv, ← div_eq_mul_inv] at h

/-- The boundary correction preserves relative errors. -/
lemma fix_near {k : ℕ} (r : Rel b bf) {l lf : List ℝ} {a0 a1 f0 f1 : ℝ} (hl : l.length = b.len) (hlf : lf.length = b.len)
    (hi : ∀ i < b.len, (b.zeroBoundary = true ∨ (i ≠ 0 ∧ i ≠ b.len - 1)) → F.Near k (lf.getD i 0) (l.getD i 0)) (h0 : F.Near k f0 a0) (h1 : F.Near k f1 a1) {i : ℕ}
    (hib : i < b.len) :
    F.Near k ((if (!bf.zeroBoundary) = true then (lf.set 0 f0).set (bf.len - 1) f1 else lf).getD i 0)
      ((if (!b.zeroBoundary) = true then (l.set 0 a0).set (b.len - 1) a1 else l).getD i 0) := by
  have hlen : bf.len = b.len := by unfold Basis.len; rw [r.len]
  rw [r.zb, hlen]
  cases hz : b.zeroBoundary with
  | true => simpa using hi i hib (Or.inl hz)
  | false =>
    simp only [Bool.not_false, if_true]
    rw [getD_set' (by simp; omega), getD_set' (by omega), getD_set' (by simp; omega), getD_set' (by omega)]
    split_ifs with c1 c2
    · exact h1
    · exact h0
    · exact hi i hib (Or.inr ⟨c2, c1⟩)

lemma inner_eq (r : Rel b bf) {i : ℕ} (hi : i < b.len) (h : b.zeroBoundary = true ∨ (i ≠ 0 ∧ i ≠ b.len - 1)) : bf.g i = b.g i ∧ bf.g (i + 2) = b.g (i + 2) := by
  rcases h with h | ⟨h1, h2⟩
  · exact ⟨r.all h _, r.all h _⟩
  · have := Basis.len_lt hi
    exact ⟨r.inner _ (by omega) (by omega), r.inner _ (by omega) (by unfold Basis.len at *; omega)⟩

/-- Entries of the form `op x_ip1 x_im1`, with the boundary correction. -/
lemma op_near {k : ℕ} (r : Rel b bf) {f e : ℝ → ℝ → ℝ} (hop : ∀ u v, F.Near k (f u v) (e u v)) {i : ℕ} (hi : i < b.len) :
    F.Near k ((if (!bf.zeroBoundary) = true then ((List.zipWith f bf.xip1 bf.xim1).set 0 (f (bf.xip1.getD 0 0) (bf.xi.getD 0 0))).set (bf.len - 1)
        (f (bf.xi.getD (bf.len - 1) 0) (bf.xim1.getD (bf.len - 1) 0)) else List.zipWith f bf.xip1 bf.xim1).getD i 0)
      ((if (!b.zeroBoundary) = true then ((List.zipWith e b.xip1 b.xim1).set 0 (e (b.xip1.getD 0 0) (b.xi.getD 0 0))).set (b.len - 1)
        (e (b.xi.getD (b.len - 1) 0) (b.xim1.getD (b.len - 1) 0)) else List.zipWith e b.xip1 b.xim1).getD i 0) := by
  have hlen : bf.len = b.len := by unfold Basis.len; rw [r.len]
  have h3 := Basis.len_lt hi
  have hpos : 0 < b.len := by omega
  have e1 : bf.g 1 = b.g 1 := r.inner _ le_rfl (by omega)
  have el : bf.g (b.len - 1 + 1) = b.g (b.len - 1 + 1) := r.inner _ (by omega) (by unfold Basis.len; omega)
  have e2 : bf.g 2 = b.g 2 := by
    cases hz : b.zeroBoundary with
    | true => exact r.all hz _
    | false => exact r.inner _ (by omega) (by have := r.good.size' hz; omega)
  have el' : bf.g (b.len - 1) = b.g (b.len - 1) := by
    cases hz : b.zeroBoundary with
    | true => exact r.all hz _
    | false => exact r.inner _ (by have := r.good.size' hz; unfold Basis.len; omega) (by unfold Basis.len; omega)
  refine fix_near r ?_ ?_ ?_ ?_ ?_ hi
  · simp [Basis.xip1_length, Basis.xim1_length]
  · simp [Basis.xip1_length, Basis.xim1_length, hlen]
  · intro i hi hc
    obtain ⟨q1, q2⟩ := inner_eq r hi hc
    rw [Basis.getD_zipWith' (by rw [Basis.xip1_length]; omega) (by rw [Basis.xim1_length]; omega),
      Basis.getD_zipWith' (by rw [Basis.xip1_length]; omega) (by rw [Basis.xim1_length]; omega), Basis.xip1_getD, Basis.xip1_getD, Basis.xim1_getD (by omega),
      Basis.xim1_getD hi, q1, q2]
    exact hop _ _
  · rw [Basis.xip1_getD, Basis.xip1_getD, Basis.xi_getD (by omega), Basis.xi_getD hpos, e1, e2]
    exact hop _ _
  · rw [hlen, Basis.xi_getD (by omega), Basis.xi_getD (by omega), Basis.xim1_getD (by omega), Basis.xim1_getD (by omega), el, el']
    exact hop _ _

lemma mass_near (r : Rel b bf) (hl : bf.len = b.len) (i j : Fin bf.len) :
    F.Near 2 (massMatrixFl F bf i j) (massMatrix b (i.cast hl) (j.cast hl)) := by
  have off : ∀ k, k + 1 < b.len → F.Near 2 ((massOffdiagFl F bf).getD k 0) ((massOffdiag b).getD k 0) := by
    intro k hk
    have h1 := Basis.xip1_length (b := bf)
    have h2 := Basis.xi_length (b := bf)
    have h3 := Basis.len_lt hk
    rw [massOffdiag_getD hk, massOffdiagFl, Basis.getD_zipWith' (by simp; omega) (by simp; omega), Basis.getD_take' (by omega), Basis.getD_take' (by omega),
      Basis.xip1_getD, Basis.xi_getD (by omega), r.inner (k + 2) (by omega) (by omega), r.inner (k + 1) (by omega) (by omega)]
    exact third_near _ _
  have hi := i.2
  have hj := j.2
  unfold massMatrixFl massMatrix tridiag
  simp only [Fin.val_cast]
  split_ifs with c1 c2 c3
  · exact op_near r (f := fun u v => F.rd (F.rd (u - v) / 3)) (e := fun u v => (u - v) / 3) (fun _ _ => third_near _ _) (by omega)
  · exact off _ (by omega)
  · exact off _ (by omega)
  · exact near_refl F 2 0

/-- C95: every entry of the computed mass matrix has a relative error of at most two roundings; the matrix is symmetric, and it is invertible, whatever the grid and its
size (so that the normaliser exists). -/
theorem fem_mass (hu : F.u ≤ 1 / 8) (hg : grid.Pairwise (· < ·)) (hs : zb = false → Spaced F grid) (h : mkBasis grid zb = .ok b)
    (h' : mkBasisFl F grid zb = .ok bf) :
    (∃ hl : bf.len = b.len, ∀ i j, |massMatrixFl F bf i j - massMatrix b (i.cast hl) (j.cast hl)| ≤
      ((1 + F.u) ^ 2 - 1) * massMatrix b (i.cast hl) (j.cast hl)) ∧
    (massMatrixFl F bf).IsSymm ∧ IsUnit (massMatrixFl F bf) := by
  have u0 := F.u_nonneg
  have r := mk_rel (by linarith) hg hs h h'
  have hl : bf.len = b.len := by unfold Basis.len; rw [r.len]
  have hn := mass_near (F := F) r hl
  have pos : ∀ i j, 0 ≤ massMatrix b i j := by
    intro i j
    rw [massMatrix_eq r.good]
    exact MeasureTheory.integral_nonneg fun x => mul_nonneg (Basis.phi_nonneg i.2 x) (Basis.phi_nonneg j.2 x)
  refine ⟨⟨hl, fun i j => ?_⟩, ?_, ?_⟩
  · have := (hn i j).abs
    rwa [abs_of_nonneg (pos _ _)] at this
  · ext i j
    change massMatrixFl F bf j i = massMatrixFl F bf i j
    simp only [massMatrixFl, tridiag]
    by_cases c1 : i.val = j.val
    · rw [if_pos c1, if_pos c1.symm, c1]
    · rw [if_neg c1, if_neg (Ne.symm c1)]
      by_cases c2 : i.val = j.val + 1
      · rw [if_neg (by omega), if_pos c2.symm, if_pos c2]
      · by_cases c3 : j.val = i.val + 1
        · rw [if_pos c3, if_neg (by omega), if_pos c3.symm]
        · rw [if_neg c3, if_neg (Ne.symm c2), if_neg c2, if_neg (Ne.symm c3)]
  · rw [Matrix.isUnit_iff_isUnit_det, isUnit_iff_ne_zero]
    refine det_ne_zero_of_sum_row_lt_diag fun i => ?_
    obtain ⟨m1, m2⟩ := mass_row r.good (i.cast hl)
    have d := ((near_iff m1.le).mp (hn i i)).1
    have o : ∑ j ∈ univ.erase i, ‖massMatrixFl F bf i j‖ ≤ (1 + F.u) ^ 2 * ∑ j ∈ univ.erase (i.cast hl), ‖massMatrix b (i.cast hl) j‖ := by
      have e : ∑ j ∈ univ.erase (i.cast hl), ‖massMatrix b (i.cast hl) j‖ = ∑ j ∈ univ.erase i, ‖massMatrix b (i.cast hl) (j.cast hl)‖ := by
        refine (sum_bij (fun j _ => j.cast hl) (fun j hj => ?_) (fun _ _ _ _ e => ?_) (fun j hj => ?_) fun _ _ => rfl).symm
        · simp only [mem_erase, mem_univ, and_true] at hj ⊢
          exact fun e => hj (Fin.ext (by simpa using congrArg Fin.val e))
        · exact Fin.ext (by simpa using congrArg Fin.val e)
        · simp only [mem_erase, mem_univ, and_true] at hj
          refine ⟨j.cast hl.symm, ?_, Fin.ext (by simp)⟩
          simp only [mem_erase, mem_univ, and_true]
          exact fun e => hj (Fin.ext (by simpa using congrArg Fin.val e))
      rw [e, mul_sum]
      refine sum_le_sum fun j _ => ?_
      have p1 := pos (i.cast hl) (j.cast hl)
      rw [Real.norm_eq_abs, Real.norm_eq_abs, abs_of_nonneg p1, abs_of_nonneg ((hn i j).nonneg p1)]
      exact ((near_iff p1).mp (hn i j)).2
    have p0 := (hn i i).nonneg m1.le
    rw [Real.norm_eq_abs (massMatrixFl F bf i i), abs_of_nonneg p0]
    refine o.trans_lt (lt_of_le_of_lt (mul_le_mul_of_nonneg_left m2 (by positivity)) (lt_of_lt_of_le ?_ d))
    have : (1 + F.u) ^ 2 / 2 < (1 - F.u) ^ 2 := by nlinarith
    calc _ = (1 + F.u) ^ 2 / 2 * massMatrix b (i.cast hl) (i.cast hl) := by ring
      _ < _ := mul_lt_mul_of_pos_right this m1

/-- C95: the computed moments of a constant have relative errors of at most three roundings; exactly, they are the integrals of the basis functions times the constant. -/
theorem fem_moments (hu : F.u ≤ 1 / 4) (hg : grid.Pairwise (· < ·)) (hs : zb = false → Spaced F grid) (h : mkBasis grid zb = .ok b)
    (h' : mkBasisFl F grid zb = .ok bf) (value : ℝ) {i : ℕ} (hi : i < b.len) :
    |(momentsFl F bf value).getD i 0 - value * ∫ x, (b.evaluate x).getD i 0| ≤ ((1 + F.u) ^ 3 - 1) * |value * ∫ x, (b.evaluate x).getD i 0| := by
  have r := mk_rel hu hg hs h h'
  have hop : ∀ u v : ℝ, F.Near 3 (F.rd (F.rd (value / 2) * F.rd (u - v))) (value / 2 * (u - v)) := fun u v => by
    have h1 : F.Near 1 (F.rd (value / 2)) (value / 2) := rd_fac F _
    have h2 : F.Near 1 (F.rd (u - v)) (u - v) := rd_fac F _
    exact (h1.mul h2).rd
  have key := (op_near r (f := fun u v => F.rd (F.rd (value / 2) * F.rd (u - v))) (e := fun u v => value / 2 * (u - v)) hop hi).abs
  rw [← const_moment r.good value hi, MeasureTheory.integral_mul_const, mul_comm _ value] at key
  exact key

/-! ## Weak Laplacian -/

lemma dist_getD {k : ℕ} (hk : k + 1 < b.grid.length) :
    (distNormalizerFl F b.grid).getD k 0 = F.rd (1 / F.rd (b.g (k + 1) - b.g k)) ∧ (distNormalizer b.grid).getD k 0 = 1 / (b.g (k + 1) - b.g k) := by
  unfold distNormalizerFl distNormalizer
  rw [Basis.getD_zipWith' (by simp; omega) (by simp; omega), Basis.getD_zipWith' (by simp; omega) (by simp; omega), Basis.getD_drop', Basis.getD_take' (by omega),
    add_comm 1 k]
  exact ⟨rfl, rfl⟩

lemma dist_length : (distNormalizerFl F b.grid).length = b.grid.length - 1 ∧ (distNormalizer b.grid).length = b.grid.length - 1 := by
  simp [distNormalizerFl, distNormalizer]

/-- C95: on a basis made by the rounded constructor, the weak Laplacian raises in the same cases as in exact arithmetic, and every entry has a relative error of at most
four roundings. -/
theorem fem_laplacian (hu : F.u ≤ 1 / 4) (hg : grid.Pairwise (· < ·)) (hs : zb = false → Spaced F grid) (h' : mkBasisFl F grid zb = .ok bf) (test : Basis) :
    (∀ e, weakLaplacianFl F test bf = .error e ↔ weakLaplacian test bf = .error e) ∧
    ∀ A Af, weakLaplacian test bf = .ok A → weakLaplacianFl F test bf = .ok Af → ∀ i j, |Af i j - A i j| ≤ ((1 + F.u) ^ 4 - 1) * |A i j| := by
  have r : bf.Good := by
    cases hm : mkBasis grid zb with
    | ok b => exact (mk_rel hu hg hs hm h').good'
    | error e => rw [((fem_values hu hg hs).1 e).mpr hm] at h'; cases h'
  unfold weakLaplacianFl weakLaplacian
  split_ifs with c1 c2 c3
  · simp
  · simp
  · refine ⟨by simp, fun A Af hA hAf i j => ?_⟩
    rw [← Except.ok.inj hA, ← Except.ok.inj hAf]
    have hi := i.2
    have hj := j.2
    obtain ⟨l1, l2⟩ := dist_length (F := F) (b := bf)
    have hlen : bf.len + 2 = bf.grid.length := by have := r.size; unfold Basis.len; omega
    have pos : ∀ k, k + 1 < bf.grid.length → 0 < (distNormalizer bf.grid).getD k 0 := by
      intro k hk
      rw [(dist_getD (F := F) hk).2]
      exact one_div_pos.mpr (sub_pos.mpr (r.incr k hk))
    have near : ∀ k, k + 1 < bf.grid.length → F.Near 3 ((distNormalizerFl F bf.grid).getD k 0) ((distNormalizer bf.grid).getD k 0) := by
      intro k hk
      rw [(dist_getD (F := F) hk).1, (dist_getD (F := F) hk).2]
      have h2 : F.Near 1 (F.rd (bf.g (k + 1) - bf.g k)) (bf.g (k + 1) - bf.g k) := rd_fac F _
      exact ((near_refl F 0 1).div (by linarith) h2).rd
    refine Fmt.Near.abs ?_
    unfold upperDiags
    split_ifs with d1 d2 d3
    · rw [Basis.getD_take' (by omega), Basis.getD_take' (by omega)]
      exact (near _ (by omega)).mono (by omega)
    · unfold lapDiagFl lapDiag
      rw [Basis.getD_zipWith' (by simp; omega) (by simp; omega), Basis.getD_zipWith' (by simp; omega) (by simp; omega), Basis.getD_take' (by omega),
        Basis.getD_take' (by omega), Basis.getD_drop', Basis.getD_drop', add_comm 1 i.val]
      have n1 := near i (by omega)
      have n2 := near (i + 1) (by omega)
      have p1 := (pos i (by omega)).le
      have p2 := (pos (i + 1) (by omega)).le
      have n3 : F.Near 3 ((distNormalizerFl F bf.grid).getD i 0 + (distNormalizerFl F bf.grid).getD (i + 1) 0)
          ((distNormalizer bf.grid).getD i 0 + (distNormalizer bf.grid).getD (i + 1) 0) := by
        rw [near_iff (add_nonneg p1 p2)]
        have q1 := (near_iff p1).mp n1
        have q2 := (near_iff p2).mp n2
        constructor <;> linarith [q1.1, q1.2, q2.1, q2.2]
      obtain ⟨t, ht, e⟩ := n3.rd
      refine ⟨t, ht, ?_⟩
      rw [show ∀ x y : ℝ, -x - y = -(x + y) from fun x y => by ring, show ∀ x y : ℝ, -x - y = -(x + y) from fun x y => by ring, F.neg, e]
      ring
    · rw [Basis.getD_drop', Basis.getD_drop']
      exact (near _ (by omega)).mono (by omega)
    · exact near_refl F 4 0
  · simp

/-! ## The value at the node -/

/-- A distance whose computed reciprocal, multiplied by it, gives the number before one. -/
lemma bin_reciprocal (p : ℕ) (hp : 6 ≤ p) : ∃ d : ℝ, 1 < d ∧ (bin p).rd d = d ∧ (bin p).rd (d * (bin p).rd (1 / d)) = 1 - 1 / 2 ^ (p + 1) := by
  have rdp : ∀ {x : ℝ}, 0 < x → (bin p).rd x = binPos p x := fun h => binRd_pos p h
  obtain ⟨M, hM⟩ : ∃ M : ℤ, M = 2 ^ (p - 1) := ⟨_, rfl⟩
  have hN2 : (2 : ℝ) ^ p = 2 * M := by
    rw [hM]; push_cast
    rw [← pow_succ']
    congr 1; omega
  have hMge : (32 : ℝ) ≤ M := by
    rw [hM]; push_cast
    calc (32 : ℝ) = 2 ^ 5 := by norm_num
      _ ≤ 2 ^ (p - 1) := pow_le_pow_right₀ one_le_two (by omega)
  have key : ∃ (k m : ℤ), ((k : ℝ) = 1 ∧ (3 * m : ℝ) = 8 * M - 4 ∨ (k : ℝ) = -2 ∧ (3 * m : ℝ) = 8 * M + 4) := by
    have hmod : M % 3 = 1 ∨ M % 3 = 2 := by
      rw [hM]
      generalize p - 1 = q
      induction q with
      | zero => simp
      | succ q ih => rw [pow_succ]; omega
    rcases hmod with h | h
    · refine ⟨-2, (8 * M + 4) / 3, Or.inr ⟨by norm_num, ?_⟩⟩
      have : 3 * ((8 * M + 4) / 3) = 8 * M + 4 := by omega
      exact_mod_cast this
    · refine ⟨1, (8 * M - 4) / 3, Or.inl ⟨by norm_num, ?_⟩⟩
      have : 3 * ((8 * M - 4) / 3) = 8 * M - 4 := by omega
      exact_mod_cast this
  obtain ⟨k, m, hkm⟩ := key
  have hM0 : (0 : ℝ) < M := by linarith
  have z0 : (2 : ℝ) ^ ((0 : ℤ) - p) = 1 / (2 * M) := by rw [zero_sub, zpow_neg, zpow_natCast, hN2, one_div]
  have z1 : (2 : ℝ) ^ ((-1 : ℤ) - p) = 1 / (4 * M) := by
    rw [show ((-1 : ℤ) - p) = -((p + 1 : ℕ) : ℤ) by push_cast; ring, zpow_neg, zpow_natCast, pow_succ, hN2, one_div]
    congr 1; ring
  set d : ℝ := (3 * M + k) / (2 * M) with hd
  have hk1 : -2 ≤ (k : ℝ) := by rcases hkm with h | h <;> linarith [h.1]
  have hk2 : (k : ℝ) ≤ 1 := by rcases hkm with h | h <;> linarith [h.1]
  have d1 : 1 < d := by rw [hd, lt_div_iff₀ (by linarith)]; linarith
  have d2 : d < 2 := by rw [hd, div_lt_iff₀ (by linarith)]; linarith
  have r1 : (bin p).rd d = d := by
    rw [rdp (by linarith), binPos_eq 0 (by simpa using d1.le) (by simpa using d2) (3 * M + k) (by rw [z0, hd]; push_cast; field_simp; norm_num), z0, hd]
    push_cast
    ring
  have hpos : (0 : ℝ) < 3 * M + k := by linarith
  have r2 : (bin p).rd (1 / d) = m / (4 * M) := by
    rw [rdp (by positivity), binPos_eq (-1) (by rw [zpow_neg_one, one_div]; exact inv_anti₀ (by linarith) d2.le)
      (by rw [neg_add_cancel, zpow_zero, div_lt_one (by linarith)]; exact d1) m ?_, z1]
    · ring
    · rw [z1, hd]
      have e : 1 / ((3 * (M : ℝ) + k) / (2 * M)) / (1 / (4 * M)) - m = (8 * M ^ 2 - m * (3 * M + k)) / (3 * M + k) := by field_simp; ring
      rw [e, abs_lt, lt_div_iff₀ hpos, div_lt_iff₀ hpos]
      rcases hkm with ⟨h1, h2⟩ | ⟨h1, h2⟩
      · rw [h1, show (m : ℝ) = (8 * M - 4) / 3 by linarith]
        constructor <;> nlinarith
      · rw [h1, show (m : ℝ) = (8 * M + 4) / 3 by linarith]
        constructor <;> nlinarith
  refine ⟨d, d1, r1, ?_⟩
  rw [r2]
  have e : d * (m / (4 * M)) = (3 * M + k) * m / (8 * M ^ 2) := by rw [hd]; field_simp; ring
  have b1 : 8 * (M : ℝ) ^ 2 - 2 * M ≤ (3 * M + k) * m ∧ (3 * M + k) * m ≤ 8 * (M : ℝ) ^ 2 - 4 / 3 * M := by
    rcases hkm with ⟨h1, h2⟩ | ⟨h1, h2⟩
    · rw [h1, show (m : ℝ) = (8 * M - 4) / 3 by linarith]
      constructor <;> nlinarith
    · rw [h1, show (m : ℝ) = (8 * M + 4) / 3 by linarith]
      constructor <;> nlinarith
  have hM2 : (0 : ℝ) < 8 * (M : ℝ) ^ 2 := by positivity
  have c1 : 1 / 2 ≤ (3 * M + k) * m / (8 * (M : ℝ) ^ 2) := by rw [le_div_iff₀ hM2]; nlinarith [b1.1]
  have c2 : (3 * M + k) * m / (8 * (M : ℝ) ^ 2) < 1 := by rw [div_lt_one hM2]; nlinarith [b1.2]
  rw [e, rdp (by linarith), binPos_eq (-1) (by rw [zpow_neg_one]; linarith) (by rw [neg_add_cancel, zpow_zero]; exact c2) (4 * M - 1) ?_, z1]
  · push_cast
    rw [pow_succ, hN2]
    field_simp
    ring
  · rw [z1]
    have e2 : (3 * (M : ℝ) + k) * m / (8 * M ^ 2) / (1 / (4 * M)) - ((4 * M - 1 : ℤ) : ℝ) = ((3 * M + k) * m - 8 * M ^ 2 + 2 * M) / (2 * M) := by
      push_cast; field_simp; ring
    rw [e2, abs_lt, lt_div_iff₀ (by linarith), div_lt_iff₀ (by linarith)]
    constructor <;> linarith [b1.1, b1.2]

/-- C95 (violation): in every binary format with at least six digits (so in single and double precision), there is a grid of three floating-point numbers on which the
computed basis function does not take the value one at its own node, but the number before it. -/
theorem fem_delta_violated (p : ℕ) (hp : 6 ≤ p) : ∃ (grid : List ℝ) (b bf : Basis), grid.Pairwise (· < ·) ∧ (∀ x ∈ grid, (bin p).rd x = x) ∧
    mkBasis grid true = .ok b ∧ mkBasisFl (bin p) grid true = .ok bf ∧ (b.evaluate (node grid true 0)).getD 0 0 = 1 ∧
    (evaluateFl (bin p) bf (node grid true 0)).getD 0 0 = 1 - 1 / 2 ^ (p + 1) := by
  obtain ⟨d, d1, r1, r2⟩ := bin_reciprocal p hp
  have hg : ([-1, 0, d] : List ℝ).Pairwise (· < ·) := by
    simp only [List.pairwise_cons, List.mem_cons, List.not_mem_nil, or_false, forall_eq_or_imp, forall_eq]
    refine ⟨⟨by norm_num, by linarith⟩, by linarith, by simp, List.Pairwise.nil⟩
  have h1 : mkBasis [-1, 0, d] true = .ok ⟨[-1, 0, d], true⟩ := by simp [mkBasis]
  have h2 : mkBasisFl (bin p) [-1, 0, d] true = .ok ⟨[-1, 0, d], true⟩ := by simp [mkBasisFl]
  have hl : (0 : ℕ) < Basis.len ⟨[-1, 0, d], true⟩ := by simp [Basis.len]
  refine ⟨[-1, 0, d], _, _, hg, ?_, h1, h2, ?_, ?_⟩
  · intro x hx
    simp only [List.mem_cons, List.not_mem_nil, or_false] at hx
    rcases hx with rfl | rfl | rfl
    · rw [(bin p).neg, (bin p).one]
    · exact rd_zero _
    · exact r1
  · rw [basis_delta hg h1 hl hl, if_pos rfl]
  · have e : node [-1, 0, d] true 0 = 0 := by simp [node]
    rw [phiFl_eq hl, if_neg (by simp), hatFl, Basis.xi_getD hl, Basis.xip1_getD, rf_getD hl, e]
    have g1 : Basis.g ⟨[-1, 0, d], true⟩ (0 + 1) = 0 := by simp [Basis.g]
    have g2 : Basis.g ⟨[-1, 0, d], true⟩ (0 + 2) = d := by simp [Basis.g]
    rw [g1, g2, if_neg (lt_irrefl _), sub_zero, r1, r2, max_eq_right]
    have : (1 : ℝ) ≤ 2 ^ (p + 1) := one_le_pow₀ one_le_two
    rw [sub_nonneg, div_le_one (by linarith)]
    exact this

/-! ## Double precision -/

lemma bin52_u : (bin 52).u ≤ 1 / 8 := by
  change (2 : ℝ) ^ (-(52 + 1 : ℤ)) ≤ 1 / 8
  norm_num

/-- A grid with unequal cells. -/
def exGrid : List ℝ := [0, 1, 3, 10]

lemma exGrid_lt : exGrid.Pairwise (· < ·) := by
  simp only [exGrid, List.pairwise_cons, List.mem_cons, List.not_mem_nil, or_false, forall_eq_or_imp, forall_eq]
  norm_num

lemma exGrid_spaced : Spaced (bin 52) exGrid := by
  have := bin52_u
  have h0 := (bin 52).u_nonneg
  simp only [Spaced, exGrid]
  norm_num
  linarith

example : ∃ b bf, mkBasis exGrid false = .ok b ∧ mkBasisFl (bin 52) exGrid false = .ok bf ∧ b.len = 4 ∧
    |(evaluateFl (bin 52) bf 2).getD 1 0 - (b.evaluate 2).getD 1 0| ≤ ((1 + (bin 52).u) ^ 5 - 1) * (b.evaluate 2).getD 1 0 ∧
    (evaluateFl (bin 52) bf 10).getD 1 0 = 0 ∧ IsUnit (massMatrixFl (bin 52) bf) := by
  have hu := bin52_u
  have hl : exGrid.length = 4 := rfl
  obtain ⟨b, hb, -, h1, -⟩ := (basis_constructs exGrid false).1 (by rw [hl]; norm_num)
  have hbf : ∃ bf, mkBasisFl (bin 52) exGrid false = .ok bf := by
    cases hm : mkBasisFl (bin 52) exGrid false with
    | ok bf => exact ⟨bf, rfl⟩
    | error e =>
      rw [((fem_values (by linarith) exGrid_lt fun _ => exGrid_spaced).1 e).mp hm] at hb
      cases hb
  obtain ⟨bf, hbf⟩ := hbf
  have h4 : b.len = 4 := by rw [h1]; rfl
  refine ⟨b, bf, hb, hbf, h4, ((fem_values (by linarith) exGrid_lt fun _ => exGrid_spaced).2 b bf hb hbf 2).2 1 (by omega), ?_,
    (fem_mass hu exGrid_lt (fun _ => exGrid_spaced) hb hbf).2.2⟩
  have := (fem_delta_partial (F := bin 52) (i := 1) (j := 3) (by linarith) exGrid_lt (fun _ => exGrid_spaced) hb hbf (by omega) (by omega)).1 (by omega)
  rwa [show node exGrid false 3 = 10 by simp [node, exGrid]] at this

/-- In double precision. -/
example : ∃ (grid : List ℝ) (bf : Basis), mkBasisFl (bin 52) grid true = .ok bf ∧ (evaluateFl (bin 52) bf (node grid true 0)).getD 0 0 = 1 - 1 / 2 ^ 53 := by
  obtain ⟨grid, _, bf, _, _, _, h, _, h'⟩ := fem_delta_violated 52 (by omega)
  exact ⟨grid, bf, h, h'⟩

end LinPDE.Rounding.FemFl
