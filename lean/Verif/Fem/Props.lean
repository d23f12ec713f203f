import Verif.Fem.Lemmas
import Mathlib.Algebra.BigOperators.Fin
import Mathlib.Algebra.BigOperators.Ring.Finset

/-! # The finite element basis (C41) -/

namespace LinPDE.Fem

/-- The interior nodes in terms of the grid handed to the constructor: all grid points, or all but the outer two. -/
def node (grid : List ℝ) (zb : Bool) (j : ℕ) : ℝ := grid.getD (j + if zb then 1 else 0) 0

lemma mkBasis_node {grid : List ℝ} {zb : Bool} {b : Basis} (h : mkBasis grid zb = .ok b) :
    b.len = grid.length - (if zb then 2 else 0) ∧ (∀ j < b.len, b.g (j + 1) = node grid zb j) := by
  unfold mkBasis at h
  cases zb with
  | false =>
    simp only [Bool.not_false, if_true] at h
    split_ifs at h with h1
    have hb := Except.ok.inj h
    subst hb
    have hl : Basis.len ⟨[grid.getD 0 0 - (grid.getD 1 0 - grid.getD 0 0)] ++ grid ++
      [grid.getD (grid.length - 1) 0 + (grid.getD (grid.length - 1) 0 - grid.getD (grid.length - 2) 0)], false⟩ = grid.length := by
      simp [Basis.len]
    refine ⟨by rw [hl]; simp, fun j hj => ?_⟩
    rw [hl] at hj
    simp [Basis.g, node, List.getD_eq_getElem?_getD, List.getElem?_append, hj]
  | true =>
    simp only [Bool.not_true, Bool.false_eq_true, if_false] at h
    split_ifs at h with h1
    have hb := Except.ok.inj h
    subst hb
    exact ⟨rfl, fun j _ => rfl⟩

/-- C41: a basis is constructed exactly from grids with at least three points, and has one function per interior node. -/
theorem basis_constructs (grid : List ℝ) (zb : Bool) :
    (3 ≤ grid.length → ∃ b, mkBasis grid zb = .ok b ∧ b.zeroBoundary = zb ∧
      b.len = (if zb then grid.length - 2 else grid.length) ∧
      ∀ j < b.len, b.xi.getD j 0 = node grid zb j) ∧
    (grid.length < 3 → mkBasis grid zb = .error .valueError) := by
  constructor
  · intro h
    cases zb with
    | false =>
      have hm : ∃ b, mkBasis grid false = .ok b ∧ b.zeroBoundary = false := by
        unfold mkBasis
        rw [if_neg (by omega)]
        exact ⟨_, rfl, rfl⟩
      obtain ⟨b, hb, hz⟩ := hm
      obtain ⟨h1, h2⟩ := mkBasis_node hb
      refine ⟨b, hb, hz, by simpa using h1, fun j hj => ?_⟩
      rw [Basis.xi_getD hj, h2 j hj]
    | true =>
      have hm : ∃ b, mkBasis grid true = .ok b ∧ b.zeroBoundary = true := by
        unfold mkBasis
        rw [if_neg (by omega)]
        exact ⟨_, rfl, rfl⟩
      obtain ⟨b, hb, hz⟩ := hm
      obtain ⟨h1, h2⟩ := mkBasis_node hb
      refine ⟨b, hb, hz, by simpa using h1, fun j hj => ?_⟩
      rw [Basis.xi_getD hj, h2 j hj]
  · intro h
    unfold mkBasis
    rw [if_pos h]

/-- C41: `phi_i (x_j) = delta_ij` at the interior nodes. -/
theorem basis_delta {grid : List ℝ} {zb : Bool} {b : Basis} (hg : grid.Pairwise (· < ·)) (h : mkBasis grid zb = .ok b)
    {i j : ℕ} (hi : i < b.len) (hj : j < b.len) :
    (b.evaluate (node grid zb j)).getD i 0 = if i = j then 1 else 0 := by
  obtain ⟨hG, _⟩ := mkBasis_good hg h
  rw [← (mkBasis_node h).2 j hj]
  change b.phi i _ = _
  have hil := Basis.len_lt hi
  have hjl := Basis.len_lt hj
  rcases lt_trichotomy i j with h1 | rfl | h1
  · rw [if_neg (by omega), Basis.phi_high hG hi (hG.le (by omega) (by omega))]
  · rw [if_pos rfl, Basis.phi_node hG hi]
  · rw [if_neg (by omega), Basis.phi_low hG hi (hG.le (by omega) (by omega))]

/-- C41: values lie in `[0, 1]`, everywhere. -/
theorem basis_range {grid : List ℝ} {zb : Bool} {b : Basis} (hg : grid.Pairwise (· < ·)) (h : mkBasis grid zb = .ok b)
    (x : ℝ) : (b.evaluate x).length = b.len ∧ ∀ v ∈ b.evaluate x, 0 ≤ v ∧ v ≤ 1 := by
  obtain ⟨hG, _⟩ := mkBasis_good hg h
  refine ⟨Basis.evaluate_length x, fun v hv => ?_⟩
  obtain ⟨i, hi, rfl⟩ := List.mem_iff_getElem.mp hv
  rw [Basis.evaluate_length] at hi
  have e : (b.evaluate x)[i] = b.phi i x := by
    unfold Basis.phi
    rw [List.getD_eq_getElem?_getD, List.getElem?_eq_getElem]
    rfl
  rw [e]
  exact ⟨Basis.phi_nonneg hi x, Basis.phi_le_one hG hi x⟩

/-- C41: the expansion with coefficients `c` is the linear interpolant of `c` on every cell between two interior nodes. -/
theorem basis_interpolates {grid : List ℝ} {zb : Bool} {b : Basis} (hg : grid.Pairwise (· < ·))
    (h : mkBasis grid zb = .ok b) (c : ℕ → ℝ) {j : ℕ} (hj : j + 1 < b.len) {x : ℝ} (hx : node grid zb j ≤ x)
    (hx' : x ≤ node grid zb (j + 1)) :
    ∑ i ∈ Finset.range b.len, c i * (b.evaluate x).getD i 0 =
      c j + (x - node grid zb j) / (node grid zb (j + 1) - node grid zb j) * (c (j + 1) - c j) := by
  obtain ⟨hG, _⟩ := mkBasis_good hg h
  rw [← (mkBasis_node h).2 j (by omega)] at *
  rw [← (mkBasis_node h).2 (j + 1) hj] at *
  have hl := Basis.len_lt hj
  have hlt := hG.incr (j + 1) (by omega)
  change ∑ i ∈ Finset.range b.len, c i * b.phi i x = _
  rw [Finset.sum_eq_add_of_mem (s := Finset.range b.len) (f := fun i => c i * b.phi i x) j (j + 1)
    (by simp; omega) (by simpa using hj) (by omega)]
  · rw [Basis.phi_cell_left hG hj hx hx', Basis.phi_cell_right hG hj hx hx']
    have hne : b.g (j + 2) - b.g (j + 1) ≠ 0 := sub_ne_zero.mpr hlt.ne'
    change c j * _ + c (j + 1) * _ = c j + (x - b.g (j + 1)) / (b.g (j + 2) - b.g (j + 1)) * (c (j + 1) - c j)
    field_simp
    ring
  · intro i hi ⟨h1, h2⟩
    rw [Basis.phi_cell_zero hG (by simpa using hi) (c := j + 1) (by omega) h2 (by omega) hx hx', mul_zero]

lemma exists_cell {n : ℕ} {y : ℕ → ℝ} {x : ℝ} (h0 : y 0 ≤ x) (h1 : x ≤ y (n + 1)) : ∃ j, j < n + 1 ∧ y j ≤ x ∧ x ≤ y (j + 1) := by
  induction n with
  | zero => exact ⟨0, by omega, h0, h1⟩
  | succ n ih =>
    rcases le_total x (y (n + 1)) with h | h
    · obtain ⟨j, hj, h2⟩ := ih h
      exact ⟨j, by omega, h2⟩
    · exact ⟨n + 1, by omega, h, h1⟩

/-- C41: partition of unity between the first and the last interior node. -/
theorem basis_partition_of_unity {grid : List ℝ} {zb : Bool} {b : Basis} (hg : grid.Pairwise (· < ·))
    (h : mkBasis grid zb = .ok b) {x : ℝ} (hx : node grid zb 0 ≤ x) (hx' : x ≤ node grid zb (b.len - 1)) :
    (b.evaluate x).sum = 1 := by
  obtain ⟨hG, _⟩ := mkBasis_good hg h
  have hs : (b.evaluate x).sum = ∑ i ∈ Finset.range b.len, (1 : ℕ → ℝ) i * (b.evaluate x).getD i 0 := by
    simp only [Pi.one_apply, one_mul]
    rw [← Basis.evaluate_length (b := b) x, ← Fin.sum_univ_eq_sum_range (fun i => (b.evaluate x).getD i 0),
      ← List.sum_ofFn]
    congr 1
    refine List.ext_getElem (by simp) fun i h1 h2 => ?_
    simp [List.getD_eq_getElem?_getD]
  have hlen : 1 ≤ b.len := by have := hG.size; unfold Basis.len; omega
  rcases Nat.lt_or_ge 1 b.len with h2 | h2
  · obtain ⟨n, hn⟩ : ∃ n, b.len = n + 2 := ⟨b.len - 2, by omega⟩
    rw [show b.len - 1 = n + 1 by omega] at hx'
    obtain ⟨j, hj, h3, h4⟩ := exists_cell (y := node grid zb) hx hx'
    rw [hs, basis_interpolates hg h 1 (by omega) h3 h4]
    simp
  · have hn : b.len = 1 := by omega
    rw [show b.len - 1 = 0 by omega] at hx'
    rw [hs, hn, Finset.sum_range_one, le_antisymm hx' hx, basis_delta hg h (by omega) (by omega)]
    simp

/-- C41: `eval_elem(idx, x)` is entry `idx` of the evaluation, also for negative indices; other indices raise. -/
theorem basis_eval_elem {grid : List ℝ} {zb : Bool} {b : Basis} (hg : grid.Pairwise (· < ·))
    (h : mkBasis grid zb = .ok b) (x : ℝ) :
    (∀ i : ℕ, i < b.len → b.evalElem i x = .ok ((b.evaluate x).getD i 0) ∧
      b.evalElem ((i : ℤ) - b.len) x = .ok ((b.evaluate x).getD i 0)) ∧
    (∀ idx : ℤ, ¬ (-(b.len : ℤ) ≤ idx ∧ idx < b.len) → b.evalElem idx x = .error .indexError) := by
  classical
  obtain ⟨hG, hz⟩ := mkBasis_good hg h
  have key : ∀ i : ℕ, i < b.len → ∀ idx : ℤ, Basis.pyIndex b.len idx = .ok i → b.evalElem idx x = .ok ((b.evaluate x).getD i 0) := by
    intro i hi idx hidx
    have hil := Basis.len_lt hi
    unfold Basis.evalElem
    rw [hidx]
    change (if (!b.zeroBoundary) = true then Except.ok (if x > b.g (b.grid.length - 2) then 0 else if x < b.g 1 then 0 else b.hatAt i x) else Except.ok (b.hatAt i x)) = _
    change _ = Except.ok (b.phi i x)
    rw [Basis.phi_eq hi]
    cases hzb : b.zeroBoundary with
    | true => simp
    | false =>
      simp only [Bool.not_false, if_true, true_and]
      congr 1
      by_cases h1 : x > b.g (b.grid.length - 2)
      · rw [if_pos h1]
        by_cases h2 : i = b.len - 1
        · rw [if_pos (Or.inr ⟨h2, h1⟩)]
        · have h3 : b.g (i + 2) ≤ x :=
            (hG.le (by unfold Basis.len at *; omega) (by omega)).trans h1.le
          have h4 := Basis.phi_high hG hi h3
          rw [Basis.phi_eq hi, hzb] at h4
          simpa using h4.symm
      · rw [if_neg h1]
        by_cases h2 : x < b.g 1
        · rw [if_pos h2]
          by_cases h3 : i = 0
          · rw [if_pos (Or.inl ⟨h3, h2⟩)]
          · have h3 : x ≤ b.g i := h2.le.trans (hG.le (by omega) (by omega))
            have h4 := Basis.phi_low hG hi h3
            rw [Basis.phi_eq hi, hzb] at h4
            simpa using h4.symm
        · rw [if_neg h2, if_neg]
          rintro (h3 | h3)
          · exact h2 h3.2
          · exact h1 h3.2
  refine ⟨fun i hi => ⟨key i hi _ ?_, key i hi _ ?_⟩, fun idx hidx => ?_⟩
  · unfold Basis.pyIndex
    rw [if_pos ⟨by omega, by omega⟩]
    simp
  · unfold Basis.pyIndex
    rw [if_neg (by omega), if_pos ⟨by omega, by omega⟩]
    simp
  · unfold Basis.evalElem Basis.pyIndex
    rw [if_neg (by omega), if_neg (by omega)]
    rfl

/-- C41: basis function `idx` vanishes outside `support_bounds(idx)`; the bounds are ordered. -/
theorem basis_support {grid : List ℝ} {zb : Bool} {b : Basis} (hg : grid.Pairwise (· < ·))
    (h : mkBasis grid zb = .ok b) (i : ℕ) (hi : i < b.len) :
    ∃ lo hi', b.supportBounds i = .ok (lo, hi') ∧ b.supportBounds ((i : ℤ) - b.len) = .ok (lo, hi') ∧ lo < hi' ∧
      (∀ x, (b.evaluate x).getD i 0 ≠ 0 → lo ≤ x ∧ x ≤ hi') ∧
      (∀ x, lo < x → x < hi' → (b.evaluate x).getD i 0 ≠ 0) := by
  classical
  obtain ⟨hG, hz⟩ := mkBasis_good hg h
  have hil := Basis.len_lt hi
  have hlt1 := hG.incr i (by omega)
  have hlt2 := hG.incr (i + 1) hil
  have p1 : Basis.pyIndex b.len (i : ℤ) = .ok i := by
    unfold Basis.pyIndex
    rw [if_pos ⟨by omega, by omega⟩]
    simp
  have p2 : Basis.pyIndex b.len ((i : ℤ) - b.len) = .ok i := by
    unfold Basis.pyIndex
    rw [if_neg (by omega), if_pos ⟨by omega, by omega⟩]
    simp
  have i1 : ((i : ℤ) = 0 ∨ (i : ℤ) = -(b.len : ℤ)) ↔ i = 0 := by omega
  have i2 : ((i : ℤ) = (b.len : ℤ) - 1 ∨ (i : ℤ) = -1) ↔ i = b.len - 1 := by omega
  have i3 : ((i : ℤ) - b.len = 0 ∨ (i : ℤ) - b.len = -(b.len : ℤ)) ↔ i = 0 := by omega
  have i4 : ((i : ℤ) - b.len = (b.len : ℤ) - 1 ∨ (i : ℤ) - b.len = -1) ↔ i = b.len - 1 := by omega
  change ∃ lo hi', b.supportBounds i = .ok (lo, hi') ∧ b.supportBounds ((i : ℤ) - b.len) = .ok (lo, hi') ∧ lo < hi' ∧
      (∀ x, b.phi i x ≠ 0 → lo ≤ x ∧ x ≤ hi') ∧ (∀ x, lo < x → x < hi' → b.phi i x ≠ 0)
  have hout : ∀ x, b.phi i x ≠ 0 → b.g i ≤ x ∧ x ≤ b.g (i + 2) := by
    intro x hx
    constructor
    · by_contra hc
      exact hx (Basis.phi_low hG hi (not_le.mp hc).le)
    · by_contra hc
      exact hx (Basis.phi_high hG hi (not_le.mp hc).le)
  have hinL : b.Al i → ∀ x, b.g i < x → x < b.g (i + 1) → b.phi i x ≠ 0 := by
    intro ha x h1 h2
    rw [Basis.phi_left hi h1.le h2, if_pos ha]
    exact div_ne_zero (by linarith) (by linarith)
  have hinR : b.Be i → ∀ x, b.g (i + 1) < x → x < b.g (i + 2) → b.phi i x ≠ 0 := by
    intro ha x h1 h2
    rw [Basis.phi_right hi h1 h2.le, if_pos ha]
    exact div_ne_zero (by linarith) (by linarith)
  have hinN : b.phi i (b.g (i + 1)) ≠ 0 := by rw [Basis.phi_node hG hi]; exact one_ne_zero
  have hsb : ∀ idx : ℤ, (-(b.len : ℤ) ≤ idx ∧ idx < b.len) → Basis.pyIndex b.len idx = .ok i →
      ((idx = 0 ∨ idx = -(b.len : ℤ)) ↔ i = 0) → ((idx = (b.len : ℤ) - 1 ∨ idx = -1) ↔ i = b.len - 1) →
      b.supportBounds idx = if b.zeroBoundary = false ∧ i = 0 then .ok (b.xi.getD 0 0, b.xip1.getD 0 0)
        else if b.zeroBoundary = false ∧ i = b.len - 1 then .ok (b.xim1.getD (b.len - 1) 0, b.xi.getD (b.len - 1) 0)
        else .ok (b.xim1.getD i 0, b.xip1.getD i 0) := by
    intro idx h1 h2 h3 h4
    unfold Basis.supportBounds
    rw [if_neg (not_not.mpr h1), h2]
    simp only [h3, h4, Bool.not_eq_true']
    rfl
  rw [hsb _ (by omega) p1 i1 i2, hsb _ (by omega) p2 i3 i4]
  by_cases hA : b.Al i
  · by_cases hB : b.Be i
    · refine ⟨b.g i, b.g (i + 2), ?_, ?_, hlt1.trans hlt2, hout, fun x h1 h2 => ?_⟩
      iterate 2
        rw [if_neg, if_neg]
        · rw [Basis.xim1_getD hi, Basis.xip1_getD]
        · rintro ⟨h1, h2⟩
          rcases hB with h3 | h3
          · simp [h3] at h1
          · exact h3 h2
        · rintro ⟨h1, h2⟩
          rcases hA with h3 | h3
          · simp [h3] at h1
          · exact h3 h2
      rcases lt_trichotomy x (b.g (i + 1)) with h3 | h3 | h3
      · exact hinL hA x h1 h3
      · exact h3 ▸ hinN
      · exact hinR hB x h3 h2
    · have hB' := hB
      unfold Basis.Be at hB'
      push Not at hB'
      have hz' : b.zeroBoundary = false := by simpa using hB'.1
      have hi0 : i ≠ 0 := by
        rcases hA with h3 | h3
        · rw [hz'] at h3; cases h3
        · exact h3
      refine ⟨b.g i, b.g (i + 1), ?_, ?_, hlt1, fun x hx => ⟨(hout x hx).1, ?_⟩, fun x h1 h2 => hinL hA x h1 h2⟩
      iterate 2
        rw [if_neg (fun hc => hi0 hc.2), if_pos ⟨hz', hB'.2⟩, ← hB'.2, Basis.xim1_getD hi, Basis.xi_getD hi]
      by_contra hc
      refine hx ?_
      rw [Basis.phi_right hi (not_le.mp hc) (hout x hx).2, if_neg hB]
  · have hA' := hA
    unfold Basis.Al at hA'
    push Not at hA'
    have hz' : b.zeroBoundary = false := by simpa using hA'.1
    have hi0 : i = 0 := hA'.2
    have h5 := hG.size' hz'
    have hB : b.Be i := Or.inr (by unfold Basis.len; omega)
    refine ⟨b.g (i + 1), b.g (i + 2), ?_, ?_, hlt2, fun x hx => ⟨?_, (hout x hx).2⟩, fun x h1 h2 => hinR hB x h1 h2⟩
    iterate 2
      rw [if_pos ⟨hz', hi0⟩, hi0, Basis.xi_getD (by omega), Basis.xip1_getD]
    by_contra hc
    refine hx ?_
    rw [Basis.phi_left hi (hout x hx).1 (not_le.mp hc), if_neg hA]

/-- Non-vacuity: increasing grids of three points with both settings. -/
example : ([0, 1, 3] : List ℝ).Pairwise (· < ·) ∧ (∃ b, mkBasis [0, 1, 3] true = .ok b ∧ b.len = 1) ∧
    ∃ b, mkBasis [0, 1, 3] false = .ok b ∧ b.len = 3 := by
  refine ⟨by simp, ?_, ?_⟩
  · obtain ⟨b, h1, _, h2, _⟩ := (basis_constructs [0, 1, 3] true).1 (by simp)
    exact ⟨b, h1, by simpa using h2⟩
  · obtain ⟨b, h1, _, h2, _⟩ := (basis_constructs [0, 1, 3] false).1 (by simp)
    exact ⟨b, h1, by simpa using h2⟩

end LinPDE.Fem
