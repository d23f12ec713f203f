import Verif.Fem.ProjectProps

/-! # Weak Laplacian on the finite element basis (C43) -/

namespace LinPDE.Fem
open MeasureTheory Set intervalIntegral Topology

/-- The entry of the stiffness matrix of the Laplacian: `-∫ phi_i' psi_j'` for the test function `phi_i` and the trial
function `psi_j` (both are differentiable up to finitely many points). -/
noncomputable def stiffness (test trial : Basis) (i j : ℕ) : ℝ :=
  -∫ x, deriv (fun x => (test.evaluate x).getD i 0) x * deriv (fun x => (trial.evaluate x).getD j 0) x

open Classical in
/-- Slope of basis function `j` on the open cell `c`. -/
noncomputable def slope (b : Basis) (j c : ℕ) : ℝ :=
  if c = j then (if b.Al j then 1 / (b.g (j + 1) - b.g j) else 0)
  else if c = j + 1 then (if b.Be j then -(1 / (b.g (j + 2) - b.g (j + 1))) else 0)
  else 0

lemma deriv_phi_cell {b : Basis} (h : b.Good) {j c : ℕ} (hj : j < b.len) (hc : c + 1 < b.grid.length) {x : ℝ}
    (hx : b.g c < x) (hx' : x < b.g (c + 1)) : deriv (b.phi j) x = slope b j c := by
  classical
  have hnhds : Ioo (b.g c) (b.g (c + 1)) ∈ 𝓝 x := Ioo_mem_nhds hx hx'
  unfold slope
  by_cases e1 : c = j
  · subst e1
    rw [if_pos rfl]
    have he : b.phi c =ᶠ[𝓝 x] fun x => if b.Al c then (x - b.g c) / (b.g (c + 1) - b.g c) else 0 := by
      filter_upwards [hnhds] with y hy
      exact Basis.phi_left hj hy.1.le hy.2
    rw [he.deriv_eq]
    by_cases hA : b.Al c
    · simp only [if_pos hA]
      rw [deriv_div_const, deriv_sub_const]
      simp
    · simp [if_neg hA]
  rw [if_neg e1]
  by_cases e2 : c = j + 1
  · subst e2
    rw [if_pos rfl]
    have he : b.phi j =ᶠ[𝓝 x] fun x => if b.Be j then (b.g (j + 2) - x) / (b.g (j + 2) - b.g (j + 1)) else 0 := by
      filter_upwards [hnhds] with y hy
      exact Basis.phi_right hj hy.1 hy.2.le
    rw [he.deriv_eq]
    by_cases hB : b.Be j
    · simp only [if_pos hB]
      rw [deriv_div_const, deriv_const_sub]
      simp
      ring
    · simp [if_neg hB]
  · rw [if_neg e2]
    have he : b.phi j =ᶠ[𝓝 x] fun _ => 0 := by
      filter_upwards [hnhds] with y hy
      exact Basis.phi_cell_zero h hj hc (Ne.symm e1) (Ne.symm e2) hy.1.le hy.2.le
    rw [he.deriv_eq]
    simp

lemma deriv_phi_out {b : Basis} (h : b.Good) {j : ℕ} (hj : j < b.len) {x : ℝ}
    (hx : x < b.g j ∨ b.g (j + 2) < x) : deriv (b.phi j) x = 0 := by
  have he : b.phi j =ᶠ[𝓝 x] fun _ => 0 := by
    rcases hx with hx | hx
    · filter_upwards [Iio_mem_nhds hx] with y hy
      exact Basis.phi_low h hj (le_of_lt hy)
    · filter_upwards [Ioi_mem_nhds hx] with y hy
      exact Basis.phi_high h hj (le_of_lt hy)
  rw [he.deriv_eq]
  simp

lemma integral_cell_const {u v c : ℝ} (h : u ≤ v) {f : ℝ → ℝ} (he : ∀ x, u < x → x < v → f x = c) :
    IntervalIntegrable f volume u v ∧ ∫ x in u..v, f x = (v - u) * c := by
  constructor
  · have hc : IntervalIntegrable (fun _ : ℝ => c) volume u v := intervalIntegrable_const
    rw [intervalIntegrable_iff_integrableOn_Ioo_of_le h] at hc ⊢
    exact hc.congr_fun (fun x hx => (he x hx.1 hx.2).symm) measurableSet_Ioo
  · rw [integral_congr_Ioo h he]
    simp

/-- The stiffness matrix between a basis vanishing at the boundary and one on the same grid that does not. -/
lemma stiffness_slope {test trial : Basis} (ht : test.Good) (hz : test.zeroBoundary = true) (hr : trial.Good)
    (hgrid : ∀ c, c < test.grid.length → test.g c = trial.g (c + 1)) (hlen : trial.grid.length = test.grid.length + 2)
    {i j : ℕ} (hi : i < test.len) (hj : j < trial.len) :
    stiffness test trial i j = slope trial j (i + 2) - slope trial j (i + 1) := by
  classical
  have hil := Basis.len_lt hi
  have h1 := ht.incr i (by omega)
  have h2 := ht.incr (i + 1) hil
  have hA : test.Al i := Or.inl hz
  have hB : test.Be i := Or.inl hz
  set F : ℝ → ℝ := fun x => deriv (test.phi i) x * deriv (trial.phi j) x with hF
  have c1 : ∀ x, test.g i < x → x < test.g (i + 1) → F x = 1 / (test.g (i + 1) - test.g i) * slope trial j (i + 1) := by
    intro x hx hx'
    rw [hF]
    beta_reduce
    rw [deriv_phi_cell ht hi (by omega) hx hx']
    rw [hgrid i (by omega)] at hx
    rw [hgrid (i + 1) (by omega)] at hx'
    rw [deriv_phi_cell hr hj (c := i + 1) (by omega) hx hx']
    congr 1
    unfold slope
    rw [if_pos rfl, if_pos hA]
  have c2 : ∀ x, test.g (i + 1) < x → x < test.g (i + 2) → F x = -(1 / (test.g (i + 2) - test.g (i + 1))) * slope trial j (i + 2) := by
    intro x hx hx'
    rw [hF]
    beta_reduce
    rw [deriv_phi_cell ht hi (c := i + 1) hil hx hx']
    rw [hgrid (i + 1) (by omega)] at hx
    rw [hgrid (i + 2) (by omega)] at hx'
    rw [deriv_phi_cell hr hj (c := i + 2) (by omega) hx hx']
    congr 1
    unfold slope
    rw [if_neg (by omega), if_pos rfl, if_pos hB]
  obtain ⟨i1, e1⟩ := integral_cell_const h1.le c1
  obtain ⟨i2, e2⟩ := integral_cell_const h2.le c2
  have hall : ∫ x, F x = ∫ x in test.g i..test.g (i + 2), F x := by
    rw [integral_of_le (h1.trans h2).le, ← integral_Icc_eq_integral_Ioc]
    refine (setIntegral_eq_integral_of_forall_compl_eq_zero fun x hx => ?_).symm
    rw [hF]
    beta_reduce
    rw [deriv_phi_out ht hi, zero_mul]
    by_contra hc
    push Not at hc
    exact hx ⟨hc.1, hc.2⟩
  have hst : stiffness test trial i j = -∫ x, F x := rfl
  rw [hst, hall, ← integral_add_adjacent_intervals i1 i2, e1, e2]
  have n1 : test.g (i + 1) - test.g i ≠ 0 := by linarith
  have n2 : test.g (i + 2) - test.g (i + 1) ≠ 0 := by
    have : test.g (i + 1) < test.g (i + 2) := h2
    linarith
  field_simp
  ring

/-- Everything known about the two bases on a common grid. -/
lemma two_bases {grid : List ℝ} {test trial : Basis} (hg : grid.Pairwise (· < ·)) (h1 : mkBasis grid true = .ok test)
    (h2 : mkBasis grid false = .ok trial) :
    test.grid = grid ∧ trial.grid.length = grid.length + 2 ∧ 3 ≤ grid.length ∧
      (∀ c, c < grid.length → trial.g (c + 1) = grid.getD c 0) ∧
      (trial.grid.take (trial.grid.length - 1)).drop 1 = grid ∧
      trial.g 0 = grid.getD 0 0 - (grid.getD 1 0 - grid.getD 0 0) := by
  have h3 : 3 ≤ grid.length := by
    by_contra hc
    rw [(basis_constructs grid true).2 (by omega)] at h1
    cases h1
  have hn := (mkBasis_node h2)
  unfold mkBasis at h1 h2
  rw [if_neg (by omega)] at h1 h2
  have e1 := Except.ok.inj h1
  have e2 := Except.ok.inj h2
  subst e1 e2
  refine ⟨rfl, by simp, h3, fun c hc => ?_, ?_, by simp [Basis.g]⟩
  · rw [hn.2 c (by rw [hn.1]; simpa using hc)]
    rfl
  · simp

lemma slope_diag {b : Basis} {j : ℕ} (hA : b.Al j) : slope b j j = 1 / (b.g (j + 1) - b.g j) := by
  classical
  unfold slope
  rw [if_pos rfl, if_pos hA]

lemma slope_succ {b : Basis} {j : ℕ} (hB : b.Be j) : slope b j (j + 1) = -(1 / (b.g (j + 2) - b.g (j + 1))) := by
  classical
  unfold slope
  rw [if_neg (by omega), if_pos rfl, if_pos hB]

lemma slope_other {b : Basis} {j c : ℕ} (h1 : c ≠ j) (h2 : c ≠ j + 1) : slope b j c = 0 := by
  classical
  unfold slope
  rw [if_neg h1, if_neg h2]

/-- The stiffness matrix on a common grid `y`: the row of interior node `i + 1` is
`1 / (y_{i+1} - y_i), -(sum), 1 / (y_{i+2} - y_{i+1})` in columns `i, i + 1, i + 2`. -/
theorem stiffness_eq {grid : List ℝ} {test trial : Basis} (hg : grid.Pairwise (· < ·)) (h1 : mkBasis grid true = .ok test)
    (h2 : mkBasis grid false = .ok trial) {i j : ℕ} (hi : i < test.len) (hj : j < trial.len) :
    stiffness test trial i j =
      if j = i then 1 / (grid.getD (i + 1) 0 - grid.getD i 0)
      else if j = i + 1 then -(1 / (grid.getD (i + 1) 0 - grid.getD i 0)) - 1 / (grid.getD (i + 2) 0 - grid.getD (i + 1) 0)
      else if j = i + 2 then 1 / (grid.getD (i + 2) 0 - grid.getD (i + 1) 0)
      else 0 := by
  obtain ⟨e1, e2, e3, e4, -, -⟩ := two_bases hg h1 h2
  obtain ⟨ht, htz⟩ := mkBasis_good hg h1
  obtain ⟨hr, hrz⟩ := mkBasis_good hg h2
  have hil := Basis.len_lt hi
  have hil' : i + 2 < grid.length := by rw [← e1]; exact hil
  have hlt : trial.len = grid.length := by unfold Basis.len; omega
  rw [stiffness_slope ht htz hr (fun c hc => by rw [e4 c (by rw [← e1]; exact hc), ← e1]; rfl) (by rw [e2, e1]) hi hj]
  by_cases c1 : j = i
  · subst c1
    rw [if_pos rfl, slope_succ (Or.inr (by omega)), slope_other (by omega) (by omega), e4 (j + 1) (by omega), e4 j (by omega)]
    ring
  rw [if_neg c1]
  by_cases c2 : j = i + 1
  · subst c2
    rw [if_pos rfl, slope_diag (Or.inr (by omega)), slope_succ (Or.inr (by omega)), e4 (i + 1) (by omega), e4 i (by omega),
      e4 (i + 2) (by omega)]
    ring
  rw [if_neg c2]
  by_cases c3 : j = i + 2
  · subst c3
    rw [if_pos rfl, slope_diag (Or.inr (by omega)), slope_other (by omega) (by omega), e4 (i + 2) (by omega), e4 (i + 1) (by omega)]
    ring
  · rw [if_neg c3, slope_other (by omega) (by omega), slope_other (by omega) (by omega), sub_zero]

lemma distNormalizer_getD {b : Basis} {c : ℕ} (hc : c + 1 < b.grid.length) :
    (distNormalizer b.grid).getD c 0 = 1 / (b.g (c + 1) - b.g c) := by
  unfold distNormalizer Basis.g
  rw [Basis.getD_zipWith' (by simp; omega) (by simp; omega), Basis.getD_drop', Basis.getD_take' (by omega), add_comm]

lemma distNormalizer_length (grid : List ℝ) : (distNormalizer grid).length = grid.length - 1 := by
  simp [distNormalizer]

/-- What the code computes: the same stencil, one cell too far to the left on the grid with sentinels. -/
theorem weak_laplacian_entries {grid : List ℝ} {test trial : Basis} (hg : grid.Pairwise (· < ·))
    (h1 : mkBasis grid true = .ok test) (h2 : mkBasis grid false = .ok trial) :
    ∃ A, weakLaplacian test trial = .ok A ∧ ∀ (i : Fin test.len) (j : Fin trial.len), A i j =
      if j.val = i.val then 1 / (trial.g (i + 1) - trial.g i)
      else if j.val = i.val + 1 then -(1 / (trial.g (i + 1) - trial.g i)) - 1 / (trial.g (i + 2) - trial.g (i + 1))
      else if j.val = i.val + 2 then 1 / (trial.g (i + 2) - trial.g (i + 1))
      else 0 := by
  classical
  obtain ⟨e1, e2, e3, e4, e5, -⟩ := two_bases hg h1 h2
  obtain ⟨ht, htz⟩ := mkBasis_good hg h1
  obtain ⟨hr, hrz⟩ := mkBasis_good hg h2
  unfold weakLaplacian
  rw [if_neg (by simp [htz]), if_neg (by simp [hrz]), if_pos ⟨by unfold Basis.len; rw [e2, e1]; omega, by rw [e5, e1]⟩]
  refine ⟨_, rfl, fun i j => ?_⟩
  have hil := Basis.len_lt i.2
  rw [e1] at hil
  have hdl := distNormalizer_length trial.grid
  unfold upperDiags
  have d0 : ((distNormalizer trial.grid).take ((distNormalizer trial.grid).length - 1)).getD i 0 = 1 / (trial.g (i + 1) - trial.g i) := by
    rw [Basis.getD_take' (by omega), distNormalizer_getD (by omega)]
  have d2 : ((distNormalizer trial.grid).drop 1).getD i 0 = 1 / (trial.g (i + 2) - trial.g (i + 1)) := by
    rw [Basis.getD_drop', add_comm, distNormalizer_getD (by omega)]
  have d1 : (lapDiag (distNormalizer trial.grid)).getD i 0 =
      -(1 / (trial.g (i + 1) - trial.g i)) - 1 / (trial.g (i + 2) - trial.g (i + 1)) := by
    unfold lapDiag
    rw [Basis.getD_zipWith' (by simp; omega) (by simp; omega), d0, d2]
  rw [d0, d1, d2]

/-- C43, partial: on uniform grids the weak Laplacian is the stiffness matrix. Missing: non-uniform grids, for which the
statement is false (`weak_laplacian_iff_uniform`). -/
theorem weak_laplacian_partial {grid : List ℝ} {test trial : Basis} (hg : grid.Pairwise (· < ·))
    (h1 : mkBasis grid true = .ok test) (h2 : mkBasis grid false = .ok trial) (s : ℝ)
    (hu : ∀ c, c + 1 < grid.length → grid.getD (c + 1) 0 - grid.getD c 0 = s) :
    ∃ A, weakLaplacian test trial = .ok A ∧
      ∀ (i : Fin test.len) (j : Fin trial.len), A i j = stiffness test trial i j := by
  obtain ⟨A, hA, hE⟩ := weak_laplacian_entries hg h1 h2
  obtain ⟨e1, e2, e3, e4, e5, e6⟩ := two_bases hg h1 h2
  refine ⟨A, hA, fun i j => ?_⟩
  rw [hE, stiffness_eq hg h1 h2 i.2 j.2]
  have hil := Basis.len_lt i.2
  rw [e1] at hil
  have hs : ∀ c, c < grid.length → trial.g (c + 1) - trial.g c = s := by
    intro c hc
    rcases Nat.eq_zero_or_pos c with rfl | hpos
    · rw [e4 0 hc, e6, ← hu 0 (by omega)]
      ring
    · obtain ⟨k, rfl⟩ : ∃ k, c = k + 1 := ⟨c - 1, by omega⟩
      rw [e4 (k + 1) hc, e4 k (by omega), hu k hc]
  rw [hs i (by omega), show trial.g (i.val + 2) - trial.g (i.val + 1) = s from hs (i + 1) (by omega), hu i (by omega),
    show grid.getD (i.val + 2) 0 - grid.getD (i.val + 1) 0 = s from hu (i + 1) (by omega)]

/-- C43: the weak Laplacian is the stiffness matrix exactly on uniform grids. -/
theorem weak_laplacian_iff_uniform {grid : List ℝ} {test trial : Basis} (hg : grid.Pairwise (· < ·))
    (h1 : mkBasis grid true = .ok test) (h2 : mkBasis grid false = .ok trial) :
    (∃ A, weakLaplacian test trial = .ok A ∧
      ∀ (i : Fin test.len) (j : Fin trial.len), A i j = stiffness test trial i j) ↔
    ∃ s, ∀ c, c + 1 < grid.length → grid.getD (c + 1) 0 - grid.getD c 0 = s := by
  constructor
  · rintro ⟨A, hA, hE⟩
    obtain ⟨A', hA', hE'⟩ := weak_laplacian_entries hg h1 h2
    rw [hA] at hA'
    obtain rfl := Except.ok.inj hA'
    obtain ⟨e1, e2, e3, e4, e5, e6⟩ := two_bases hg h1 h2
    have hlt : test.len = grid.length - 2 := by unfold Basis.len; rw [e1]
    have hlr : trial.len = grid.length := by unfold Basis.len; rw [e2]; omega
    refine ⟨grid.getD 1 0 - grid.getD 0 0, fun c => ?_⟩
    induction c with
    | zero => intro _; rfl
    | succ c ih =>
      intro hc
      rw [← ih (by omega)]
      -- row `c`, column `c + 2`
      have hi : c < test.len := by omega
      have hj : c + 2 < trial.len := by omega
      have hrow := hE ⟨c, hi⟩ ⟨c + 2, hj⟩
      rw [hE', stiffness_eq hg h1 h2 hi hj] at hrow
      simp only [show c + 2 ≠ c by omega, show c + 2 ≠ c + 1 by omega, if_false, if_true] at hrow
      rw [e4 (c + 1) (by omega), e4 c (by omega)] at hrow
      simpa using hrow.symm
  · rintro ⟨s, hs⟩
    exact weak_laplacian_partial hg h1 h2 s hs

/-- C43 is violated: on the grid `0, 1, 3` the weak Laplacian differs from the stiffness matrix. -/
theorem weak_laplacian_violated : ∃ (grid : List ℝ) (test trial : Basis), grid.Pairwise (· < ·) ∧
    mkBasis grid true = .ok test ∧ mkBasis grid false = .ok trial ∧
    ∃ A, weakLaplacian test trial = .ok A ∧ ∃ (i : Fin test.len) (j : Fin trial.len), A i j ≠ stiffness test trial i j := by
  have hg : ([0, 1, 3] : List ℝ).Pairwise (· < ·) := by simp
  obtain ⟨test, h1, _⟩ := (basis_constructs [0, 1, 3] true).1 (by simp)
  obtain ⟨trial, h2, _⟩ := (basis_constructs [0, 1, 3] false).1 (by simp)
  obtain ⟨A, hA, hE⟩ := weak_laplacian_entries hg h1 h2
  refine ⟨_, test, trial, hg, h1, h2, A, hA, ?_⟩
  by_contra hc
  push Not at hc
  obtain ⟨s, hs⟩ := (weak_laplacian_iff_uniform hg h1 h2).mp ⟨A, hA, hc⟩
  have a := hs 0 (by simp)
  have b := hs 1 (by simp)
  simp at a b
  linarith

/-- Dispatch of the weak Laplacian. -/
theorem weak_laplacian_dispatch (test trial : Basis) :
    (test.zeroBoundary = false → weakLaplacian test trial = .error .assertionError) ∧
    (test.zeroBoundary = true → trial.zeroBoundary = true → weakLaplacian test trial = .error .notImplementedError) ∧
    (test.zeroBoundary = true → trial.zeroBoundary = false → (trial.grid.take (trial.grid.length - 1)).drop 1 ≠ test.grid →
      weakLaplacian test trial = .error .notImplementedError) := by
  classical
  unfold weakLaplacian
  refine ⟨fun h => by simp [h], fun h h' => by simp [h, h'], fun h h' h'' => ?_⟩
  rw [if_neg (by simp [h]), if_neg (by simp [h']), if_neg fun hc => h'' hc.2]

/-- Non-vacuity: a uniform grid. -/
example : ∀ c, c + 1 < ([0, 1, 2, 3] : List ℝ).length →
    ([0, 1, 2, 3] : List ℝ).getD (c + 1) 0 - ([0, 1, 2, 3] : List ℝ).getD c 0 = 1 := by
  intro c hc
  simp only [List.length_cons, List.length_nil] at hc
  obtain rfl | rfl | rfl : c = 0 ∨ c = 1 ∨ c = 2 := by omega
  all_goals norm_num

end LinPDE.Fem
