import Verif.Wendland.Model
import Verif.Poly.Props
import Mathlib.Analysis.Calculus.Deriv.MeanValue
import Mathlib.Analysis.Calculus.ContDiff.Deriv
import Mathlib.MeasureTheory.Integral.IntervalIntegral.FundThmCalculus
import Mathlib.Algebra.Polynomial.FieldDivision

/-! Helper lemmas for the Wendland functions. -/

namespace LinPDE.Wendland
open LinPDE.Polys
open Polynomial

/-! ## The coefficient recursion -/

lemma pascalLoop_eq (n : ℕ) : ∀ (steps k : ℕ), k + steps ≤ n →
    pascalLoop n steps (k + 1) (n.choose k) = .ok ((List.range steps).map fun i => (n.choose (k + 1 + i) : ℚ)) := by
  intro steps
  induction steps with
  | zero => intro k _; rfl
  | succ steps ih =>
    intro k hk
    have e : (n.choose k : ℚ) * (((n : ℚ) + 1 - ((k + 1 : ℕ) : ℚ)) / ((k + 1 : ℕ) : ℚ)) = (n.choose (k + 1) : ℚ) := by
      have h := Nat.choose_succ_right_eq n k
      have h' : (n.choose (k + 1) : ℚ) * ((k + 1 : ℕ) : ℚ) = (n.choose k : ℚ) * ((n : ℚ) - k) := by
        rw [← Nat.cast_sub (by omega)]
        exact_mod_cast h
      have hk0 : ((k + 1 : ℕ) : ℚ) ≠ 0 := by positivity
      rw [← mul_div_assoc, div_eq_iff hk0, h']
      push_cast
      ring
    rw [pascalLoop]
    simp only [e]
    rw [if_neg (by simp), ih (k + 1) (by omega)]
    show Except.ok _ = _
    congr 1
    rw [List.range_succ_eq_map, List.map_cons, List.map_map]
    congr 1
    refine List.map_congr_left fun i _ => ?_
    simp only [Function.comp]
    congr 2
    omega

lemma pascalRow_eq (n : ℕ) : pascalRow n = .ok ((List.range (n + 1)).map fun i => (n.choose i : ℚ)) := by
  have h := pascalLoop_eq n n 0 (by omega)
  simp only [Nat.choose_zero_right, Nat.cast_one, zero_add] at h
  unfold pascalRow
  rw [h]
  show Except.ok _ = _
  congr 1
  rw [List.range_succ_eq_map, List.map_cons, List.map_map]
  simp only [Nat.choose_zero_right, Nat.cast_one]
  congr 1
  refine List.map_congr_left fun i _ => ?_
  simp only [Function.comp]
  congr 2
  omega

/-- Coefficients of `(1 - X) ^ l`. -/
def phiList (l : ℕ) : List ℚ := (List.range (l + 1)).map fun j => if j % 2 = 0 then (l.choose j : ℚ) else -(l.choose j : ℚ)

lemma phiCoeffs_eq (l : ℕ) : phiCoeffs l = .ok (phiList l) := by
  unfold phiCoeffs
  rw [pascalRow_eq]
  show Except.ok _ = _
  congr 1
  refine List.ext_getElem (by simp [phiList]) fun i h1 h2 => ?_
  simp [phiList]

lemma listPoly_phi (l : ℕ) : listPoly (phiList l) = ((1 - X) ^ l : ℚ[X]) := by
  have e : ((1 - X) ^ l : ℚ[X]) = C ((-1) ^ l) * (X + C (-1)) ^ l := by
    rw [C_pow, ← mul_pow]
    congr 1
    simp only [C_neg, C_1]
    ring
  ext j
  rw [coeff_listPoly, e, coeff_C_mul, coeff_X_add_C_pow]
  by_cases hj : j < l + 1
  · simp only [phiList, List.getD_eq_getElem?_getD, List.getElem?_map, List.getElem?_range hj, Option.map_some,
      Option.getD_some]
    rw [← mul_assoc, ← pow_add, show l + (l - j) = 2 * (l - j) + j by omega, pow_add, pow_mul]
    simp only [even_two, Even.neg_pow, one_pow, one_mul]
    split_ifs with h2
    · rw [Even.neg_one_pow (Nat.even_iff.mpr h2), one_mul]
    · rw [Odd.neg_one_pow (Nat.odd_iff.mpr (by omega)), neg_one_mul]
  · rw [Nat.choose_eq_zero_of_lt (by omega)]
    rw [List.getD_eq_getElem?_getD, List.getElem?_eq_none (by simp [phiList]; omega)]
    simp

lemma eval_one_listPoly (cs : List ℚ) : (listPoly cs).eval 1 = cs.sum := by
  induction cs with
  | nil => simp [listPoly_nil]
  | cons c cs ih => rw [listPoly_cons]; simp [ih]

lemma sum_neg_map (cs : List ℚ) (w : ℕ → ℚ) :
    (cs.mapIdx fun j c => -c / w j).sum = -(cs.mapIdx fun j c => c / w j).sum := by
  induction cs generalizing w with
  | nil => simp
  | cons c cs ih =>
    simp only [List.mapIdx_cons, List.sum_cons]
    rw [ih fun j => w (j + 1)]
    ring

lemma eval_one_step (cs : List ℚ) : (listPoly (integrateStep cs)).eval 1 = 0 := by
  rw [eval_one_listPoly]
  unfold integrateStep
  simp only [List.sum_cons]
  rw [sum_neg_map cs fun j => (j : ℚ) + 2]
  ring

lemma derivative_step (cs : List ℚ) : derivative (listPoly (integrateStep cs)) = -X * listPoly cs := by
  ext n
  rw [coeff_derivative, coeff_listPoly, neg_mul, coeff_neg]
  unfold integrateStep
  cases n with
  | zero => simp
  | succ n =>
    rw [coeff_X_mul, coeff_listPoly]
    simp only [List.getD_cons_succ]
    simp only [List.getD_eq_getElem?_getD, List.getElem?_mapIdx]
    cases cs[n]? with
    | none => simp
    | some c =>
      simp only [Option.map_some, Option.getD_some]
      have : ((n : ℚ) + 2) ≠ 0 := by positivity
      push_cast
      rw [show (n : ℚ) + 1 + 1 = n + 2 by ring, div_mul_cancel₀ _ this]

lemma coeff_one_step (cs : List ℚ) : (listPoly (integrateStep cs)).coeff 1 = 0 := by
  rw [coeff_listPoly]; rfl

lemma coeff_succ_step (cs : List ℚ) (n : ℕ) :
    (listPoly (integrateStep cs)).coeff (n + 2) = -(listPoly cs).coeff n / ((n : ℚ) + 2) := by
  rw [coeff_listPoly, coeff_listPoly]
  unfold integrateStep
  simp only [List.getD_cons_succ]
  simp only [List.getD_eq_getElem?_getD, List.getElem?_mapIdx]
  cases cs[n]? with
  | none => simp
  | some c => simp

/-- The real polynomial after `k` integration steps, before the normalisation. -/
noncomputable def P (l k : ℕ) : ℝ[X] := (listPoly (integrateStep^[k] (phiList l))).map (algebraMap ℚ ℝ)

lemma P_zero (l : ℕ) : P l 0 = (1 - X) ^ l := by
  unfold P
  rw [Function.iterate_zero, id, listPoly_phi]
  simp

lemma derivative_P (l k : ℕ) : derivative (P l (k + 1)) = -X * P l k := by
  unfold P
  rw [derivative_map, Function.iterate_succ_apply', derivative_step]
  simp

lemma P_one (l k : ℕ) (hl : 0 < l) : (P l k).eval 1 = 0 := by
  cases k with
  | zero => rw [P_zero]; simp; omega
  | succ k =>
    unfold P
    rw [Function.iterate_succ_apply']
    have := eval_one_step (integrateStep^[k] (phiList l))
    rw [← map_one (algebraMap ℚ ℝ), Polynomial.eval_map_apply, this, map_zero]

lemma hasDerivAt_P (l k : ℕ) (r : ℝ) : HasDerivAt (fun r => (P l (k + 1)).eval r) (-(r * (P l k).eval r)) r := by
  have := (P l (k + 1)).hasDerivAt r
  rw [derivative_P] at this
  simpa using this

/-- Positivity inside of the unit interval. -/
lemma P_pos (l k : ℕ) (hl : 0 < l) : ∀ r : ℝ, 0 ≤ r → r < 1 → 0 < (P l k).eval r := by
  induction k with
  | zero =>
    intro r _ h1
    rw [P_zero]
    simp only [eval_pow, eval_sub, eval_one, eval_X]
    exact pow_pos (by linarith) l
  | succ k ih =>
    intro r h0 h1
    have h := strictAntiOn_of_deriv_neg (convex_Icc (0 : ℝ) 1) (f := fun r => (P l (k + 1)).eval r)
      (Polynomial.differentiable _).continuous.continuousOn (by
        intro x hx
        rw [interior_Icc] at hx
        rw [(hasDerivAt_P l k x).deriv]
        have := ih x hx.1.le hx.2
        have := mul_pos hx.1 this
        linarith)
    have := h ⟨h0, h1.le⟩ ⟨by norm_num, le_rfl⟩ h1
    simp only at this
    rwa [P_one l (k + 1) hl] at this

lemma P_nonneg (l k : ℕ) (hl : 0 < l) (r : ℝ) (h0 : 0 ≤ r) (h1 : r ≤ 1) : 0 ≤ (P l k).eval r := by
  rcases h1.eq_or_lt with rfl | h
  · rw [P_one l k hl]
  · exact (P_pos l k hl r h0 h).le

lemma P_anti (l k : ℕ) (hl : 0 < l) : AntitoneOn (fun r => (P l k).eval r) (Set.Icc 0 1) := by
  cases k with
  | zero =>
    intro x hx y hy hxy
    simp only [P_zero, eval_pow, eval_sub, eval_one, eval_X]
    exact pow_le_pow_left₀ (by linarith [hy.2]) (by linarith) l
  | succ k =>
    refine antitoneOn_of_deriv_nonpos (convex_Icc (0 : ℝ) 1) (Polynomial.differentiable _).continuous.continuousOn
      (Polynomial.differentiable _).differentiableOn ?_
    intro x hx
    rw [interior_Icc] at hx
    rw [(hasDerivAt_P l k x).deriv]
    have := P_nonneg l k hl x hx.1.le hx.2.le
    have := mul_nonneg hx.1.le this
    linarith

/-- Order of the zero at 1. -/
lemma P_dvd (l k : ℕ) (hl : 0 < l) : (X - C 1) ^ (l + k) ∣ P l k := by
  induction k with
  | zero =>
    rw [P_zero, add_zero]
    refine pow_dvd_pow_of_dvd ⟨-1, ?_⟩ l
    simp
  | succ k ih =>
    have hroot : (P l (k + 1)).IsRoot 1 := P_one l (k + 1) hl
    by_cases hz : P l (k + 1) = 0
    · rw [hz]; exact dvd_zero _
    have hm := Polynomial.derivative_rootMultiplicity_of_root hroot
    have hd : (X - C 1) ^ (l + k) ∣ derivative (P l (k + 1)) := by
      rw [derivative_P]
      exact ih.mul_left _
    have hdz : derivative (P l (k + 1)) ≠ 0 := by
      intro h0
      obtain ⟨c, hc⟩ := Polynomial.natDegree_eq_zero.mp (Polynomial.derivative_eq_zero.mp h0)
      rw [← hc] at hroot hz
      simp at hroot
      exact hz (by rw [hroot, C_0])
    have h1 : l + k ≤ rootMultiplicity 1 (derivative (P l (k + 1))) :=
      (Polynomial.le_rootMultiplicity_iff hdz).mpr hd
    rw [hm] at h1
    rw [← Polynomial.le_rootMultiplicity_iff hz]
    omega

/-- The odd coefficients below `2 k` vanish. -/
lemma P_coeff_odd (l k : ℕ) : ∀ j, j < k → (P l k).coeff (2 * j + 1) = 0 := by
  have key : ∀ j, j < k → (listPoly (integrateStep^[k] (phiList l))).coeff (2 * j + 1) = 0 := by
    induction k with
    | zero => intro j hj; omega
    | succ k ih =>
      intro j hj
      rw [Function.iterate_succ_apply']
      cases j with
      | zero => exact coeff_one_step _
      | succ j =>
        rw [show 2 * (j + 1) + 1 = (2 * j + 1) + 2 by ring, coeff_succ_step, ih j (by omega)]
        simp
  intro j hj
  unfold P
  rw [coeff_map, key j hj, map_zero]

/-! ## Gluing -/

open Classical in
/-- A polynomial cut off at `c`. -/
noncomputable def cut (Q : ℝ[X]) (c : ℝ) (t : ℝ) : ℝ := if t ≤ c then Q.eval t else 0

lemma hasDerivAt_cut {Q : ℝ[X]} {c : ℝ} (h0 : Q.eval c = 0) (h1 : (derivative Q).eval c = 0) (t : ℝ) :
    HasDerivAt (cut Q c) (cut (derivative Q) c t) t := by
  rcases lt_trichotomy t c with ht | rfl | ht
  · have : HasDerivAt (fun t => Q.eval t) ((derivative Q).eval t) t := Q.hasDerivAt t
    refine (this.congr_of_eventuallyEq ?_).congr_deriv (by rw [cut, if_pos ht.le])
    filter_upwards [Iio_mem_nhds ht] with s hs
    exact if_pos (le_of_lt hs)
  · have hl : HasDerivWithinAt (cut Q t) 0 (Set.Iic t) t := by
      have : HasDerivAt (fun t => Q.eval t) ((derivative Q).eval t) t := Q.hasDerivAt t
      rw [h1] at this
      exact this.hasDerivWithinAt.congr (fun s hs => if_pos hs) (if_pos le_rfl)
    have hr : HasDerivWithinAt (cut Q t) 0 (Set.Ici t) t := by
      refine (hasDerivWithinAt_const t _ (0 : ℝ)).congr (fun s hs => ?_) ?_
      · rcases (show t ≤ s from hs).eq_or_lt with rfl | h
        · rw [cut, if_pos le_rfl, h0]
        · rw [cut, if_neg (not_le.mpr h)]
      · rw [cut, if_pos le_rfl, h0]
    have := hl.union hr
    rw [Set.Iic_union_Ici, hasDerivWithinAt_univ] at this
    rw [cut, if_pos le_rfl, h1]
    exact this
  · refine ((hasDerivAt_const t (0 : ℝ)).congr_of_eventuallyEq ?_).congr_deriv (by rw [cut, if_neg (not_le.mpr ht)])
    filter_upwards [Ioi_mem_nhds ht] with s hs
    exact if_neg (not_le.mpr hs)

lemma contDiff_cut (n : ℕ) : ∀ {Q : ℝ[X]} {c : ℝ}, (X - C c) ^ (n + 1) ∣ Q → ContDiff ℝ n (cut Q c) := by
  induction n with
  | zero =>
    intro Q c h
    have h0 : Q.eval c = 0 := by
      obtain ⟨R, rfl⟩ := h
      simp
    rw [Nat.cast_zero, contDiff_zero]
    unfold cut
    refine Continuous.if_le (Polynomial.differentiable Q).continuous continuous_const continuous_id continuous_const ?_
    rintro x rfl
    exact h0
  | succ n ih =>
    intro Q c h
    have hd : (X - C c) ^ (n + 1) ∣ derivative Q := by
      have := Polynomial.pow_sub_one_dvd_derivative_of_pow_dvd h
      simpa using this
    have h0 : Q.eval c = 0 := by
      obtain ⟨R, rfl⟩ := h
      simp
    have h1 : (derivative Q).eval c = 0 := by
      obtain ⟨R, hR⟩ := hd
      rw [hR]
      simp
    rw [Nat.cast_add, Nat.cast_one, contDiff_succ_iff_deriv]
    refine ⟨fun t => (hasDerivAt_cut h0 h1 t).differentiableAt, fun hw => absurd hw (by simp), ?_⟩
    rw [show deriv (cut Q c) = cut (derivative Q) c from funext fun t => (hasDerivAt_cut h0 h1 t).deriv]
    exact ih hd

end LinPDE.Wendland
