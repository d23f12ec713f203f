import Verif.Fem.Props
import Mathlib.Analysis.SpecialFunctions.Integrals.Basic
import Mathlib.LinearAlgebra.Matrix.Gershgorin
import Mathlib.MeasureTheory.Integral.IntervalIntegral.FundThmCalculus

/-! # Integrals of finite element basis functions -/

namespace LinPDE.Fem
open MeasureTheory Set intervalIntegral

namespace Basis
variable {b : Basis}

lemma phi_measurable {i : ℕ} (hi : i < b.len) : Measurable (b.phi i) := by
  classical
  have e : b.phi i = fun x => if b.zeroBoundary = false ∧ ((i = 0 ∧ x < b.g 1) ∨ (i = b.len - 1 ∧ b.g (b.grid.length - 2) < x)) then 0
      else max 0 (if x < b.g (i + 1) then (x - b.g i) / (b.g (i + 1) - b.g i)
      else (b.g (i + 2) - x) / (b.g (i + 2) - b.g (i + 1))) := by
    funext x
    rw [phi_eq hi, hatAt_eq hi]
  rw [e]
  refine Measurable.ite ?_ measurable_const (measurable_const.max (Measurable.ite ?_ ?_ ?_))
  · by_cases hz : b.zeroBoundary = false
    · simp only [hz, true_and]
      refine MeasurableSet.union ?_ ?_
      · by_cases h0 : i = 0
        · simp only [h0, true_and]
          exact measurableSet_Iio
        · simp only [h0, false_and]
          exact MeasurableSet.empty
      · by_cases h0 : i = b.len - 1
        · simp only [← h0, true_and]
          exact measurableSet_Ioi
        · simp only [h0, false_and]
          exact MeasurableSet.empty
    · simp [hz]
  · exact measurableSet_Iio
  · exact (measurable_id.sub_const _).div_const _
  · exact (measurable_const.sub measurable_id).div_const _

lemma phi_norm_le (h : b.Good) {i : ℕ} (hi : i < b.len) (x : ℝ) : ‖b.phi i x‖ ≤ 1 := by
  rw [Real.norm_eq_abs, abs_of_nonneg (phi_nonneg hi x)]
  exact phi_le_one h hi x

/-- The product with a function integrable on the domain is integrable. -/
lemma phi_mul_integrableOn (h : b.Good) {i : ℕ} (hi : i < b.len) {f : ℝ → ℝ} {s : Set ℝ} (hf : IntegrableOn f s) :
    IntegrableOn (fun x => b.phi i x * f x) s :=
  hf.bdd_mul (c := 1) (phi_measurable hi).aestronglyMeasurable (Filter.Eventually.of_forall fun x => phi_norm_le h hi x)

lemma phi_mul_intervalIntegrable (h : b.Good) {i : ℕ} (hi : i < b.len) {f : ℝ → ℝ} {u v : ℝ}
    (hf : IntervalIntegrable f volume u v) : IntervalIntegrable (fun x => b.phi i x * f x) volume u v :=
  ⟨phi_mul_integrableOn h hi hf.1, phi_mul_integrableOn h hi hf.2⟩

/-- Integration over the support is integration over the line. -/
lemma integral_support {i : ℕ} {lo hi' : ℝ} (hl : lo ≤ hi')
    (hs : ∀ x, b.phi i x ≠ 0 → lo ≤ x ∧ x ≤ hi') (f : ℝ → ℝ) :
    ∫ x in lo..hi', b.phi i x * f x = ∫ x, b.phi i x * f x := by
  rw [integral_of_le hl, ← integral_Icc_eq_integral_Ioc]
  refine setIntegral_eq_integral_of_forall_compl_eq_zero fun x hx => ?_
  by_cases h0 : b.phi i x = 0
  · rw [h0, zero_mul]
  · exact absurd (hs x h0) hx

open Classical in
/-- The integral against a basis function, split at its node. -/
lemma integral_phi_mul (h : b.Good) {i : ℕ} (hi : i < b.len) {f : ℝ → ℝ}
    (hf : IntervalIntegrable f volume (b.g i) (b.g (i + 2))) :
    ∫ x, b.phi i x * f x =
      (if b.Al i then ∫ x in b.g i..b.g (i + 1), (x - b.g i) / (b.g (i + 1) - b.g i) * f x else 0) +
      (if b.Be i then ∫ x in b.g (i + 1)..b.g (i + 2), (b.g (i + 2) - x) / (b.g (i + 2) - b.g (i + 1)) * f x else 0) := by
  have hil := len_lt hi
  have h1 := h.incr i (by omega)
  have h2 := h.incr (i + 1) hil
  have hsub1 : uIcc (b.g i) (b.g (i + 1)) ⊆ uIcc (b.g i) (b.g (i + 2)) := by
    rw [uIcc_of_le h1.le, uIcc_of_le (h1.trans h2).le]
    exact Icc_subset_Icc le_rfl h2.le
  have hsub2 : uIcc (b.g (i + 1)) (b.g (i + 2)) ⊆ uIcc (b.g i) (b.g (i + 2)) := by
    rw [uIcc_of_le h2.le, uIcc_of_le (h1.trans h2).le]
    exact Icc_subset_Icc h1.le le_rfl
  rw [← integral_support (h1.trans h2).le (fun x hx => ?_),
    ← integral_add_adjacent_intervals (b := b.g (i + 1))
      (phi_mul_intervalIntegrable h hi (hf.mono_set hsub1)) (phi_mul_intervalIntegrable h hi (hf.mono_set hsub2))]
  · congr 1
    · have e : ∫ x in b.g i..b.g (i + 1), b.phi i x * f x =
          ∫ x in b.g i..b.g (i + 1), (if b.Al i then (x - b.g i) / (b.g (i + 1) - b.g i) else 0) * f x := by
        rw [integral_of_le h1.le, integral_of_le h1.le, integral_Ioc_eq_integral_Ioo, integral_Ioc_eq_integral_Ioo]
        refine setIntegral_congr_fun measurableSet_Ioo fun x hx => ?_
        beta_reduce
        rw [phi_left hi hx.1.le hx.2]
      rw [e]
      split_ifs <;> simp
    · have e : ∫ x in b.g (i + 1)..b.g (i + 2), b.phi i x * f x =
          ∫ x in b.g (i + 1)..b.g (i + 2), (if b.Be i then (b.g (i + 2) - x) / (b.g (i + 2) - b.g (i + 1)) else 0) * f x := by
        rw [integral_of_le h2.le, integral_of_le h2.le]
        refine setIntegral_congr_fun measurableSet_Ioc fun x hx => ?_
        beta_reduce
        rw [phi_right hi hx.1 hx.2]
      rw [e]
      split_ifs <;> simp
  · constructor
    · by_contra hc
      exact hx (phi_low h hi (not_le.mp hc).le)
    · by_contra hc
      exact hx (phi_high h hi (not_le.mp hc).le)

lemma phi_integrableOn (h : b.Good) {i : ℕ} (hi : i < b.len) (u v : ℝ) : IntervalIntegrable (b.phi i) volume u v := by
  have := phi_mul_intervalIntegrable h hi (f := fun _ => 1) (u := u) (v := v) intervalIntegrable_const
  simpa using this

end Basis

lemma int_rise (u v : ℝ) : ∫ x in u..v, (x - u) = (v - u) ^ 2 / 2 := by
  rw [intervalIntegral.integral_sub (by simp) (by simp)]
  simp
  ring

lemma int_rise_sq {u v : ℝ} (h : u < v) : ∫ x in u..v, (x - u) / (v - u) * ((x - u) / (v - u)) = (v - u) / 3 := by
  have hd : ∀ x ∈ uIcc u v, HasDerivAt (fun x => (x - u) ^ 3 / (3 * (v - u) ^ 2)) ((x - u) / (v - u) * ((x - u) / (v - u))) x := by
    intro x _
    have := (((hasDerivAt_id x).sub_const u).pow 3).div_const (3 * (v - u) ^ 2)
    refine this.congr_deriv ?_
    have : v - u ≠ 0 := by linarith
    simp only [id]
    push_cast
    field_simp
  rw [integral_eq_sub_of_hasDerivAt hd (Continuous.intervalIntegrable (by fun_prop) _ _)]
  have : v - u ≠ 0 := by linarith
  field_simp
  ring

lemma int_fall_sq {u v : ℝ} (h : u < v) : ∫ x in u..v, (v - x) / (v - u) * ((v - x) / (v - u)) = (v - u) / 3 := by
  have hd : ∀ x ∈ uIcc u v, HasDerivAt (fun x => (x - v) ^ 3 / (3 * (v - u) ^ 2)) ((v - x) / (v - u) * ((v - x) / (v - u))) x := by
    intro x _
    have := (((hasDerivAt_id x).sub_const v).pow 3).div_const (3 * (v - u) ^ 2)
    refine this.congr_deriv ?_
    have : v - u ≠ 0 := by linarith
    simp only [id]
    push_cast
    field_simp
    ring
  rw [integral_eq_sub_of_hasDerivAt hd (Continuous.intervalIntegrable (by fun_prop) _ _)]
  have : v - u ≠ 0 := by linarith
  field_simp
  ring

lemma int_rise_fall {u v : ℝ} (h : u < v) : ∫ x in u..v, (x - u) / (v - u) * ((v - x) / (v - u)) = (v - u) / 6 := by
  have hd : ∀ x ∈ uIcc u v, HasDerivAt (fun x => ((v - u) * (x - u) ^ 2 / 2 - (x - u) ^ 3 / 3) / (v - u) ^ 2)
      ((x - u) / (v - u) * ((v - x) / (v - u))) x := by
    intro x _
    have h1 := ((((hasDerivAt_id x).sub_const u).pow 2).const_mul (v - u)).div_const 2
    have h2 := (((hasDerivAt_id x).sub_const u).pow 3).div_const 3
    have := (h1.sub h2).div_const ((v - u) ^ 2)
    refine this.congr_deriv ?_
    have : v - u ≠ 0 := by linarith
    simp only [id]
    push_cast
    field_simp
    ring
  rw [integral_eq_sub_of_hasDerivAt hd (Continuous.intervalIntegrable (by fun_prop) _ _)]
  have : v - u ≠ 0 := by linarith
  field_simp
  ring

lemma int_rise1 {u v : ℝ} (h : u < v) : ∫ x in u..v, (x - u) / (v - u) = (v - u) / 2 := by
  rw [intervalIntegral.integral_div, int_rise]
  have : v - u ≠ 0 := by linarith
  field_simp

lemma int_fall1 {u v : ℝ} (h : u < v) : ∫ x in u..v, (v - x) / (v - u) = (v - u) / 2 := by
  have e : ∀ x, (v - x) / (v - u) = 1 - (x - u) / (v - u) := by
    intro x
    have : v - u ≠ 0 := by linarith
    field_simp
    ring
  simp only [e]
  rw [intervalIntegral.integral_sub (by simp) (Continuous.intervalIntegrable (by fun_prop) _ _), int_rise1 h]
  simp
  ring

lemma integral_congr_Ioo {u v : ℝ} (h : u ≤ v) {f f' : ℝ → ℝ} (he : ∀ x, u < x → x < v → f x = f' x) :
    ∫ x in u..v, f x = ∫ x in u..v, f' x := by
  rw [integral_of_le h, integral_of_le h, integral_Ioc_eq_integral_Ioo, integral_Ioc_eq_integral_Ioo]
  exact setIntegral_congr_fun measurableSet_Ioo fun x hx => he x hx.1 hx.2

open Classical in
/-- Inner products of basis functions. -/
lemma inner_phi {b : Basis} (h : b.Good) {i j : ℕ} (hi : i < b.len) (hj : j < b.len) :
    ∫ x, b.phi i x * b.phi j x =
      if i = j then (if b.Al i then (b.g (i + 1) - b.g i) / 3 else 0) + (if b.Be i then (b.g (i + 2) - b.g (i + 1)) / 3 else 0)
      else if i = j + 1 then (b.g (i + 1) - b.g i) / 6
      else if i + 1 = j then (b.g (i + 2) - b.g (i + 1)) / 6
      else 0 := by
  have hil := Basis.len_lt hi
  have hjl := Basis.len_lt hj
  have h1 := h.incr i (by omega)
  have h2 := h.incr (i + 1) hil
  rw [Basis.integral_phi_mul h hi (Basis.phi_integrableOn h hj _ _)]
  by_cases e1 : i = j
  · subst e1
    rw [if_pos rfl]
    congr 1
    · by_cases hA : b.Al i
      · rw [if_pos hA, if_pos hA, ← int_rise_sq h1]
        refine integral_congr_Ioo h1.le fun x hx hx' => ?_
        rw [Basis.phi_left hi hx.le hx', if_pos hA]
      · rw [if_neg hA, if_neg hA]
    · by_cases hB : b.Be i
      · rw [if_pos hB, if_pos hB, ← int_fall_sq h2]
        refine integral_congr_Ioo h2.le fun x hx hx' => ?_
        rw [Basis.phi_right hi hx hx'.le, if_pos hB]
      · rw [if_neg hB, if_neg hB]
  rw [if_neg e1]
  by_cases e2 : i = j + 1
  · subst e2
    rw [if_pos rfl, if_pos (show b.Al (j + 1) from Or.inr (by omega))]
    have hB : b.Be j := Or.inr (by omega)
    have z : ∫ x in b.g (j + 1 + 1)..b.g (j + 1 + 2), (b.g (j + 1 + 2) - x) / (b.g (j + 1 + 2) - b.g (j + 1 + 1)) * b.phi j x = 0 := by
      rw [integral_congr_Ioo (f' := fun _ => 0) h2.le fun x hx hx' => ?_]
      · simp
      · rw [Basis.phi_high h hj hx.le, mul_zero]
    rw [z, ite_self, add_zero, ← int_rise_fall h1]
    refine integral_congr_Ioo h1.le fun x hx hx' => ?_
    rw [Basis.phi_right hj hx hx'.le, if_pos hB]
  rw [if_neg e2]
  by_cases e3 : i + 1 = j
  · subst e3
    rw [if_pos rfl, if_pos (show b.Be i from Or.inr (by omega))]
    have hA : b.Al (i + 1) := Or.inr (by omega)
    have z : ∫ x in b.g i..b.g (i + 1), (x - b.g i) / (b.g (i + 1) - b.g i) * b.phi (i + 1) x = 0 := by
      rw [integral_congr_Ioo (f' := fun _ => 0) h1.le fun x hx hx' => ?_]
      · simp
      · rw [Basis.phi_low h hj hx'.le, mul_zero]
    rw [z, ite_self, zero_add, ← int_rise_fall h2]
    refine integral_congr_Ioo h2.le fun x hx hx' => ?_
    rw [Basis.phi_left hj hx.le hx', if_pos hA, mul_comm]
  · rw [if_neg e3]
    have z1 : ∫ x in b.g i..b.g (i + 1), (x - b.g i) / (b.g (i + 1) - b.g i) * b.phi j x = 0 := by
      rw [integral_congr_Ioo (f' := fun _ => 0) h1.le fun x hx hx' => ?_]
      · simp
      · rw [Basis.phi_cell_zero h hj (c := i) (by omega) (Ne.symm e1) (Ne.symm e2) hx.le hx'.le, mul_zero]
    have z2 : ∫ x in b.g (i + 1)..b.g (i + 2), (b.g (i + 2) - x) / (b.g (i + 2) - b.g (i + 1)) * b.phi j x = 0 := by
      rw [integral_congr_Ioo (f' := fun _ => 0) h2.le fun x hx hx' => ?_]
      · simp
      · rw [Basis.phi_cell_zero h hj (c := i + 1) (by omega) (Ne.symm e3) (by omega) hx.le hx'.le, mul_zero]
    rw [z1, z2]
    simp

/-! ## The code's mass matrix -/

lemma massDiag0_getD {b : Basis} {i : ℕ} (hi : i < b.len) : (massDiag0 b).getD i 0 = (b.g (i + 2) - b.g i) / 3 := by
  unfold massDiag0
  rw [Basis.getD_zipWith' (by rw [Basis.xip1_length]; exact hi) (by rw [Basis.xim1_length]; exact hi), Basis.xip1_getD,
    Basis.xim1_getD hi]

lemma getD_set' {l : List ℝ} {k i : ℕ} {v : ℝ} (hk : k < l.length) : (l.set k v).getD i 0 = if i = k then v else l.getD i 0 := by
  rw [List.getD_eq_getElem?_getD, List.getD_eq_getElem?_getD, List.getElem?_set]
  by_cases h : k = i
  · subst h
    simp [hk]
  · rw [if_neg h, if_neg (Ne.symm h)]

open Classical in
/-- The boundary correction pattern used three times in the code. -/
lemma boundary_fix {b : Basis} (h : b.Good) {l : List ℝ} (hl : l.length = b.len) {L R : ℕ → ℝ}
    (hlr : ∀ i < b.len, l.getD i 0 = L i + R i) {i : ℕ} (hi : i < b.len) :
    (if (!b.zeroBoundary) = true then (l.set 0 (R 0)).set (b.len - 1) (L (b.len - 1)) else l).getD i 0 =
      (if b.Al i then L i else 0) + (if b.Be i then R i else 0) := by
  unfold Basis.Al Basis.Be
  cases hz : b.zeroBoundary with
  | true => simpa using hlr i hi
  | false =>
    have h5 := h.size' hz
    have h3 : b.len - 1 ≠ 0 := by unfold Basis.len; omega
    simp only [Bool.not_false, if_true, Bool.false_eq_true, false_or]
    rw [getD_set' (by simp [hl]; omega), getD_set' (by omega), hlr i hi]
    by_cases e1 : i = b.len - 1
    · subst e1
      simp [h3]
    · by_cases e0 : i = 0
      · subst e0
        simp [e1]
      · simp [e0, e1]

open Classical in
lemma massDiag_getD {b : Basis} (h : b.Good) {i : ℕ} (hi : i < b.len) :
    (massDiag b).getD i 0 = (if b.Al i then (b.g (i + 1) - b.g i) / 3 else 0) + (if b.Be i then (b.g (i + 2) - b.g (i + 1)) / 3 else 0) := by
  have hb := boundary_fix h (l := massDiag0 b) (L := fun i => (b.g (i + 1) - b.g i) / 3) (R := fun i => (b.g (i + 2) - b.g (i + 1)) / 3)
    (by simp [massDiag0, Basis.xip1_length, Basis.xim1_length]) (fun i hi => by rw [massDiag0_getD hi]; ring) hi
  rw [← hb]
  unfold massDiag
  rw [Basis.xip1_getD, Basis.xi_getD (by omega), Basis.xi_getD (by omega), Basis.xim1_getD (by omega)]

lemma massOffdiag_getD {b : Basis} {i : ℕ} (hi : i + 1 < b.len) : (massOffdiag b).getD i 0 = (b.g (i + 2) - b.g (i + 1)) / 6 := by
  unfold massOffdiag
  have h1 := Basis.xip1_length (b := b)
  have h2 := Basis.xi_length (b := b)
  rw [Basis.getD_zipWith' (by simp; omega) (by simp; omega), Basis.getD_take' (by omega), Basis.getD_take' (by omega),
    Basis.xip1_getD, Basis.xi_getD (by omega)]

/-- The matrix inverted by the code is the mass matrix. -/
lemma massMatrix_eq {b : Basis} (h : b.Good) (i j : Fin b.len) : massMatrix b i j = ∫ x, b.phi i x * b.phi j x := by
  classical
  rw [inner_phi h i.2 j.2]
  unfold massMatrix tridiag
  by_cases e1 : i.val = j.val
  · rw [if_pos e1, if_pos e1, massDiag_getD h i.2]
  rw [if_neg e1, if_neg e1]
  by_cases e2 : i.val = j.val + 1
  · rw [if_pos e2, if_pos e2, massOffdiag_getD (by have := i.2; omega), e2]
  rw [if_neg e2, if_neg e2]
  by_cases e3 : i.val + 1 = j.val
  · rw [if_pos e3, if_pos e3, massOffdiag_getD (by have := j.2; omega)]
  · rw [if_neg e3, if_neg e3]

end LinPDE.Fem
