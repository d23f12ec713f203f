import Verif.Rounding.DerivGram
import Verif.Rounding.Examples

/-!
# Instances of the error bounds of derivative kernels

Double precision and concrete orders of summation.
-/

namespace LinPDE.Rounding

open ExpQuad Matern

/-- The Laplacians of both arguments in three dimensions, in double precision. -/
example (x y l w0 w1 : Fin 3 → ℝ) :
    let k : EK 3 := .wlWL l w0 w1
    |ekFl (bin 52) (fun _ => left3) (fun i => (bin 52).rd (sf l i)) k x y - k.eval x y| ≤
      ((1 + (bin 52).u) ^ 38 * ((1 + (bin 52).v) * Real.exp (((1 + (bin 52).u) ^ 10 - 1) * ∑ i, (sf l i * (x i - y i)) ^ 2)) - 1) * (ekMag k x y * Real.exp (-∑ i, (sf l i * (x i - y i)) ^ 2)) :=
  expquad_deriv_error (by rw [bin_u.1]; norm_num) (fun _ => left3_full) (.wlWL l w0 w1) (rd_scale (bin 52) (sf l)) x y

/-- The magnitude of the terms is at least the size of the result, with equality for a single term. -/
example (l dir : Fin 1 → ℝ) (x y : Fin 1 → ℝ) : ekMag (.idDD l dir false) x y = |dir 0 / l 0 ^ 2| * |x 0 - y 0| := by
  show adot _ _ = _
  rw [adot, Fin.sum_univ_one]

lemma bin_first {v : ℝ} (hv : |v| ≤ 1) :
    (1 + (bin 52).u) ^ 26 * ((1 + (bin 52).v) * Real.exp (((1 + (bin 52).u) ^ 6 - 1) * v ^ 2 / 2)) - 1 ≤ 1 / 2 ^ 47 := by
  have hv2 : v ^ 2 ≤ 1 := (sq_le_one_iff_abs_le_one v).2 hv
  have h6 : (1 + (bin 52).u) ^ 6 - 1 ≤ 1 / 2 ^ 50 := by
    rw [bin_u.1]
    norm_num
  have h6' : 0 ≤ (1 + (bin 52).u) ^ 6 - 1 := by
    rw [bin_u.1]
    norm_num
  have he : Real.exp (((1 + (bin 52).u) ^ 6 - 1) * v ^ 2 / 2) ≤ 1 / (1 - 1 / 2 ^ 51) := by
    have h1 : ((1 + (bin 52).u) ^ 6 - 1) * v ^ 2 / 2 ≤ 1 / 2 ^ 51 := by
      have := mul_le_mul h6 hv2 (sq_nonneg v) (by positivity)
      norm_num at this ⊢
      linarith
    refine (Real.exp_le_exp.2 h1).trans ?_
    have h2 := Real.one_sub_le_exp_neg (1 / 2 ^ 51 : ℝ)
    rw [Real.exp_neg] at h2
    rw [one_div (1 - 1 / 2 ^ 51 : ℝ)]
    exact le_inv_of_le_inv₀ (by norm_num) h2
  have h3 : (1 + (bin 52).u) ^ 26 * ((1 + (bin 52).v) * Real.exp (((1 + (bin 52).u) ^ 6 - 1) * v ^ 2 / 2)) ≤
      (1 + (bin 52).u) ^ 26 * ((1 + (bin 52).v) * (1 / (1 - 1 / 2 ^ 51))) := by
    have := (bin 52).u_nonneg
    have := (bin 52).v_nonneg
    gcongr
  refine (sub_le_sub_right h3 1).trans ?_
  rw [bin_u.1, bin_u.2]
  norm_num

/-- Double precision, within one length scale: the sign of the first derivative is right. -/
example (x y : Fin 1 → ℝ) (hxy : |x 0 - y 0| ≤ 1) (h : y 0 < x 0) :
    0 < ekFl (bin 52) (fun _ => .leaf 0) (fun i => (bin 52).rd (sf (fun _ => 1) i)) (.idDD (fun _ => 1) (fun _ => 1) false) x y := by
  refine (expquad_first_relative (F := bin 52) (by rw [bin_u.1]; norm_num) (fun _ => leaf_full) (fun _ => 1) (fun _ => 1) false
    (fun i => (bin 52).rd (sf (fun _ => 1) i)) x y).2.1 ?_ ?_
  · refine lt_of_le_of_lt ?_ (show (1 : ℝ) / 2 ^ 47 < 1 by norm_num)
    have := bin_first hxy
    rwa [div_one]
  · simp only [EK.eval, dot, Fin.sum_univ_one]
    simp only [Bool.false_eq_true, if_false]
    refine mul_pos ?_ (Real.exp_pos _)
    norm_num
    exact h

lemma bin_second {v : ℝ} (hv : |v| ≤ 1) :
    (1 + (bin 52).u) ^ 34 * ((1 + (bin 52).v) * Real.exp (((1 + (bin 52).u) ^ 8 - 1) * (v ^ 2 / 2))) - 1 ≤ 1 / 2 ^ 47 := by
  have hv2 : v ^ 2 ≤ 1 := (sq_le_one_iff_abs_le_one v).2 hv
  have h8 : (1 + (bin 52).u) ^ 8 - 1 ≤ 1 / 2 ^ 49 := by
    rw [bin_u.1]
    norm_num
  have he : Real.exp (((1 + (bin 52).u) ^ 8 - 1) * (v ^ 2 / 2)) ≤ 1 / (1 - 1 / 2 ^ 50) := by
    have h1 : ((1 + (bin 52).u) ^ 8 - 1) * (v ^ 2 / 2) ≤ 1 / 2 ^ 50 := by
      have := mul_le_mul h8 hv2 (sq_nonneg v) (by positivity)
      norm_num at this ⊢
      linarith
    refine (Real.exp_le_exp.2 h1).trans ?_
    have h2 := Real.one_sub_le_exp_neg (1 / 2 ^ 50 : ℝ)
    rw [Real.exp_neg] at h2
    rw [one_div (1 - 1 / 2 ^ 50 : ℝ)]
    exact le_inv_of_le_inv₀ (by norm_num) h2
  have h3 : (1 + (bin 52).u) ^ 34 * ((1 + (bin 52).v) * Real.exp (((1 + (bin 52).u) ^ 8 - 1) * (v ^ 2 / 2))) ≤
      (1 + (bin 52).u) ^ 34 * ((1 + (bin 52).v) * (1 / (1 - 1 / 2 ^ 50))) := by
    have := (bin 52).u_nonneg
    have := (bin 52).v_nonneg
    gcongr
  refine (sub_le_sub_right h3 1).trans ?_
  rw [bin_u.1, bin_u.2]
  norm_num

/-- Double precision: noisy observations of the derivative at 1000 arbitrary points of the unit interval have a positive definite Gram matrix
if the variance of the noise is at least `10⁻¹⁰`. -/
example (x : Fin 1000 → Fin 1 → ℝ) (hx : ∀ i, 0 ≤ x i 0 ∧ x i 0 ≤ 1) :
    (Matrix.of fun i j => (bin 52).rd (ekFl (bin 52) (fun _ => .leaf 0) (fun i => (bin 52).rd (sf (fun _ => 1) i))
      (.ddDD (fun _ => 1) (fun _ => 1) (fun _ => 1)) (x i) (x j) + if i = j then 1 / 10 ^ 10 else 0)).PosDef := by
  have hd : ∀ i j, |x i 0 - x j 0| ≤ 1 := fun i j => by
    rw [abs_le]
    constructor <;> linarith [(hx i).1, (hx i).2, (hx j).1, (hx j).2]
  have hq : ∀ i j, ∑ r, (sf (fun _ => (1 : ℝ)) r * (x i r - x j r)) ^ 2 = (x i 0 - x j 0) ^ 2 / 2 := fun i j => by
    rw [half_sq, Fin.sum_univ_one]
    ring
  have hm : ∀ i j, ekMag (.ddDD (fun _ => 1) (fun _ => 1) (fun _ => 1) : EK 1) (x i) (x j) * Real.exp (-((x i 0 - x j 0) ^ 2 / 2)) ≤ 2 := fun i j => by
    have h1 : ekMag (.ddDD (fun _ => 1) (fun _ => 1) (fun _ => 1) : EK 1) (x i) (x j) ≤ 2 := by
      simp only [ekMag, adot, Fin.sum_univ_one]
      norm_num
      have := (sq_le_one_iff_abs_le_one _).2 (hd i j)
      linarith [pow_two (x i 0 - x j 0)]
    have h2 : Real.exp (-((x i 0 - x j 0) ^ 2 / 2)) ≤ 1 := Real.exp_le_one_iff.2 (by have := sq_nonneg (x i 0 - x j 0); linarith)
    calc _ ≤ 2 * 1 := mul_le_mul h1 h2 (Real.exp_pos _).le (by norm_num)
      _ = 2 := by norm_num
  refine expquad_operator_gram (F := bin 52) (L := .dd fun _ => 1) (ε := 1 / 2 ^ 46) (M := 2) (by rw [bin_u.1]; norm_num) (fun _ => leaf_full) rfl rfl
    (rd_scale (bin 52) (sf fun _ => 1)) x (by norm_num) (fun i j => ?_) (fun i j => ?_) ?_
  · intro q
    have e : q = (x i 0 - x j 0) ^ 2 / 2 := hq i j
    rw [e]
    have h0 : 0 ≤ ekMag (.ddDD (fun _ => 1) (fun _ => 1) (fun _ => 1) : EK 1) (x i) (x j) * Real.exp (-((x i 0 - x j 0) ^ 2 / 2)) := by
      refine mul_nonneg ?_ (Real.exp_pos _).le
      simp only [ekMag, adot, Fin.sum_univ_one]
      positivity
    calc _ ≤ 1 / 2 ^ 47 * (2 : ℝ) := mul_le_mul (bin_second (hd i j)) (hm i j) h0 (by norm_num)
      _ = 1 / 2 ^ 46 := by norm_num
  · rw [hq]
    exact hm i j
  · rw [bin_u.1]
    norm_num

/-- The derivative of the Matérn-5/2 kernel in three dimensions. -/
example (m : Par 3) (dir : Fin 3 → ℝ) {k : MK 3} (hk : Matern.applyDD dir false (.matern m) = .ok k) (x y : Fin 3 → ℝ) :
    let r := Matern.norm (sdiff m.s x y)
    |mkFl (bin 52) (fun _ => left3) (fun i => (bin 52).rd (m.s i)) k x y - k.eval x y| ≤
      ((1 + (bin 52).u) ^ (4 * 1 + 2 * 3 + 10 + (2 * degOf k + 1 + degOf k * (3 + 1 + 3))) *
        ((1 + (bin 52).v) * Real.exp (((1 + (bin 52).u) ^ (3 + 1 + 3) - 1) * r)) - 1) * (mkMag k x y * Real.exp (-r)) := by
  obtain ⟨q, rfl, -⟩ := Matern.mkIdDD_ok (show mkIdDD m dir false = .ok k from hk)
  exact matern_deriv_error (F := bin 52) (fun _ => left3_full) _ (rd_scale (bin 52) m.s) x y

end LinPDE.Rounding
