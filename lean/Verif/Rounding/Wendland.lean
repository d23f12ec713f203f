import Verif.Wendland.Props
import Verif.Rounding.WendlandModel
import Verif.Rounding.Props
import Verif.Rounding.Binary

/-!
# C96: Wendland covariance functions in floating point
-/

namespace LinPDE.Rounding
open Wendland Finset
open LinPDE.Polys (Poly)

variable {F : Fmt} {d k : ℕ} {p : Poly ℚ}

/-- Sum of the absolute values of the coefficients. -/
def absCoeffs (p : Poly ℚ) : ℝ := ∑ i ∈ range (p.degree + 1), |((p.coeffs.getD i 0 : ℚ) : ℝ)|

/-- Sum of the absolute values of the coefficients of the derivative. -/
def absSlope (p : Poly ℚ) : ℝ := ∑ i ∈ range (p.degree + 1), i * |((p.coeffs.getD i 0 : ℚ) : ℝ)|

lemma realPoly_eval (p : Poly ℚ) (r : ℝ) : (realPoly p).eval r = ∑ i ∈ range (p.degree + 1), ((p.coeffs.getD i 0 : ℚ) : ℝ) * r ^ i := by
  have hc : (realPoly p).coeffs = p.coeffs.map fun c : ℚ => (c : ℝ) := by
    unfold realPoly
    have hne := p.ne
    cases h : p.coeffs with
    | nil => exact absurd h hne
    | cons a as => rfl
  have hd : (realPoly p).degree = p.degree := by simp [Poly.degree, hc]
  rw [eval_sum, hd]
  refine sum_congr rfl fun i _ => ?_
  rw [hc, List.getD_eq_getElem?_getD, List.getD_eq_getElem?_getD, List.getElem?_map]
  cases p.coeffs[i]? <;> simp

lemma fun_eq (h : wendlandPoly d k = .ok p) (r : ℝ) : wendlandFun p r = (realPoly p).eval (min r 1) := by
  rcases le_or_gt r 1 with hr | hr
  · rw [wendlandFun, if_pos hr, min_eq_left hr]
  · rw [wendlandFun, if_neg (not_le.mpr hr), min_eq_right hr.le]
    have := (wendland_shape h).2.2.1 1 le_rfl
    rw [wendlandFun, if_pos le_rfl] at this
    exact this.symm

lemma pow_lip {x y : ℝ} (hx : 0 ≤ x) (hx1 : x ≤ 1) (hy : 0 ≤ y) (hy1 : y ≤ 1) (n : ℕ) : |x ^ n - y ^ n| ≤ n * |x - y| := by
  induction n with
  | zero => simp
  | succ n ih =>
    have e : x ^ (n + 1) - y ^ (n + 1) = x * (x ^ n - y ^ n) + y ^ n * (x - y) := by ring
    rw [e]
    refine (abs_add_le _ _).trans ?_
    rw [abs_mul, abs_mul, abs_of_nonneg hx, abs_of_nonneg (pow_nonneg hy n)]
    have h1 := mul_le_of_le_one_left (abs_nonneg (x ^ n - y ^ n)) hx1
    have h2 := mul_le_of_le_one_left (abs_nonneg (x - y)) (pow_le_one₀ (n := n) hy hy1)
    push_cast
    linarith

lemma poly_lip (p : Poly ℚ) {x y : ℝ} (hx : 0 ≤ x) (hx1 : x ≤ 1) (hy : 0 ≤ y) (hy1 : y ≤ 1) :
    |(realPoly p).eval x - (realPoly p).eval y| ≤ absSlope p * |x - y| := by
  rw [realPoly_eval, realPoly_eval, ← sum_sub_distrib, absSlope, sum_mul]
  refine (abs_sum_le_sum_abs _ _).trans (sum_le_sum fun i _ => ?_)
  rw [← mul_sub, abs_mul]
  have := mul_le_mul_of_nonneg_left (pow_lip hx hx1 hy hy1 i) (abs_nonneg ((p.coeffs.getD i 0 : ℚ) : ℝ))
  linarith

lemma min_near {k : ℕ} {x y : ℝ} (hy : 0 ≤ y) (h : F.Near k x y) : |min x 1 - min y 1| ≤ (1 + F.u) ^ k - 1 := by
  have e0 := eps_nonneg F k
  obtain ⟨t, ht, rfl⟩ := h
  have ha := abs_le.mp (fac_abs ht)
  have hp := ht.pos
  rw [abs_le]
  rcases le_total y 1 with h1 | h1
  · rw [min_eq_left h1]
    rcases le_total (t * y) 1 with h2 | h2
    · rw [min_eq_left h2]
      constructor <;> nlinarith
    · rw [min_eq_right h2]
      constructor <;> nlinarith
  · rw [min_eq_right h1]
    rcases le_total (t * y) 1 with h2 | h2
    · rw [min_eq_left h2]
      constructor <;> nlinarith
    · rw [min_eq_right h2]
      constructor <;> linarith

/-- C96: on one float, the error of the computed Wendland function. -/
theorem wendlandFun_error (p : Poly ℚ) {r : ℝ} (hr : 0 ≤ r) :
    |wendlandFl F p r - wendlandFun p r| ≤ ((1 + F.u) ^ (2 * p.degree + 1) - 1) * absCoeffs p := by
  have e0 := eps_nonneg F (2 * p.degree + 1)
  have a0 : 0 ≤ absCoeffs p := sum_nonneg fun i _ => abs_nonneg _
  unfold wendlandFl wendlandFun
  split_ifs with h1
  · rw [realPoly_eval]
    refine (rat_forward F p r).trans (mul_le_mul_of_nonneg_left (sum_le_sum fun i _ => ?_) e0)
    rw [abs_of_nonneg hr]
    exact mul_le_of_le_one_right (abs_nonneg _) (pow_le_one₀ hr h1)
  · rw [sub_self, abs_zero]
    exact mul_nonneg e0 a0

lemma scale_near (K : WendlandCov d) (i : Fin d) : F.Near 1 (F.rd (1 / K.lengthscales i)) (1 / K.lengthscales i) := rd_fac F _

lemma exact_eq (K : WendlandCov d) (x y : Fin d → ℝ) : K.eval x y = wendlandFun K.poly (√(∑ i, (1 / K.lengthscales i * (x i - y i)) ^ 2)) := by
  unfold WendlandCov.eval
  simp only [mul_comm]

/-- C96: the error of the computed covariance, uniformly in the points, also where the computed and the exact distance lie on different sides of the boundary of the
support. -/
theorem wendland_error {l : Fin d → ℝ} {K : WendlandCov d} (h : mkWendland d k l = .ok K) {t : Tree (Fin d)} (ht : t.Full) (x y : Fin d → ℝ) :
    |wendlandCovFl F t K x y - K.eval x y| ≤
      ((1 + F.u) ^ (2 * K.poly.degree + 1) - 1) * absCoeffs K.poly + ((1 + F.u) ^ (d + 4) - 1) * absSlope K.poly := by
  unfold mkWendland at h
  obtain ⟨p, hp, _⟩ := wendland_constructs d k
  rw [hp] at h
  have hK : K = ⟨p, l⟩ := (Except.ok.inj h).symm
  have hKp : wendlandPoly d k = .ok K.poly := by rw [hK]; exact hp
  have hn := dist_near (F := F) ht (scale_near K) x y
  rw [Fintype.card_fin] at hn
  set r : ℝ := √(∑ i, (1 / K.lengthscales i * (x i - y i)) ^ 2) with hr
  have r0 : 0 ≤ r := Real.sqrt_nonneg _
  have q0 := hn.nonneg r0
  rw [exact_eq, ← hr, wendlandCovFl]
  set q := dist F t (fun i => F.rd (1 / K.lengthscales i)) x y
  have e : wendlandFl F K.poly q - wendlandFun K.poly r = (wendlandFl F K.poly q - wendlandFun K.poly q) + (wendlandFun K.poly q - wendlandFun K.poly r) := by ring
  rw [e]
  refine (abs_add_le _ _).trans (add_le_add (wendlandFun_error K.poly q0) ?_)
  rw [fun_eq hKp, fun_eq hKp]
  refine (poly_lip _ (le_min q0 zero_le_one) (min_le_right _ _) (le_min r0 zero_le_one) (min_le_right _ _)).trans ?_
  rw [mul_comm]
  exact mul_le_mul_of_nonneg_right (min_near r0 hn) (sum_nonneg fun i _ => mul_nonneg (Nat.cast_nonneg _) (abs_nonneg _))

lemma polyFl_zero (F : Fmt) (p : Poly ℝ) (hd : 1 ≤ p.degree) : polyFl F p 0 = F.rd (p.coeffs.getD 0 0) := by
  obtain ⟨cs, hne⟩ := p
  obtain ⟨l, a, rfl⟩ : ∃ l a, cs = l ++ [a] := ⟨_, _, (List.dropLast_append_getLast hne).symm⟩
  have hl : (Poly.mk (l ++ [a]) hne).degree = l.length := by simp [Poly.degree]
  rw [hl] at hd
  have e : polyFl F ⟨l ++ [a], hne⟩ 0 = hornerFl F (fun i => l.getD i 0) 0 l.length a := by
    rw [← hornerFl_fold]
    simp [polyFl, Poly.eval]
  rw [e, hornerFl_zero F _ _ hd]
  congr 1
  dsimp only
  rw [List.getD_eq_getElem?_getD (l := l ++ [a]), List.getElem?_append_left (by omega), List.getD_eq_getElem?_getD]

/-- C96: the computed covariance is exactly symmetric, exactly one at coinciding points, and exactly zero for points whose scaled distance exceeds one by more than
`d + 4` roundings. -/
theorem wendland_exact {l : Fin d → ℝ} {K : WendlandCov d} (h : mkWendland d k l = .ok K) {t : Tree (Fin d)} (ht : t.Full) (x y : Fin d → ℝ) :
    wendlandCovFl F t K x y = wendlandCovFl F t K y x ∧ wendlandCovFl F t K x x = 1 ∧
      (1 < (1 - F.u) ^ (d + 4) * √(∑ i, ((x i - y i) / l i) ^ 2) → wendlandCovFl F t K x y = 0) := by
  unfold mkWendland at h
  obtain ⟨p, hp, hd⟩ := wendland_constructs d k
  rw [hp] at h
  have hK : K = ⟨p, l⟩ := (Except.ok.inj h).symm
  refine ⟨?_, ?_, fun hfar => ?_⟩
  · rw [wendlandCovFl, wendlandCovFl, dist, dist, sqDist_symm]
  · have hn := dist_near (F := F) ht (scale_near K) x x
    simp only [sub_self, mul_zero, ne_eq, OfNat.ofNat_ne_zero, not_false_eq_true, zero_pow, sum_const_zero, Real.sqrt_zero] at hn
    obtain ⟨s, _, e⟩ := hn
    rw [mul_zero] at e
    have h0 := (wendland_shape hp).1
    rw [wendlandFun, if_pos zero_le_one, realPoly_eval, sum_range_succ'] at h0
    simp only [pow_succ, mul_zero, sum_const_zero, pow_zero, mul_one, zero_add] at h0
    rw [wendlandCovFl, e, wendlandFl, if_pos zero_le_one, hK]
    have hd' : (ratFl F p).degree = p.degree := by simp [ratFl, Poly.degree]
    rw [polyFl_zero F _ (by rw [hd', hd]; omega)]
    have hc : (ratFl F p).coeffs.getD 0 0 = 1 := by
      simp only [ratFl]
      rw [List.getD_eq_getElem?_getD, List.getElem?_map]
      rw [List.getD_eq_getElem?_getD] at h0
      cases hq : p.coeffs[0]? with
      | none => rw [hq] at h0; simp at h0
      | some c =>
        rw [hq] at h0
        simp only [Option.getD_some] at h0
        simp [h0, F.one]
    rw [hc, F.one]
  · have hn := dist_near (F := F) ht (scale_near K) x y
    rw [Fintype.card_fin] at hn
    have e : ∑ i, (1 / K.lengthscales i * (x i - y i)) ^ 2 = ∑ i, ((x i - y i) / l i) ^ 2 := by
      rw [hK]
      exact sum_congr rfl fun i _ => by ring
    rw [e] at hn
    have := ((near_iff (Real.sqrt_nonneg _)).mp hn).1
    rw [wendlandCovFl, wendlandFl, if_neg]
    exact not_le.mpr (hfar.trans_le this)

/-- Rounding of `x` to `y = n 2 ^ (e - p)`, with `h = 2 ^ (-(p + 1))`. -/
lemma bin_to {p : ℕ} {h x y : ℝ} (hh : h = 1 / 2 ^ (p + 1)) (e : ℤ) (n : ℤ) (h1 : (2 : ℝ) ^ e ≤ x) (h2 : x < (2 : ℝ) ^ (e + 1))
    (hy : y = n * ((2 : ℝ) ^ e * (2 * h))) (h3 : |x - y| < (2 : ℝ) ^ e * h) : (bin p).rd x = y := by
  have hx : 0 < x := (zpow_pos two_pos e).trans_le h1
  have h0 : 0 < h := by rw [hh]; positivity
  have hq : (2 : ℝ) ^ (e - p) = (2 : ℝ) ^ e * (2 * h) := by
    rw [zpow_sub₀ two_ne_zero, zpow_natCast, hh, pow_succ]
    field_simp
  have q0 : 0 < (2 : ℝ) ^ e * (2 * h) := by positivity
  change binRd p x = y
  rw [binRd_pos p hx, binPos_eq e h1 h2 n, hq, hy]
  rw [hq, div_sub' q0.ne', abs_div, abs_of_pos q0, div_lt_iff₀ q0, mul_comm _ (n : ℝ), ← hy]
  linarith

lemma poly21 : wendlandPoly 2 1 = .ok (Poly.ofCoeffs [1, 0, -10, 20, -15, 4]) := by
  decide +kernel

/-- The floating-point number `1 - 3 h` at which the polynomial for `d = 2`, `k = 1` is computed as `-8 h`, with `h` half the distance of one to the next
floating-point number. -/
lemma poly21_negative (p : ℕ) (hp : 6 ≤ p) {h : ℝ} (hh : h = 1 / 2 ^ (p + 1)) :
    polyFl (bin p) (ratFl (bin p) (Poly.ofCoeffs [1, 0, -10, 20, -15, 4])) (1 - 3 * h) = -(8 * h) := by
  obtain ⟨M, hM⟩ : ∃ M : ℤ, M = 2 ^ (p - 3) := ⟨_, rfl⟩
  have h0 : 0 < h := by rw [hh]; positivity
  have h1 : h ≤ 1 / 128 := by
    rw [hh]
    apply one_div_le_one_div_of_le (by norm_num)
    calc (128 : ℝ) = 2 ^ 7 := by norm_num
      _ ≤ 2 ^ (p + 1) := pow_le_pow_right₀ one_le_two (by omega)
  have hMh : (M : ℝ) * h = 1 / 16 := by
    rw [hM, hh]
    push_cast
    rw [show p + 1 = (p - 3) + 4 by omega, pow_add]
    field_simp
    norm_num
  have i1 : (bin p).rd 1 = 1 := (bin p).one
  have i4 : (bin p).rd 4 = 4 := bin_to hh 2 (8 * M) (by norm_num) (by norm_num) (by push_cast; norm_num; linear_combination (-64) * hMh) (by simp; positivity)
  have i15 : (bin p).rd 15 = 15 :=
    bin_to hh 3 (15 * M) (by norm_num) (by norm_num) (by push_cast; norm_num; linear_combination (-240) * hMh) (by simp; positivity)
  have i20 : (bin p).rd 20 = 20 :=
    bin_to hh 4 (10 * M) (by norm_num) (by norm_num) (by push_cast; norm_num; linear_combination (-320) * hMh) (by simp; positivity)
  have i10 : (bin p).rd 10 = 10 :=
    bin_to hh 3 (10 * M) (by norm_num) (by norm_num) (by push_cast; norm_num; linear_combination (-160) * hMh) (by simp; positivity)
  have s1 : (bin p).rd (4 * (1 - 3 * h)) = 4 - 12 * h :=
    bin_to hh 1 (16 * M - 3) (by norm_num; linarith) (by norm_num; linarith) (by push_cast; norm_num; linear_combination (-64) * hMh)
      (by rw [show 4 * (1 - 3 * h) - (4 - 12 * h) = 0 by ring, abs_zero]; positivity)
  have s2 : (bin p).rd (4 - 12 * h + -15) = -(11 + 16 * h) := by
    rw [show 4 - 12 * h + -15 = -(11 + 12 * h) by ring, (bin p).neg]
    congr 1
    exact bin_to hh 3 (11 * M + 1) (by norm_num; linarith) (by norm_num; linarith) (by push_cast; norm_num; linear_combination (-176) * hMh)
      (by rw [abs_lt]; constructor <;> norm_num <;> linarith)
  have s3 : (bin p).rd (-(11 + 16 * h) * (1 - 3 * h)) = -(11 - 16 * h) := by
    rw [neg_mul, (bin p).neg]
    congr 1
    exact bin_to hh 3 (11 * M - 1) (by norm_num; nlinarith) (by norm_num; nlinarith) (by push_cast; norm_num; linear_combination (-176) * hMh)
      (by rw [abs_lt]; constructor <;> norm_num <;> nlinarith)
  have s4 : (bin p).rd (-(11 - 16 * h) + 20) = 9 + 16 * h :=
    bin_to hh 3 (9 * M + 1) (by norm_num; linarith) (by norm_num; linarith) (by push_cast; norm_num; linear_combination (-144) * hMh)
      (by rw [show -(11 - 16 * h) + 20 - (9 + 16 * h) = 0 by ring, abs_zero]; positivity)
  have s5 : (bin p).rd ((9 + 16 * h) * (1 - 3 * h)) = 9 - 16 * h :=
    bin_to hh 3 (9 * M - 1) (by norm_num; nlinarith) (by norm_num; nlinarith) (by push_cast; norm_num; linear_combination (-144) * hMh)
      (by rw [abs_lt]; constructor <;> norm_num <;> nlinarith)
  have s6 : (bin p).rd (9 - 16 * h + -10) = -(1 + 16 * h) := by
    rw [show 9 - 16 * h + -10 = -(1 + 16 * h) by ring, (bin p).neg]
    congr 1
    exact bin_to hh 0 (8 * M + 8) (by norm_num; linarith) (by norm_num; linarith) (by push_cast; norm_num; linear_combination (-16) * hMh)
      (by rw [sub_self, abs_zero]; positivity)
  have s7 : (bin p).rd (-(1 + 16 * h) * (1 - 3 * h)) = -(1 + 12 * h) := by
    rw [neg_mul, (bin p).neg]
    congr 1
    exact bin_to hh 0 (8 * M + 6) (by norm_num; nlinarith) (by norm_num; nlinarith) (by push_cast; norm_num; linear_combination (-16) * hMh)
      (by rw [abs_lt]; constructor <;> norm_num <;> nlinarith)
  have s8 : (bin p).rd (-(1 + 12 * h) + 0) = -(1 + 12 * h) := by
    rw [add_zero, (bin p).neg]
    congr 1
    exact bin_to hh 0 (8 * M + 6) (by norm_num; linarith) (by norm_num; linarith) (by push_cast; norm_num; linear_combination (-16) * hMh)
      (by rw [sub_self, abs_zero]; positivity)
  have s9 : (bin p).rd (-(1 + 12 * h) * (1 - 3 * h)) = -(1 + 8 * h) := by
    rw [neg_mul, (bin p).neg]
    congr 1
    exact bin_to hh 0 (8 * M + 4) (by norm_num; nlinarith) (by norm_num; nlinarith) (by push_cast; norm_num; linear_combination (-16) * hMh)
      (by rw [abs_lt]; constructor <;> norm_num <;> nlinarith)
  have s10 : (bin p).rd (-(1 + 8 * h) + 1) = -(8 * h) := by
    rw [show -(1 + 8 * h) + 1 = -(8 * h) by ring, (bin p).neg]
    congr 1
    have e : (2 : ℝ) ^ (2 - (p : ℤ)) = 8 * h := by
      rw [zpow_sub₀ two_ne_zero, zpow_natCast, hh, pow_succ]
      field_simp
      norm_num
    have e' : (2 : ℝ) ^ (2 - (p : ℤ) + 1) = 16 * h := by
      rw [zpow_add₀ two_ne_zero, e]
      ring
    exact bin_to hh (2 - (p : ℤ)) (8 * M) (by rw [e]) (by rw [e']; linarith) (by rw [e]; push_cast; linear_combination (-128 * h) * hMh)
      (by rw [sub_self, abs_zero]; positivity)
  have e : polyFl (bin p) (ratFl (bin p) (Poly.ofCoeffs [1, 0, -10, 20, -15, 4])) (1 - 3 * h) =
      hornerFl (bin p) (fun i => ([1, 0, -10, 20, -15] : List ℝ).getD i 0) (1 - 3 * h) 5 4 := by
    have c : ratFl (bin p) (Poly.ofCoeffs [1, 0, -10, 20, -15, 4]) = ⟨[1, 0, -10, 20, -15] ++ [4], by simp⟩ := by
      simp [ratFl, Poly.ofCoeffs, i1, i4, i10, i15, i20, rd_zero, (bin p).neg]
    rw [c, show (5 : ℕ) = ([1, 0, -10, 20, -15] : List ℝ).length from rfl, ← hornerFl_fold]
    simp [polyFl, Poly.eval]
  rw [e]
  simp only [hornerFl, List.getD_cons_succ, List.getD_cons_zero]
  rw [s1, s2, s3, s4, s5, s6, s7, s8, s9, s10]

/-- C96: the computed covariance is nowhere below zero and nowhere above one by more than the error bound. (That it is non-negative is false:
`wendland_nonneg_violated`.) -/
theorem wendland_nonneg_partial {l : Fin d → ℝ} {K : WendlandCov d} (h : mkWendland d k l = .ok K) {t : Tree (Fin d)} (ht : t.Full) (x y : Fin d → ℝ) :
    -(((1 + F.u) ^ (2 * K.poly.degree + 1) - 1) * absCoeffs K.poly) ≤ wendlandCovFl F t K x y ∧
      wendlandCovFl F t K x y ≤ 1 + ((1 + F.u) ^ (2 * K.poly.degree + 1) - 1) * absCoeffs K.poly := by
  unfold mkWendland at h
  obtain ⟨p, hp, _⟩ := wendland_constructs d k
  rw [hp] at h
  have hK : K = ⟨p, l⟩ := (Except.ok.inj h).symm
  have hKp : wendlandPoly d k = .ok K.poly := by rw [hK]; exact hp
  have q0 := (dist_near (F := F) ht (scale_near K) x y).nonneg (Real.sqrt_nonneg _)
  have he := abs_le.mp (wendlandFun_error (F := F) K.poly q0)
  rw [wendlandCovFl]
  obtain ⟨lo, hi⟩ := (wendland_shape hKp).2.2.2.2 _ q0
  constructor <;> linarith

/-- C96 (violation): in every binary format with at least six digits (so in single and double precision), the covariance function with `d = 2`, `k = 1` and unit
lengthscales takes a negative value at two points with floating-point coordinates, although the exact one is positive there. -/
theorem wendland_nonneg_violated (p : ℕ) (hp : 6 ≤ p) : ∃ (K : WendlandCov 2) (t : Tree (Fin 2)) (x y : Fin 2 → ℝ), mkWendland 2 1 1 = .ok K ∧ t.Full ∧
    (∀ i, (bin p).rd (x i) = x i ∧ (bin p).rd (y i) = y i) ∧ 0 < K.eval x y ∧ wendlandCovFl (bin p) t K x y = -(1 / 2 ^ (p - 2)) := by
  obtain ⟨h, hh⟩ : ∃ h : ℝ, h = 1 / 2 ^ (p + 1) := ⟨_, rfl⟩
  have h0 : 0 < h := by rw [hh]; positivity
  have h1 : h ≤ 1 / 128 := by
    rw [hh]
    apply one_div_le_one_div_of_le (by norm_num)
    calc (128 : ℝ) = 2 ^ 7 := by norm_num
      _ ≤ 2 ^ (p + 1) := pow_le_pow_right₀ one_le_two (by omega)
  obtain ⟨N, hN⟩ : ∃ N : ℤ, N = 2 ^ (p + 1) := ⟨_, rfl⟩
  have hNh : (N : ℝ) * h = 1 := by
    rw [hN, hh]
    push_cast
    field_simp
  have rr : (bin p).rd (1 - 3 * h) = 1 - 3 * h :=
    bin_to hh (-1) (N - 3) (by norm_num; linarith) (by norm_num; linarith) (by push_cast; norm_num; linear_combination (-1) * hNh)
      (by rw [sub_self, abs_zero]; positivity)
  have r2 : (bin p).rd ((1 - 3 * h) ^ 2) = 1 - 6 * h :=
    bin_to hh (-1) (N - 6) (by norm_num; nlinarith) (by rw [show (-1 : ℤ) + 1 = 0 by norm_num, zpow_zero]; nlinarith) (by push_cast; norm_num; linear_combination (-1) * hNh)
      (by rw [abs_lt]; constructor <;> norm_num <;> nlinarith)
  have r2' : (bin p).rd (1 - 6 * h) = 1 - 6 * h :=
    bin_to hh (-1) (N - 6) (by norm_num; linarith) (by norm_num; linarith) (by push_cast; norm_num; linear_combination (-1) * hNh)
      (by rw [sub_self, abs_zero]; positivity)
  have q1 : √(1 - 6 * h) ≤ 1 - 3 * h := by
    rw [Real.sqrt_le_left (by linarith)]
    nlinarith
  have q2 : 1 - 3 * h - h / 4 ≤ √(1 - 6 * h) := by
    apply Real.le_sqrt_of_sq_le
    nlinarith
  have rs : (bin p).rd (√(1 - 6 * h)) = 1 - 3 * h :=
    bin_to hh (-1) (N - 3) (by norm_num; linarith) (by norm_num; linarith) (by push_cast; norm_num; linear_combination (-1) * hNh)
      (by rw [abs_lt]; constructor <;> norm_num <;> linarith)
  let K : WendlandCov 2 := ⟨Poly.ofCoeffs [1, 0, -10, 20, -15, 4], 1⟩
  let t : Tree (Fin 2) := .node (.leaf 0) (.leaf 1)
  have hd : dist (bin p) t (fun i => (bin p).rd (1 / K.lengthscales i)) ![1 - 3 * h, 0] 0 = 1 - 3 * h := by
    simp [dist, sqDist, t, K, Tree.fl, (bin p).one, rr, r2, r2', rs, rd_zero]
  refine ⟨K, t, ![1 - 3 * h, 0], 0, ?_, ?_, ?_, ?_, ?_⟩
  · rw [mkWendland, poly21]
    rfl
  · refine ⟨by simp [t, Tree.leaves], fun i => ?_⟩
    fin_cases i <;> simp [t, Tree.leaves]
  · intro i
    fin_cases i <;> simp [rr, rd_zero]
  · have e : √(∑ i, (1 / K.lengthscales i * ((![1 - 3 * h, 0] : Fin 2 → ℝ) i - (0 : Fin 2 → ℝ) i)) ^ 2) = 1 - 3 * h := by
      rw [Fin.sum_univ_two]
      simp [K, Real.sqrt_sq (show 0 ≤ 1 - 3 * h by linarith)]
    rw [exact_eq, e]
    exact (wendland_shape poly21).2.1 _ (by linarith) (by linarith)
  · rw [wendlandCovFl, hd, wendlandFl, if_pos (by linarith), poly21_negative p hp hh, hh]
    rw [show p + 1 = (p - 2) + 3 by omega, pow_add]
    field_simp
    norm_num

/-! ## Double precision -/

lemma exWendland : ∃ K, mkWendland 2 1 (fun i => if i = 0 then 2 else 3) = .ok K ∧ K.poly = Poly.ofCoeffs [1, 0, -10, 20, -15, 4] :=
  ⟨⟨_, _⟩, by rw [mkWendland, poly21]; rfl, rfl⟩

/-- Two dimensions, lengthscales two and three: the error of the covariance is at most `2 ^ (-42)` everywhere. -/
example : ∃ (K : WendlandCov 2) (t : Tree (Fin 2)), mkWendland 2 1 (fun i => if i = 0 then 2 else 3) = .ok K ∧ t.Full ∧
    ∀ x y, |wendlandCovFl (bin 52) t K x y - K.eval x y| ≤ 1 / 2 ^ 42 := by
  obtain ⟨K, hK, hp⟩ := exWendland
  have ht : (Tree.node (.leaf 0) (.leaf 1) : Tree (Fin 2)).Full := by
    refine ⟨by simp [Tree.leaves], fun i => ?_⟩
    fin_cases i <;> simp [Tree.leaves]
  refine ⟨K, _, hK, ht, fun x y => (wendland_error (F := bin 52) hK ht x y).trans ?_⟩
  have hu : (bin 52).u = 1 / 2 ^ 53 := by
    change (2 : ℝ) ^ (-(52 + 1 : ℤ)) = _
    norm_num
  have a1 : absCoeffs K.poly = 50 := by
    rw [hp]
    simp [absCoeffs, Poly.ofCoeffs, Poly.degree, sum_range_succ]
    norm_num
  have a2 : absSlope K.poly = 160 := by
    rw [hp]
    simp [absSlope, Poly.ofCoeffs, Poly.degree, sum_range_succ]
    norm_num
  have a3 : K.poly.degree = 5 := by
    rw [hp]
    rfl
  rw [hu, a1, a2, a3]
  norm_num

/-- Points at scaled distance two: exactly zero. -/
example : ∃ (K : WendlandCov 2) (t : Tree (Fin 2)), mkWendland 2 1 (fun i => if i = 0 then 2 else 3) = .ok K ∧ wendlandCovFl (bin 52) t K ![4, 6] ![0, 6] = 0 ∧
    wendlandCovFl (bin 52) t K ![4, 6] ![4, 6] = 1 := by
  obtain ⟨K, hK, hp⟩ := exWendland
  have ht : (Tree.node (.leaf 0) (.leaf 1) : Tree (Fin 2)).Full := by
    refine ⟨by simp [Tree.leaves], fun i => ?_⟩
    fin_cases i <;> simp [Tree.leaves]
  refine ⟨K, _, hK, (wendland_exact (F := bin 52) hK ht _ _).2.2 ?_, (wendland_exact (F := bin 52) hK ht _ ![0, 0]).2.1⟩
  have hu : (bin 52).u = 1 / 2 ^ 53 := by
    change (2 : ℝ) ^ (-(52 + 1 : ℤ)) = _
    norm_num
  have e : √(∑ i, ((![4, 6] i - ![0, 6] i) / (if i = 0 then 2 else 3 : ℝ)) ^ 2 : ℝ) = 2 := by
    rw [Fin.sum_univ_two]
    simp
    rw [show (4 : ℝ) / 2 = 2 by norm_num]
    exact Real.sqrt_sq zero_le_two
  rw [e, hu]
  norm_num

end LinPDE.Rounding
