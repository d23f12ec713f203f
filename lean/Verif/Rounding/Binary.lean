import Verif.Rounding.Post
import Mathlib.Data.Int.Log
import Mathlib.Algebra.Order.Round

/-!
# C84: binary formats; the computed posterior variance can be negative
-/

namespace LinPDE.Rounding

/-- The nearest binary floating-point number with `p` digits after the leading one, of a positive number. -/
noncomputable def binPos (p : ℕ) (x : ℝ) : ℝ := round (x / (2 : ℝ) ^ (Int.log 2 x - p)) * (2 : ℝ) ^ (Int.log 2 x - p)

/-- Rounding to the nearest binary floating-point number (`p = 52`: IEEE double precision with unbounded exponents; half-way cases are
rounded away from zero, which is of no importance below). -/
noncomputable def binRd (p : ℕ) (x : ℝ) : ℝ := if x < 0 then -binPos p (-x) else if x = 0 then 0 else binPos p x

lemma binPos_err (p : ℕ) {x : ℝ} (hx : 0 < x) : |binPos p x - x| ≤ (2 : ℝ) ^ (-(p + 1 : ℤ)) * x := by
  set q : ℝ := (2 : ℝ) ^ (Int.log 2 x - p) with hq
  have hq0 : 0 < q := zpow_pos two_pos _
  have h1 := abs_sub_round (x / q)
  have e : binPos p x - x = -((x / q - round (x / q)) * q) := by
    rw [binPos, ← hq, sub_mul, div_mul_cancel₀ _ hq0.ne']
    ring
  have h2 : ((2 : ℕ) : ℝ) ^ Int.log 2 x ≤ x := Int.zpow_log_le_self one_lt_two hx
  rw [Nat.cast_two] at h2
  rw [e, abs_neg, abs_mul, abs_of_pos hq0]
  calc |x / q - round (x / q)| * q ≤ 1 / 2 * q := mul_le_mul_of_nonneg_right h1 hq0.le
    _ = (2 : ℝ) ^ (-(p + 1 : ℤ)) * (2 : ℝ) ^ Int.log 2 x := by
      rw [hq, one_div, ← zpow_neg_one, ← zpow_add₀ two_ne_zero, ← zpow_add₀ two_ne_zero]
      congr 1
      ring
    _ ≤ _ := mul_le_mul_of_nonneg_left h2 (zpow_pos two_pos _).le

lemma binPos_eq {p : ℕ} {x : ℝ} (e : ℤ) (h1 : (2 : ℝ) ^ e ≤ x) (h2 : x < (2 : ℝ) ^ (e + 1)) (n : ℤ) (h3 : |x / (2 : ℝ) ^ (e - p) - n| < 1 / 2) :
    binPos p x = n * (2 : ℝ) ^ (e - p) := by
  have hx : 0 < x := (zpow_pos two_pos e).trans_le h1
  have hl : Int.log 2 x = e := by
    apply le_antisymm
    · have := (Int.lt_zpow_iff_log_lt (b := 2) one_lt_two hx (x := e + 1)).mp (by rw [Nat.cast_two]; exact h2)
      omega
    · exact (Int.zpow_le_iff_le_log (b := 2) one_lt_two hx).mp (by rw [Nat.cast_two]; exact h1)
  rw [binPos, hl]
  congr 2
  rw [round_eq, Int.floor_eq_iff]
  rw [abs_lt] at h3
  constructor <;> linarith [h3.1, h3.2]

lemma binPos_one (p : ℕ) : binPos p 1 = 1 := by
  rw [binPos_eq 0 (by simp) (by simp) (2 ^ p) (by
    rw [zero_sub, zpow_neg, zpow_natCast]
    push_cast
    simp)]
  rw [zero_sub, zpow_neg, zpow_natCast]
  push_cast
  exact mul_inv_cancel₀ (pow_ne_zero _ two_ne_zero)

lemma binRd_err (p : ℕ) (x : ℝ) : |binRd p x - x| ≤ (2 : ℝ) ^ (-(p + 1 : ℤ)) * |x| := by
  rw [binRd]
  split_ifs with h1 h2
  · have := binPos_err p (neg_pos.mpr h1)
    rw [abs_of_neg h1]
    rwa [← neg_add', abs_neg, ← sub_neg_eq_add]
  · rw [h2]; simp
  · have hx : 0 < x := lt_of_le_of_ne (not_lt.mp h1) (Ne.symm h2)
    rw [abs_of_pos hx]
    exact binPos_err p hx

lemma binRd_neg (p : ℕ) (x : ℝ) : binRd p (-x) = -binRd p x := by
  rcases lt_trichotomy x 0 with h | rfl | h
  · rw [binRd, binRd, if_pos h, if_neg (by linarith), if_neg (by linarith), neg_neg]
  · simp [binRd]
  · rw [binRd, binRd, if_pos (by linarith), if_neg (by linarith), if_neg (by linarith), neg_neg]

lemma binRd_pos (p : ℕ) {x : ℝ} (h : 0 < x) : binRd p x = binPos p x := by
  rw [binRd, if_neg (by linarith), if_neg (by linarith)]

/-- Binary floating-point arithmetic. -/
noncomputable def bin (p : ℕ) : Fmt where
  rd := binRd p
  ex x := binRd p (Real.exp x)
  u := (2 : ℝ) ^ (-(p + 1 : ℤ))
  v := (2 : ℝ) ^ (-(p + 1 : ℤ))
  u_nonneg := (zpow_pos two_pos _).le
  u_lt := by
    rw [zpow_neg]
    exact inv_lt_one_of_one_lt₀ (one_lt_zpow₀ one_lt_two (by omega))
  v_nonneg := (zpow_pos two_pos _).le
  v_lt := by
    rw [zpow_neg]
    exact inv_lt_one_of_one_lt₀ (one_lt_zpow₀ one_lt_two (by omega))
  err := binRd_err p
  neg := binRd_neg p
  one := by rw [binRd_pos p one_pos, binPos_one]
  ex_err x := by
    have := binRd_err p (Real.exp x)
    rwa [abs_of_pos (Real.exp_pos x)] at this
  ex_zero := by rw [Real.exp_zero, binRd_pos p one_pos, binPos_one]

/-- C84 (violation): in every binary format with at least 3 digits (so in single and double precision), there is a prior variance `s` and a factor
`c` of an exact measurement of `c f(x)` such that the computed posterior variance of `f(x)` is negative, although the exact one is zero, and
although the linear system is solved with one rounding only. -/
theorem variance_violated (p : ℕ) (hp : 3 ≤ p) :
    ∃ s c : ℝ, 0 < s ∧ 0 < c ∧ (bin p).rd s = s ∧ (bin p).rd c = c ∧ s - (c * s) * ((c * (c * s))⁻¹ * (c * s)) = 0 ∧
      let k := (bin p).rd (c * s)
      let G := (bin p).rd (c * k)
      let z := (bin p).rd (k / G)
      postCov (bin p) (.leaf ()) s (fun _ => k) (fun _ => z) < 0 := by
  have rdp : ∀ {x : ℝ}, 0 < x → (bin p).rd x = binPos p x := fun h => binRd_pos p h
  obtain ⟨N, hN⟩ : ∃ N : ℤ, N = 2 ^ p := ⟨_, rfl⟩
  set h : ℝ := (2 : ℝ) ^ (-(p : ℤ)) with hh
  have hpos : 0 < h := zpow_pos two_pos _
  have h8 : h ≤ 1 / 8 := by
    have : (2 : ℝ) ^ (-(p : ℤ)) ≤ (2 : ℝ) ^ (-3 : ℤ) := zpow_le_zpow_right₀ one_le_two (by omega)
    refine this.trans (le_of_eq ?_)
    norm_num
  have hNh : (N : ℝ) * h = 1 := by
    rw [hN, hh, zpow_neg, zpow_natCast]
    push_cast
    exact mul_inv_cancel₀ (pow_ne_zero _ two_ne_zero)
  have hdiv : (N : ℝ) = 1 / h := by rw [eq_div_iff hpos.ne', hNh]
  have z0 : (2 : ℝ) ^ ((0 : ℤ) - p) = h := by rw [zero_sub]
  have z1 : (2 : ℝ) ^ ((1 : ℤ) - p) = 2 * h := by rw [sub_eq_add_neg, zpow_add₀ two_ne_zero, zpow_one]
  have zm : (2 : ℝ) ^ ((-1 : ℤ) - p) = h / 2 := by
    rw [sub_eq_add_neg, zpow_add₀ two_ne_zero, zpow_neg_one]
    ring
  -- numbers in [1, 2)
  have r0 : ∀ {x : ℝ} (n : ℤ), 1 ≤ x → x < 2 → |x - n * h| < h / 2 → binPos p x = n * h := by
    intro x n h1 h2 h3
    rw [binPos_eq 0 (by simpa using h1) (by simpa using h2) n, z0]
    rw [z0, div_sub' hpos.ne', abs_div, abs_of_pos hpos, div_lt_iff₀ hpos, mul_comm h]
    linarith
  have rs : binPos p (2 - 3 * h) = 2 - 3 * h := by
    have e : (2 - 3 * h) = ((2 * N - 3 : ℤ) : ℝ) * h := by push_cast; linear_combination (-2) * hNh
    rw [r0 (2 * N - 3) (by linarith) (by linarith) (by rw [← e, sub_self, abs_zero]; linarith), ← e]
  have rc : binPos p (1 + h) = 1 + h := by
    have e : (1 + h) = ((N + 1 : ℤ) : ℝ) * h := by push_cast; linear_combination (-1) * hNh
    rw [r0 (N + 1) (by linarith) (by linarith) (by rw [← e, sub_self, abs_zero]; linarith), ← e]
  have rk : binPos p ((1 + h) * (2 - 3 * h)) = 2 - h := by
    have e : (2 - h) = ((2 * N - 1 : ℤ) : ℝ) * h := by push_cast; linear_combination (-2) * hNh
    rw [r0 (2 * N - 1) (by nlinarith) (by nlinarith) (by rw [← e, abs_lt]; constructor <;> nlinarith), ← e]
  have rG : binPos p ((1 + h) * (2 - h)) = 2 := by
    have e : (2 : ℝ) = (N : ℝ) * (2 * h) := by linear_combination (-2) * hNh
    rw [binPos_eq 1 (by rw [zpow_one]; nlinarith) (by norm_num; nlinarith) N, z1, ← e]
    rw [z1, div_sub' (by positivity), abs_div, abs_of_pos (by positivity : (0 : ℝ) < 2 * h), div_lt_iff₀ (by positivity), mul_comm (2 * h), ← e, abs_lt]
    constructor <;> nlinarith
  have rz : binPos p ((2 - h) / 2) = (2 - h) / 2 := by
    have e : (2 - h) / 2 = ((2 * N - 1 : ℤ) : ℝ) * (h / 2) := by push_cast; linear_combination (-1) * hNh
    rw [binPos_eq (-1) (by norm_num; linarith) (by norm_num; linarith) (2 * N - 1), zm, ← e]
    rw [zm, div_sub' (by positivity), mul_comm (h / 2), ← e, sub_self, zero_div, abs_zero]
    norm_num
  have rp : binPos p ((2 - h) * ((2 - h) / 2)) = 2 - 2 * h := by
    have e : (2 - 2 * h) = ((2 * N - 2 : ℤ) : ℝ) * h := by push_cast; linear_combination (-2) * hNh
    rw [r0 (2 * N - 2) (by nlinarith) (by nlinarith) (by rw [← e, abs_lt]; constructor <;> nlinarith), ← e]
  have hs : 0 < 2 - 3 * h := by linarith
  have hc : 0 < 1 + h := by linarith
  refine ⟨2 - 3 * h, 1 + h, hs, hc, (rdp hs).trans rs, (rdp hc).trans rc, ?_, ?_⟩
  · field_simp
    ring
  · intro k G z
    have ek : k = 2 - h := (rdp (mul_pos hc hs)).trans rk
    have eG : G = 2 := by
      show (bin p).rd ((1 + h) * k) = 2
      rw [ek, rdp (mul_pos hc (by linarith)), rG]
    have ez : z = (2 - h) / 2 := by
      show (bin p).rd (k / G) = _
      rw [ek, eG, rdp (by linarith), rz]
    rw [postCov, Tree.fl, ek, ez, rdp (mul_pos (by linarith) (by linarith)), rp]
    have e1 : (2 - 3 * h - (2 - 2 * h)) = -h := by ring
    obtain ⟨t, ht, e2⟩ := rd_fac (bin p) (-h)
    rw [e1, e2]
    have := mul_pos ht.pos hpos
    linarith

end LinPDE.Rounding
