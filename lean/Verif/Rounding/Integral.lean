import Verif.Matern.IntegralProps
import Verif.Rounding.IntegralModel
import Verif.Rounding.Deriv
import Verif.Rounding.Wendland
import Verif.Rounding.Series

/-!
# C98: integrals of Matérn kernels in floating point
-/

namespace LinPDE.Rounding.IntFl
open LinPDE.Matern Finset LinPDE.Polys

variable {F : Fmt} {p j : ℕ}

/-! ## The polynomials -/

/-- No negative coefficients. -/
def NN (q : Poly ℚ) : Prop := ∀ c ∈ q.coeffs, 0 ≤ c

lemma NN.getD {q : Poly ℚ} (h : NN q) (i : ℕ) : 0 ≤ q.coeffs.getD i 0 := by
  rw [List.getD_eq_getElem?_getD]
  cases hi : q.coeffs[i]? with
  | none => simp
  | some c => exact h c (List.mem_of_getElem? hi)

lemma coeffs_of {cs : List ℚ} (h : cs ≠ []) : (Poly.ofCoeffs cs).coeffs = cs := by
  cases cs with
  | nil => exact absurd rfl h
  | cons a as => rfl

lemma nn_of {cs : List ℚ} (h : ∀ c ∈ cs, 0 ≤ c) : NN (.ofCoeffs cs) := by
  intro c hc
  cases cs with
  | nil => simp [Poly.ofCoeffs] at hc; rw [hc]
  | cons a as => exact h c hc

lemma zip_nn : ∀ {as bs : List ℚ}, (∀ c ∈ as, 0 ≤ c) → (∀ c ∈ bs, 0 ≤ c) → ∀ c ∈ zipLongest (· + ·) as bs, 0 ≤ c
  | [], bs, _, h, c, hc => by
    simp only [zipLongest, List.mem_map, zero_add] at hc
    obtain ⟨b, hb, rfl⟩ := hc
    exact h b hb
  | a :: as, [], h, _, c, hc => by
    simp only [zipLongest, List.mem_map, add_zero] at hc
    obtain ⟨b, hb, rfl⟩ := hc
    exact h b hb
  | a :: as, b :: bs, h1, h2, c, hc => by
    simp only [zipLongest, List.mem_cons] at hc
    rcases hc with rfl | hc
    · exact add_nonneg (h1 a (by simp)) (h2 b (by simp))
    · exact zip_nn (fun c hc => h1 c (by simp [hc])) (fun c hc => h2 c (by simp [hc])) c hc

lemma zip_length : ∀ (as bs : List ℚ), (zipLongest (· + ·) as bs).length = max as.length bs.length
  | [], bs => by simp [zipLongest]
  | a :: as, [] => by simp [zipLongest]
  | a :: as, b :: bs => by simp [zipLongest, zip_length as bs]

lemma diff_nn {q : Poly ℚ} (h : NN q) : NN q.differentiate := by
  refine nn_of fun c hc => ?_
  rw [List.mem_mapIdx] at hc
  obtain ⟨i, hi, rfl⟩ := hc
  exact mul_nonneg (h _ (List.mem_of_mem_tail (List.getElem_mem hi))) (Nat.cast_nonneg _)

lemma add_nn {q r : Poly ℚ} (h : NN q) (h' : NN r) : NN (q.add r) := nn_of (zip_nn h h')

lemma smul_nn {q : Poly ℚ} {a : ℚ} (ha : 0 ≤ a) (h : NN q) : NN (q.smul a) := by
  refine nn_of fun c hc => ?_
  obtain ⟨b, hb, rfl⟩ := List.mem_map.mp hc
  exact mul_nonneg ha (h b hb)

lemma matern_nn (p : ℕ) : NN (maternPoly p) := by
  refine nn_of fun c hc => ?_
  obtain ⟨k, _, rfl⟩ := List.mem_map.mp hc
  exact maternCoeff_nonneg p k

lemma loop_nn (p : ℕ) : ∀ n, NN (antiLoop p n).1 ∧ NN (antiLoop p n).2
  | 0 => ⟨matern_nn p, matern_nn p⟩
  | n + 1 => ⟨diff_nn (loop_nn p n).1, add_nn (loop_nn p n).2 (diff_nn (loop_nn p n).1)⟩

lemma loop2_nn (p : ℕ) : ∀ n, NN (antiLoop2 p n).1 ∧ NN (antiLoop2 p n).2
  | 0 => ⟨matern_nn p, matern_nn p⟩
  | n + 1 => ⟨diff_nn (loop2_nn p n).1, add_nn (loop2_nn p n).2 (smul_nn (by positivity) (diff_nn (loop2_nn p n).1))⟩

lemma diff_degree (q : Poly ℚ) : q.differentiate.degree ≤ q.degree := by
  unfold Poly.differentiate Poly.degree
  cases h : q.coeffs.tail.mapIdx fun k c => c * ((k + 1 : ℕ) : ℚ) with
  | nil => simp [Poly.ofCoeffs]
  | cons a as =>
    have := congrArg List.length h
    simp only [List.length_mapIdx, List.length_tail, List.length_cons] at this
    simp only [Poly.ofCoeffs, List.length_cons]
    omega

lemma add_degree {q r : Poly ℚ} (h : r.degree ≤ q.degree) : (q.add r).degree = q.degree := by
  have hq := List.length_pos_iff.mpr q.ne
  have hr := List.length_pos_iff.mpr r.ne
  have hl := zip_length q.coeffs r.coeffs
  unfold Poly.degree at h ⊢
  unfold Poly.add
  rw [coeffs_of (List.length_pos_iff.mp (by rw [hl]; omega)), hl]
  omega

lemma smul_degree (q : Poly ℚ) (a : ℚ) : (q.smul a).degree = q.degree := by
  unfold Poly.smul Poly.degree
  rw [coeffs_of (by simpa using q.ne), List.length_map]

lemma matern_degree (p : ℕ) : (maternPoly p).degree = p := by
  unfold maternPoly Poly.degree
  rw [coeffs_of (by simp)]
  simp

lemma loop_degree (p : ℕ) : ∀ n, (antiLoop p n).1.degree ≤ p ∧ (antiLoop p n).2.degree = p
  | 0 => ⟨(matern_degree p).le, matern_degree p⟩
  | n + 1 => by
    obtain ⟨h1, h2⟩ := loop_degree p n
    have h3 := (diff_degree (antiLoop p n).1).trans h1
    exact ⟨h3, (add_degree (h3.trans h2.ge)).trans h2⟩

lemma loop2_degree (p : ℕ) : ∀ n, (antiLoop2 p n).1.degree ≤ p ∧ (antiLoop2 p n).2.degree = p
  | 0 => ⟨(matern_degree p).le, matern_degree p⟩
  | n + 1 => by
    obtain ⟨h1, h2⟩ := loop2_degree p n
    have h3 := (diff_degree (antiLoop2 p n).1).trans h1
    exact ⟨h3, (add_degree (by rw [smul_degree]; exact h3.trans h2.ge)).trans h2⟩

lemma pev_sum (q : Poly ℚ) (r : ℝ) : pev q r = ∑ i ∈ range (q.degree + 1), ((q.coeffs.getD i 0 : ℚ) : ℝ) * r ^ i := realPoly_eval q r

lemma pev_nonneg {q : Poly ℚ} (h : NN q) {r : ℝ} (hr : 0 ≤ r) : 0 ≤ pev q r := by
  rw [pev_sum]
  exact sum_nonneg fun i _ => mul_nonneg (by exact_mod_cast h.getD i) (pow_nonneg hr i)

lemma rat_near {q : Poly ℚ} (h : NN q) {z z' : ℝ} (hz : 0 ≤ z) (hn : F.Near j z' z) :
    F.Near (2 * q.degree + 1 + q.degree * j) (polyFl F (ratFl F q) z') (pev q z) := by
  obtain ⟨θ, h1, h2, h3⟩ := polyFl_eq F (ratFl F q) z'
  have hd : (ratFl F q).degree = q.degree := by simp [ratFl, Poly.degree]
  rw [hd] at h1 h2 h3
  rw [h3, pev_sum]
  refine near_sum _ (fun i _ => mul_nonneg (by exact_mod_cast h.getD i) (pow_nonneg hz i)) fun i hi => ?_
  have hf : F.Fac (2 * q.degree) (θ i) := by
    rcases Nat.lt_succ_iff_lt_or_eq.mp (mem_range.mp hi) with hi | rfl
    · exact (h1 i hi).mono (by omega)
    · exact h2
  have hc : F.Near 1 ((ratFl F q).coeffs.getD i 0) ((q.coeffs.getD i 0 : ℚ) : ℝ) := by
    simp only [ratFl]
    rw [List.getD_eq_getElem?_getD, List.getElem?_map, List.getD_eq_getElem?_getD]
    cases q.coeffs[i]? with
    | none => simpa using near_refl F 1 0
    | some c => exact rd_fac F _
  have ht : F.Near (2 * q.degree) (θ i) 1 := ⟨θ i, hf, (mul_one _).symm⟩
  have := ((ht.mul hc).mul (hn.pow i)).mono (l := 2 * q.degree + 1 + q.degree * j)
    (by have := Nat.mul_le_mul_right j (Nat.lt_succ_iff.mp (mem_range.mp hi)); omega)
  rwa [one_mul] at this

lemma head_near (F : Fmt) (q : Poly ℚ) : F.Near 1 (headFl F q) (coeff0 q) := by
  obtain ⟨cs, hne⟩ := q
  cases cs with
  | nil => exact absurd rfl hne
  | cons a as => exact rd_fac F _

lemma head_zero (hid : ∀ y, F.rd (F.rd y) = F.rd y) (q : Poly ℚ) : polyFl F (ratFl F q) 0 = headFl F q := by
  obtain ⟨cs, hne⟩ := q
  match cs, hne with
  | [a], _ => rfl
  | a :: b :: as, hne =>
    rw [polyFl_zero F _ (by simp [ratFl, Poly.degree])]
    exact hid _

/-! ## The antiderivatives -/

lemma gf_mul (K n k : ℕ) (q : ℝ) : F.gf K k q * (1 + F.u) ^ n = F.gf (K + n) k q := by
  rw [Fmt.gf, Fmt.gf, pow_add]
  ring

lemma gf_ge (K k : ℕ) {q : ℝ} (hq : 0 ≤ q) : (1 + F.u) ^ K ≤ F.gf K k q := by
  rw [Fmt.gf]
  refine le_mul_of_one_le_right (pow_nonneg (by linarith [F.u_nonneg]) _) ?_
  refine one_le_mul_of_one_le_of_one_le (by linarith [F.v_nonneg]) (Real.one_le_exp (mul_nonneg (eps_nonneg F k) hq))

lemma gf_le {K k : ℕ} {q q' : ℝ} (h : q ≤ q') : F.gf K k q ≤ F.gf K k q' := by
  rw [Fmt.gf, Fmt.gf]
  refine mul_le_mul_of_nonneg_left (mul_le_mul_of_nonneg_left (Real.exp_le_exp.mpr (mul_le_mul_of_nonneg_left h (eps_nonneg F k))) ?_) ?_
  · linarith [F.v_nonneg]
  · exact pow_nonneg (by linarith [F.u_nonneg]) _

lemma cl_mag {g a b m m' : ℝ} (h : Cl g a b m) (hm : m ≤ m') : Cl g a b m' :=
  ⟨h.one_le, h.mag.trans hm, h.err.trans (mul_le_mul_of_nonneg_left hm (by linarith [h.one_le]))⟩

lemma sqrt_near (F : Fmt) (p : ℕ) : F.Near 1 (sqrtFl F p) (sqrt2nu p) := rd_fac F _

lemma inv_near (hu : F.u ≤ 1 / 2) (p : ℕ) : F.Near 3 (invFl F p) (1 / sqrt2nu p) := ((near_refl F 0 1).div hu (sqrt_near F p)).rd

lemma c1_near (hu : F.u ≤ 1 / 2) (p : ℕ) : F.Near 5 (C1Fl F p) (C1 p) := by
  unfold C1Fl C1
  rw [neg_neg, neg_neg]
  exact ((inv_near hu p).mul (head_near F _)).rd

lemma arg_near {r r' : ℝ} (h : F.Near j r' r) : F.Near (j + 2) (F.rd (sqrtFl F p * r')) (sqrt2nu p * r) :=
  (((sqrt_near F p).mul h).rd).mono (by omega)

lemma term_cl {A B M : ℝ} {n : ℕ} (hA : F.Cn n A B M) {q : Poly ℚ} (hq : NN q) (hd : q.degree = p) {r r' : ℝ} (hr : 0 ≤ r) (h : F.Near j r' r) :
    Cl (F.gf (n + 2 * p + 3 + p * (j + 2)) (j + 2) (sqrt2nu p * r))
      (F.rd (F.rd (A * F.ex (F.rd (-sqrtFl F p * r'))) * polyFl F (ratFl F q) (F.rd (sqrtFl F p * r'))))
      (B * Real.exp (-sqrt2nu p * r) * pev q (sqrt2nu p * r)) (M * Real.exp (-sqrt2nu p * r) * pev q (sqrt2nu p * r)) := by
  have z0 : 0 ≤ sqrt2nu p * r := mul_nonneg (sqrt2nu_pos p).le hr
  have hz := arg_near (p := p) h
  have h1 := times_ex hA (ex_cl z0 hz)
  rw [← F.neg, ← neg_mul, ← neg_mul] at h1
  have h2 := (rat_near hq z0 hz).cl
  rw [abs_of_nonneg (pev_nonneg hq z0), hd] at h2
  have h3 := (h1.mul h2).rd (F := F)
  rw [gf_mul, ← pow_one (1 + F.u), gf_mul] at h3
  exact h3.mono (gf_mono (by omega))

lemma C1_nonneg (p : ℕ) : 0 ≤ C1 p := by
  rw [C1, neg_neg, coeff0_eq]
  exact mul_nonneg (by have := sqrt2nu_pos p; positivity) (pev_nonneg (loop_nn p p).2 le_rfl)

lemma profile_nonneg (p : ℕ) {r : ℝ} (hr : 0 ≤ r) : 0 ≤ profile p r := by
  unfold profile
  refine mul_nonneg (by positivity) (sum_nonneg fun k _ => mul_nonneg (by positivity) (by positivity))

lemma anti1_nonneg (p : ℕ) {r : ℝ} (hr : 0 ≤ r) : 0 ≤ anti1 p r := by
  rw [(maternAntiderivatives_spec p r).1]
  exact intervalIntegral.integral_nonneg hr fun t ht => profile_nonneg p (mul_nonneg (sqrt2nu_pos p).le ht.1)

lemma term1_nonneg (p : ℕ) {r : ℝ} (hr : 0 ≤ r) : 0 ≤ 1 / sqrt2nu p * Real.exp (-sqrt2nu p * r) * pev (antiLoop p p).2 (sqrt2nu p * r) :=
  mul_nonneg (mul_nonneg (by have := sqrt2nu_pos p; positivity) (Real.exp_pos _).le) (pev_nonneg (loop_nn p p).2 (mul_nonneg (sqrt2nu_pos p).le hr))

lemma anti1_le (p : ℕ) {r : ℝ} (hr : 0 ≤ r) : anti1 p r ≤ C1 p := by
  have := term1_nonneg p hr
  rw [anti1, neg_mul, neg_mul]
  linarith

lemma anti1_cl (hu : F.u ≤ 1 / 2) (p : ℕ) {r r' : ℝ} (hr : 0 ≤ r) (h : F.Near j r' r) :
    Cl (F.gf (2 * p + 7 + p * (j + 2)) (j + 2) (sqrt2nu p * r)) (anti1Fl F p r') (anti1 p r) (2 * C1 p) := by
  have z0 : 0 ≤ sqrt2nu p * r := mul_nonneg (sqrt2nu_pos p).le hr
  have s0 := sqrt2nu_pos p
  have h1 := term_cl (Fmt.Cn.neg (inv_near hu p).cn) (loop_nn p p).2 (loop_degree p p).2 hr h
  rw [abs_of_nonneg (by positivity : 0 ≤ 1 / sqrt2nu p)] at h1
  have h2 := ((c1_near hu p).cl).mono ((pow_le_pow_right₀ F.le_add (show 5 ≤ 2 * p + 6 + p * (j + 2) by omega)).trans (gf_ge _ (j + 2) z0))
  rw [abs_of_nonneg (C1_nonneg p)] at h2
  have h3 := ((h1.mono (gf_mono (show _ ≤ 2 * p + 6 + p * (j + 2) by omega))).add h2).rd (F := F)
  rw [← pow_one (1 + F.u), gf_mul] at h3
  refine (cl_mag h3 ?_).mono (gf_mono (by omega))
  have := anti1_nonneg p hr
  rw [anti1, neg_mul, neg_mul] at this
  linarith

/-- C98: the computed radial antiderivative at a computed argument. -/
theorem antiderivative_error (hu : F.u ≤ 1 / 2) (p : ℕ) {r r' : ℝ} (hr : 0 ≤ r) (h : F.Near j r' r) :
    |anti1Fl F p r' - anti1 p r| ≤ (F.gf (2 * p + 7 + p * (j + 2)) (j + 2) (sqrt2nu p * r) - 1) * (2 * C1 p) := (anti1_cl hu p hr h).err

lemma inv2_near (F : Fmt) (p : ℕ) : F.Near 1 (inv2Fl F p) (1 / (2 * p + 1)) := rd_fac F _

lemma c2_near (F : Fmt) (p : ℕ) : F.Near 3 (C2Fl F p) (C2 p) := by
  obtain ⟨t, ht, e⟩ := inv2_near F p
  have h : F.Near 1 (-inv2Fl F p) (-(1 / (2 * p + 1))) := ⟨t, ht, by rw [e]; ring⟩
  exact (h.mul (head_near F _)).rd

lemma C2_nonpos (p : ℕ) : C2 p ≤ 0 := by
  rw [C2, neg_mul, coeff0_eq, neg_nonpos]
  exact mul_nonneg (by positivity) (pev_nonneg (loop2_nn p p).2 le_rfl)

lemma anti2_le (p : ℕ) {r : ℝ} (hr : 0 ≤ r) : anti2 p r ≤ C1 p * r := by
  rw [(maternAntiderivatives_spec p r).2]
  have hc : Continuous (anti1 p) := continuous_iff_continuousAt.mpr fun t => (hasDerivAt_anti1 p t).continuousAt
  have := intervalIntegral.integral_mono_on hr (hc.intervalIntegrable 0 r) (continuous_const.intervalIntegrable (μ := MeasureTheory.volume) 0 r)
    fun t ht => anti1_le p ht.1
  rw [intervalIntegral.integral_const, smul_eq_mul, sub_zero] at this
  linarith

lemma anti2_cl (hu : F.u ≤ 1 / 2) (p : ℕ) {r r' : ℝ} (hr : 0 ≤ r) (h : F.Near j r' r) :
    Cl (F.gf (2 * p + 8 + j + p * (j + 2)) (j + 2) (sqrt2nu p * r)) (anti2Fl F p r') (anti2 p r) (C1 p * r + 2 * |C2 p|) := by
  have z0 : 0 ≤ sqrt2nu p * r := mul_nonneg (sqrt2nu_pos p).le hr
  have h1 := term_cl (inv2_near F p).cn (loop2_nn p p).2 (loop2_degree p p).2 hr h
  rw [abs_of_nonneg (by positivity : (0 : ℝ) ≤ 1 / (2 * p + 1))] at h1
  have up : ∀ n ≤ 2 * p + 6 + j + p * (j + 2), (1 + F.u) ^ n ≤ F.gf (2 * p + 6 + j + p * (j + 2)) (j + 2) (sqrt2nu p * r) := fun n hn =>
    (pow_le_pow_right₀ F.le_add hn).trans (gf_ge _ (j + 2) z0)
  have h2 := ((((c1_near hu p).mul h).rd).cl).mono (up _ (by omega))
  rw [abs_of_nonneg (mul_nonneg (C1_nonneg p) hr)] at h2
  have h3 := ((h1.mono (gf_mono (show _ ≤ 2 * p + 6 + j + p * (j + 2) by omega))).add h2).rd (F := F)
  have h4 := ((c2_near F p).cl).mono ((up 3 (by omega)).trans (le_mul_of_one_le_right (zero_le_one.trans h2.one_le) F.le_add))
  have h5 := (h3.add h4).rd (F := F)
  rw [mul_assoc, ← pow_two, gf_mul] at h5
  refine (cl_mag h5 ?_).mono (gf_mono (by omega))
  have := anti2_le p hr
  rw [anti2] at this
  rw [abs_of_nonpos (C2_nonpos p)]
  linarith

/-- C98: the computed second radial antiderivative at a computed argument. -/
theorem antiderivative2_error (hu : F.u ≤ 1 / 2) (p : ℕ) {r r' : ℝ} (hr : 0 ≤ r) (h : F.Near j r' r) :
    |anti2Fl F p r' - anti2 p r| ≤ (F.gf (2 * p + 8 + j + p * (j + 2)) (j + 2) (sqrt2nu p * r) - 1) * (C1 p * r + 2 * |C2 p|) := (anti2_cl hu p hr h).err

/-! ## The integrals -/

lemma rad_near (l b x : ℝ) : F.Near 2 (radFl F l b x) (|b - x| / l) := by
  obtain ⟨t, ht, e⟩ := rd_fac F (b - x)
  have h1 : F.Near 1 |F.rd (b - x)| |b - x| := ⟨t, ht, by rw [e, abs_mul, abs_of_pos ht.pos]⟩
  have h2 := (h1.mul (near_refl F 0 l⁻¹)).rd
  rwa [← div_eq_mul_inv, ← div_eq_mul_inv] at h2

open Classical in
lemma sign_cl {g a b m : ℝ} (h : Cl g a b m) (c : Prop) : Cl g (negPow c * a) (negPow c * b) m := by
  unfold negPow
  split_ifs
  · rw [neg_one_mul, neg_one_mul]
    exact h.neg
  · rw [one_mul, one_mul]
    exact h

/-- C98: the computed covariance of a value and an integral, for all points within `R` lengthscales of both ends of the interval. -/
theorem integral_error (hu : F.u ≤ 1 / 2) (p : ℕ) {l a b x R : ℝ} (hl : 0 < l) (ha : |a - x| / l ≤ R) (hb : |b - x| / l ≤ R) :
    |integralFl F p l a b x - maternIntegral p l a b x| ≤ (F.gf (6 * p + 9) 4 (sqrt2nu p * R) - 1) * (4 * l * C1 p) := by
  classical
  have s0 := (sqrt2nu_pos p).le
  have key : ∀ c, |c - x| / l ≤ R → Cl (F.gf (6 * p + 7) 4 (sqrt2nu p * R)) (anti1Fl F p (radFl F l c x)) (anti1 p (|c - x| / l)) (2 * C1 p) := by
    intro c hc
    have := anti1_cl hu p (div_nonneg (abs_nonneg _) hl.le) (rad_near (F := F) l c x)
    exact (this.mono (gf_mono (show _ ≤ 6 * p + 7 by omega))).mono (gf_le (mul_le_mul_of_nonneg_left hc s0))
  have h1 := ((sign_cl (key b hb) (b < x)).sub (sign_cl (key a ha) (a < x))).rd (F := F)
  have h2 := ((near_refl F 0 l).cl.mul h1).rd (F := F)
  rw [pow_zero, one_mul, mul_assoc, ← pow_two, gf_mul, abs_of_pos hl] at h2
  refine h2.err.trans (le_of_eq ?_)
  ring

/-- C98: the computed covariance of two integrals. -/
theorem integral2_error (hu : F.u ≤ 1 / 2) (p : ℕ) {l a b c d R : ℝ} (hl : 0 < l) (h1 : |b - c| / l ≤ R) (h2 : |a - c| / l ≤ R) (h3 : |b - d| / l ≤ R)
    (h4 : |a - d| / l ≤ R) :
    |integral2Fl F p l a b c d - maternIntegral2 p l a b c d| ≤
      (F.gf (6 * p + 15) 4 (sqrt2nu p * R) - 1) * (4 * l ^ 2 * (C1 p * R + 2 * |C2 p|)) := by
  have s0 := (sqrt2nu_pos p).le
  have R0 : 0 ≤ R := (div_nonneg (abs_nonneg _) hl.le).trans h1
  have key : ∀ y z, |y - z| / l ≤ R → ∀ n, Cl (F.gf (6 * p + 10 + n) 4 (sqrt2nu p * R)) (anti2Fl F p (radFl F l y z)) (anti2 p (|y - z| / l)) (C1 p * R + 2 * |C2 p|) := by
    intro y z hc n
    have := anti2_cl hu p (div_nonneg (abs_nonneg _) hl.le) (rad_near (F := F) l y z)
    refine cl_mag ((this.mono (gf_mono (show _ ≤ 6 * p + 10 + n by omega))).mono (gf_le (mul_le_mul_of_nonneg_left hc s0))) ?_
    linarith [mul_le_mul_of_nonneg_left hc (C1_nonneg p)]
  have e1 := ((key b c h1 0).sub (key a c h2 0)).rd (F := F)
  rw [← pow_one (1 + F.u), gf_mul] at e1
  have e2 := (e1.sub (key b d h3 1)).rd (F := F)
  rw [← pow_one (1 + F.u), gf_mul] at e2
  have e3 := (e2.add (key a d h4 2)).rd (F := F)
  rw [← pow_one (1 + F.u), gf_mul] at e3
  have hq : F.Near 1 (F.rd (l ^ 2)) (l ^ 2) := rd_fac F _
  have e4 := (hq.cl.mul e3).rd (F := F)
  rw [mul_comm ((1 + F.u) ^ 1), gf_mul, ← pow_one (1 + F.u), gf_mul, abs_of_nonneg (sq_nonneg l)] at e4
  refine (e4.mono (gf_mono (show _ ≤ 6 * p + 15 by omega))).err.trans (le_of_eq ?_)
  ring

/-- C98: the computed covariances are close to the integrals of the kernel. -/
theorem integrals_close (hu : F.u ≤ 1 / 2) (p : ℕ) {l a b c d x R : ℝ} (hl : 0 < l) (hR : ∀ y ∈ [a, b], ∀ z ∈ [c, d, x], |y - z| / l ≤ R) :
    |integralFl F p l a b x - ∫ t in a..b, profile p (sqrt2nu p * (|x - t| / l))| ≤ (F.gf (6 * p + 9) 4 (sqrt2nu p * R) - 1) * (4 * l * C1 p) ∧
      |integral2Fl F p l a b c d - ∫ y in a..b, ∫ t in c..d, profile p (sqrt2nu p * (|y - t| / l))| ≤
        (F.gf (6 * p + 15) 4 (sqrt2nu p * R) - 1) * (4 * l ^ 2 * (C1 p * R + 2 * |C2 p|)) := by
  rw [← maternIntegral_spec p l a b x hl, ← maternIntegral2_spec p l a b c d hl]
  exact ⟨integral_error hu p hl (hR a (by simp) x (by simp)) (hR b (by simp) x (by simp)),
    integral2_error hu p hl (hR b (by simp) c (by simp)) (hR a (by simp) c (by simp)) (hR b (by simp) d (by simp)) (hR a (by simp) d (by simp))⟩

/-- C98: exchanging the two intervals changes the computed covariance by at most twice the error bound. -/
theorem integral2_symm_error (hu : F.u ≤ 1 / 2) (p : ℕ) {l a b c d R : ℝ} (hl : 0 < l) (h1 : |b - c| / l ≤ R) (h2 : |a - c| / l ≤ R) (h3 : |b - d| / l ≤ R)
    (h4 : |a - d| / l ≤ R) :
    |integral2Fl F p l a b c d - integral2Fl F p l c d a b| ≤ 2 * ((F.gf (6 * p + 15) 4 (sqrt2nu p * R) - 1) * (4 * l ^ 2 * (C1 p * R + 2 * |C2 p|))) := by
  have e1 := abs_le.mp (integral2_error hu p hl h1 h2 h3 h4)
  have e2 := abs_le.mp (integral2_error (F := F) hu p (a := c) (b := d) (c := a) (d := b) (R := R) hl (by rwa [abs_sub_comm]) (by rwa [abs_sub_comm]) (by rwa [abs_sub_comm])
    (by rwa [abs_sub_comm]))
  rw [maternIntegral2_symm p l c d a b] at e2
  rw [abs_le]
  constructor <;> linarith [e1.1, e1.2, e2.1, e2.2]

/-- C98: exchanging the ends of the interval changes the sign exactly and the integral over a point is exactly zero. In formats where rounding a float does nothing,
the covariance of the integral over a point with another integral is exactly zero, and so is the antiderivative at zero. -/
theorem integral_exact (F : Fmt) (p : ℕ) (l a b x : ℝ) :
    integralFl F p l b a x = -integralFl F p l a b x ∧ integralFl F p l a a x = 0 ∧
      ((∀ y, F.rd (F.rd y) = F.rd y) → integral2Fl F p l a a b x = 0 ∧ anti1Fl F p 0 = 0) := by
  refine ⟨?_, ?_, fun hid => ⟨?_, ?_⟩⟩
  · unfold integralFl radialFl
    rw [← F.neg, ← mul_neg, ← F.neg, neg_sub]
  · unfold integralFl radialFl
    rw [sub_self, rd_zero, mul_zero, rd_zero]
  · have h : ∀ r, F.rd (anti2Fl F p r) = anti2Fl F p r := fun r => hid _
    unfold integral2Fl radial2Fl
    rw [sub_self, rd_zero, zero_sub, F.neg, h, neg_add_cancel, rd_zero, mul_zero, rd_zero]
  · unfold anti1Fl C1Fl
    rw [mul_zero, rd_zero, F.ex_zero, mul_one, mul_zero, rd_zero, head_zero hid, F.neg, invFl, hid, neg_neg, neg_mul, F.neg, neg_add_cancel, rd_zero]

/-- C98, partial: the computed integral is positive where the exact one exceeds the error bound. Missing: all other intervals. -/
theorem integral_pos_partial (hu : F.u ≤ 1 / 2) (p : ℕ) {l a b x R : ℝ} (hl : 0 < l) (ha : |a - x| / l ≤ R) (hb : |b - x| / l ≤ R)
    (h : (F.gf (6 * p + 9) 4 (sqrt2nu p * R) - 1) * (4 * l * C1 p) < maternIntegral p l a b x) : 0 < integralFl F p l a b x := by
  linarith [(abs_le.mp (integral_error hu p hl ha hb)).1]

lemma anti1_order_zero (r : ℝ) : C1 0 = 1 ∧ anti1 0 r = 1 - Real.exp (-r) := by
  have hs : sqrt2nu 0 = 1 := by simp [sqrt2nu]
  have hc : ∀ r, pev (antiLoop 0 0).2 r = 1 := fun r => by
    rw [pev_sum, show (antiLoop 0 0).2.degree = 0 from (loop_degree 0 0).2]
    simp [antiLoop, maternPoly, maternCoeff, Poly.ofCoeffs]
  have h1 : C1 0 = 1 := by
    rw [C1, coeff0_eq, hc, hs]
    norm_num
  refine ⟨h1, ?_⟩
  rw [anti1, h1, hc, hs]
  ring_nf

/-- C98, violated: in every binary format the computed integral over a short interval is zero although the exact one is positive. -/
theorem integral_pos_violated (P : ℕ) : ∃ b : ℝ, 0 < b ∧ (bin P).rd b = b ∧ 0 < maternIntegral 0 1 0 b 0 ∧ integralFl (bin P) 0 1 0 b 0 = 0 := by
  classical
  obtain ⟨h, hh⟩ : ∃ h : ℝ, h = 1 / 2 ^ (P + 1) := ⟨_, rfl⟩
  have h0 : 0 < h := by rw [hh]; positivity
  have h1 : h ≤ 1 / 2 := by
    rw [hh]
    apply one_div_le_one_div_of_le two_pos
    calc (2 : ℝ) = 2 ^ 1 := by norm_num
      _ ≤ 2 ^ (P + 1) := pow_le_pow_right₀ one_le_two (by omega)
  obtain ⟨N, hN⟩ : ∃ N : ℤ, N = 2 ^ (P + 1) := ⟨_, rfl⟩
  have hNh : (N : ℝ) * h = 1 := by
    rw [hN, hh]
    push_cast
    field_simp
  have hb : (2 : ℝ) ^ (-(P + 3 : ℤ)) = h / 4 := by
    rw [zpow_neg, show ((P : ℤ) + 3) = ((P + 3 : ℕ) : ℤ) by push_cast; rfl, zpow_natCast, hh, pow_add, pow_add]
    field_simp
    norm_num
  have one : (bin P).rd 1 = 1 := (bin P).one
  have rb : (bin P).rd (h / 4) = h / 4 := by
    refine bin_to hh (-(P + 3 : ℤ)) (2 ^ P) hb.le ?_ ?_ ?_
    · rw [zpow_add₀ two_ne_zero, hb]
      linarith
    · rw [hb, hh, pow_succ]
      push_cast
      field_simp
    · rw [sub_self, abs_zero, hb]
      positivity
  have e1 : Real.exp (-(h / 4)) < 1 := Real.exp_lt_one_iff.mpr (by linarith)
  have e2 := Real.add_one_le_exp (-(h / 4))
  have re : (bin P).ex (-(h / 4)) = 1 :=
    bin_to hh (-1) N (by norm_num; linarith) (by norm_num; linarith) (by norm_num; linear_combination (-1) * hNh) (by rw [abs_lt]; constructor <;> norm_num <;> linarith)
  have z := ((integral_exact (bin P) 0 1 0 0 0).2.2 (bin_idem P)).2
  have s1 : sqrtFl (bin P) 0 = 1 := by simp [sqrtFl, one]
  have i1 : invFl (bin P) 0 = 1 := by simp [invFl, s1, one]
  have c0 : ∀ r, polyFl (bin P) (ratFl (bin P) (antiLoop 0 0).2) r = headFl (bin P) (antiLoop 0 0).2 := fun r => rfl
  have hz : anti1Fl (bin P) 0 (h / 4) = 0 := by
    rw [← z]
    unfold anti1Fl
    rw [c0, c0, s1, neg_one_mul, (bin P).neg, rb, re, mul_zero, rd_zero, (bin P).ex_zero]
  refine ⟨h / 4, by positivity, rb, ?_, ?_⟩
  · have hp : maternIntegral 0 1 0 (h / 4) 0 = 1 - Real.exp (-(h / 4)) := by
      have z' : anti1 0 0 = 0 := by rw [(maternAntiderivatives_spec 0 0).1, intervalIntegral.integral_same]
      have n1 : ¬ h / 4 < 0 := by linarith
      unfold maternIntegral radialIntegral
      rw [sub_zero, sub_zero, abs_of_pos (by positivity : 0 < h / 4), abs_zero, div_one, div_one, (anti1_order_zero _).2, z']
      simp [negPow, n1]
    rw [hp]
    linarith
  · have n1 : ¬ h / 4 < 0 := by linarith
    unfold integralFl radialFl radFl
    rw [sub_zero, sub_zero, rb, div_one, div_one, abs_of_pos (by positivity : 0 < h / 4), rb, hz, rd_zero, abs_zero, rd_zero, z]
    simp [rd_zero]

/-! ## Examples -/

lemma bin52 : (bin 52).u = 1 / 2 ^ 53 ∧ (bin 52).v = 1 / 2 ^ 53 := by
  constructor <;> (change (2 : ℝ) ^ (-(((52 : ℕ) : ℤ) + 1)) = _) <;> norm_num

lemma bin52_half : (bin 52).u ≤ 1 / 2 := by
  rw [bin52.1]
  norm_num

/-- Double precision: the antiderivatives for `ν = 3/2` at one. -/
example : |anti1Fl (bin 52) 1 1 - anti1 1 1| ≤ ((bin 52).gf (2 * 1 + 7 + 1 * (0 + 2)) (0 + 2) (sqrt2nu 1 * 1) - 1) * (2 * C1 1) ∧
    |anti2Fl (bin 52) 1 1 - anti2 1 1| ≤ ((bin 52).gf (2 * 1 + 8 + 0 + 1 * (0 + 2)) (0 + 2) (sqrt2nu 1 * 1) - 1) * (C1 1 * 1 + 2 * |C2 1|) :=
  ⟨antiderivative_error bin52_half 1 zero_le_one (near_refl _ 0 1), antiderivative2_error bin52_half 1 zero_le_one (near_refl _ 0 1)⟩

/-- Double precision: the kernel with `ν = 5/2` on `[0, 1]`. -/
example (x : ℝ) (hx : |x| ≤ 1) : |integralFl (bin 52) 2 2 0 1 x - maternIntegral 2 2 0 1 x| ≤ ((bin 52).gf 21 4 (sqrt2nu 2 * 1) - 1) * (4 * 2 * C1 2) := by
  have := abs_le.mp hx
  refine integral_error bin52_half 2 two_pos ?_ ?_ <;> rw [div_le_one two_pos, abs_le] <;> constructor <;> linarith

/-- Double precision: the integrals over `[0, 1]` and `[2, 3]`. -/
example : |integral2Fl (bin 52) 1 1 0 1 2 3 - maternIntegral2 1 1 0 1 2 3| ≤ ((bin 52).gf 21 4 (sqrt2nu 1 * 3) - 1) * (4 * 1 ^ 2 * (C1 1 * 3 + 2 * |C2 1|)) := by
  refine integral2_error bin52_half 1 one_pos ?_ ?_ ?_ ?_ <;> norm_num [abs_le]

example : |integralFl (bin 52) 1 1 0 1 2 - ∫ t in (0 : ℝ)..1, profile 1 (sqrt2nu 1 * (|2 - t| / 1))| ≤ ((bin 52).gf 15 4 (sqrt2nu 1 * 3) - 1) * (4 * 1 * C1 1) ∧
    |integral2Fl (bin 52) 1 1 0 1 2 3 - integral2Fl (bin 52) 1 1 2 3 0 1| ≤ 2 * (((bin 52).gf 21 4 (sqrt2nu 1 * 3) - 1) * (4 * 1 ^ 2 * (C1 1 * 3 + 2 * |C2 1|))) := by
  refine ⟨(integrals_close bin52_half 1 (c := 2) (d := 3) one_pos ?_).1, integral2_symm_error bin52_half 1 one_pos ?_ ?_ ?_ ?_⟩
  · simp only [List.mem_cons, List.not_mem_nil, or_false]
    rintro y (rfl | rfl) z (rfl | rfl | rfl) <;> norm_num [abs_le]
  all_goals norm_num [abs_le]

example : integralFl (bin 52) 3 2 1 0 5 = -integralFl (bin 52) 3 2 0 1 5 ∧ integral2Fl (bin 52) 3 2 1 1 0 5 = 0 :=
  ⟨(integral_exact _ 3 2 0 1 5).1, ((integral_exact _ 3 2 1 0 5).2.2 (bin_idem 52)).1⟩

/-- Double precision: the integral of the exponential kernel over `[0, 1]` at zero. -/
example : 0 < integralFl (bin 52) 0 1 0 1 0 := by
  classical
  refine integral_pos_partial bin52_half 0 (R := 1) one_pos (by norm_num) (by norm_num) ?_
  have hs : sqrt2nu 0 = 1 := by simp [sqrt2nu]
  have he : maternIntegral 0 1 0 1 0 = 1 - Real.exp (-1) := by
    unfold maternIntegral radialIntegral
    rw [(anti1_order_zero _).2, (anti1_order_zero _).2]
    norm_num [negPow]
  have h1 : Real.exp (-1) ≤ 1 / 2 := by
    rw [Real.exp_neg, ← one_div]
    exact one_div_le_one_div_of_le two_pos (by linarith [Real.add_one_le_exp (1 : ℝ)])
  have h2 : Real.exp ((1 + (bin 52).u) ^ 4 - 1) ≤ 1 / (1 - 1 / 2 ^ 50) := by
    have h3 := Real.add_one_le_exp (-((1 + (bin 52).u) ^ 4 - 1))
    rw [Real.exp_neg] at h3
    rw [← inv_inv (Real.exp _), ← one_div]
    refine one_div_le_one_div_of_le (by norm_num) (le_trans ?_ h3)
    rw [bin52.1]
    norm_num
  rw [he, (anti1_order_zero 0).1, hs, Fmt.gf, mul_one, mul_one]
  have h4 : (1 + (bin 52).u) ^ (6 * 0 + 9) * ((1 + (bin 52).v) * Real.exp ((1 + (bin 52).u) ^ 4 - 1)) ≤
      (1 + (bin 52).u) ^ (6 * 0 + 9) * ((1 + (bin 52).v) * (1 / (1 - 1 / 2 ^ 50))) := by
    have := (bin 52).u_nonneg
    have := (bin 52).v_nonneg
    gcongr
  have h5 : (1 + (bin 52).u) ^ (6 * 0 + 9) * ((1 + (bin 52).v) * (1 / (1 - 1 / 2 ^ 50))) ≤ 1 + 1 / 100 := by
    rw [bin52.1, bin52.2]
    norm_num
  have h6 := h4.trans h5
  generalize (1 + (bin 52).u) ^ (6 * 0 + 9) * ((1 + (bin 52).v) * Real.exp ((1 + (bin 52).u) ^ 4 - 1)) = g at h6 ⊢
  linarith

end LinPDE.Rounding.IntFl
