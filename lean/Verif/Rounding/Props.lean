import Verif.Rounding.Lemmas
import Verif.Poly.Props
import Verif.Matern.Props
import Verif.ExpQuad.Model

/-!
# C84: floating-point evaluation is close to exact evaluation
-/

namespace LinPDE.Rounding
open Finset LinPDE.Polys LinPDE.Matern

variable {F : Fmt}

/-! ## Polynomials -/

lemma polyFl_eq (F : Fmt) (p : Poly ℝ) (x : ℝ) :
    ∃ θ : ℕ → ℝ, (∀ i < p.degree, F.Fac (2 * i + 1) (θ i)) ∧ F.Fac (2 * p.degree) (θ p.degree) ∧
      polyFl F p x = ∑ i ∈ range (p.degree + 1), θ i * p.coeffs.getD i 0 * x ^ i := by
  obtain ⟨cs, hne⟩ := p
  obtain ⟨l, a, rfl⟩ : ∃ l a, cs = l ++ [a] := ⟨_, _, (List.dropLast_append_getLast hne).symm⟩
  have hd : (Poly.mk (l ++ [a]) hne).degree = l.length := by simp [Poly.degree]
  have e : polyFl F ⟨l ++ [a], hne⟩ x = hornerFl F (fun i => l.getD i 0) x l.length a := by
    rw [← hornerFl_fold]
    simp [polyFl, Poly.eval]
  obtain ⟨θ, h1, h2, h3⟩ := hornerFl_eq F (fun i => l.getD i 0) x l.length a
  rw [hd]
  refine ⟨θ, h1, h2, ?_⟩
  rw [e, h3, sum_range_succ, add_comm]
  have ea : (l ++ [a]).getD l.length 0 = a := by simp
  congr 1
  · refine sum_congr rfl fun i hi => ?_
    have := mem_range.mp hi
    dsimp only
    rw [List.getD_eq_getElem?_getD (l := l ++ [a]), List.getElem?_append_left (by omega), List.getD_eq_getElem?_getD]
  · dsimp only
    rw [ea]

lemma eval_sum (p : Poly ℝ) (x : ℝ) : p.eval x = ∑ i ∈ range (p.degree + 1), p.coeffs.getD i 0 * x ^ i := by
  rw [eval_eq_toPoly_eval, Polynomial.eval_eq_sum_range' (n := p.degree + 1) (Nat.lt_succ_of_le (natDegree_toPoly_le p))]
  simp only [coeff_toPoly]

/-- C84 (backward error): the computed value of a polynomial is the exact value of a polynomial whose coefficients differ
from the given ones by at most the relative error of `2 i + 1` roundings. -/
theorem poly_backward (F : Fmt) (p : Poly ℝ) (x : ℝ) :
    ∃ q : Poly ℝ, q.degree = p.degree ∧ (∀ i, |q.coeffs.getD i 0 - p.coeffs.getD i 0| ≤ ((1 + F.u) ^ (2 * i + 1) - 1) * |p.coeffs.getD i 0|) ∧
      polyFl F p x = q.eval x := by
  obtain ⟨θ, h1, h2, h3⟩ := polyFl_eq F p x
  have hlen : (List.range (p.degree + 1)).length = p.degree + 1 := List.length_range
  have hp : p.coeffs.length = p.degree + 1 := by
    have := List.length_pos_iff.mpr p.ne
    rw [Poly.degree]
    omega
  refine ⟨⟨(List.range (p.degree + 1)).map fun i => θ i * p.coeffs.getD i 0, by simp⟩, by simp [Poly.degree], fun i => ?_, ?_⟩
  · dsimp only
    rcases Nat.lt_or_ge i (p.degree + 1) with hi | hi
    · rw [List.getD_eq_getElem?_getD, List.getElem?_map, List.getElem?_range hi]
      refine Fmt.Near.abs ⟨θ i, ?_, rfl⟩
      rcases Nat.lt_succ_iff_lt_or_eq.mp hi with hi | rfl
      · exact h1 i hi
      · exact h2.mono (by omega)
    · rw [List.getD_eq_getElem?_getD, List.getElem?_eq_none (by simpa using hi), List.getD_eq_getElem?_getD,
        List.getElem?_eq_none (by omega)]
      simp
  · rw [h3, eval_sum]
    have : (Poly.mk ((List.range (p.degree + 1)).map fun i => θ i * p.coeffs.getD i 0) (by simp)).degree = p.degree := by simp [Poly.degree]
    rw [this]
    refine sum_congr rfl fun i hi => ?_
    dsimp only
    rw [List.getD_eq_getElem?_getD (l := List.map _ _), List.getElem?_map, List.getElem?_range (mem_range.mp hi)]
    rfl

/-- C84 (forward error): relative to the sum of the absolute values of the terms, with `2 · degree` roundings. In particular
constants are evaluated exactly. -/
theorem poly_forward (F : Fmt) (p : Poly ℝ) (x : ℝ) :
    |polyFl F p x - p.eval x| ≤ ((1 + F.u) ^ (2 * p.degree) - 1) * ∑ i ∈ range (p.degree + 1), |p.coeffs.getD i 0| * |x| ^ i := by
  obtain ⟨θ, h1, h2, h3⟩ := polyFl_eq F p x
  rw [h3, eval_sum, ← sum_sub_distrib, mul_sum]
  refine (abs_sum_le_sum_abs _ _).trans (sum_le_sum fun i hi => ?_)
  have hf : F.Fac (2 * p.degree) (θ i) := by
    rcases Nat.lt_succ_iff_lt_or_eq.mp (mem_range.mp hi) with hi | rfl
    · exact (h1 i hi).mono (by omega)
    · exact h2
  rw [← sub_mul, ← sub_one_mul, abs_mul, abs_mul, abs_pow, mul_assoc]
  exact mul_le_mul_of_nonneg_right (fac_abs hf) (by positivity)

/-- C84: a `RationalPolynomial` evaluated in floats, whose coefficients are rounded first. -/
theorem rat_forward (F : Fmt) (p : Poly ℚ) (x : ℝ) :
    |polyFl F (ratFl F p) x - ∑ i ∈ range (p.degree + 1), ((p.coeffs.getD i 0 : ℚ) : ℝ) * x ^ i| ≤
      ((1 + F.u) ^ (2 * p.degree + 1) - 1) * ∑ i ∈ range (p.degree + 1), |((p.coeffs.getD i 0 : ℚ) : ℝ)| * |x| ^ i := by
  obtain ⟨θ, h1, h2, h3⟩ := polyFl_eq F (ratFl F p) x
  have hd : (ratFl F p).degree = p.degree := by simp [ratFl, Poly.degree]
  rw [hd] at h1 h2 h3
  rw [h3, ← sum_sub_distrib, mul_sum]
  refine (abs_sum_le_sum_abs _ _).trans (sum_le_sum fun i hi => ?_)
  have hf : F.Fac (2 * p.degree) (θ i) := by
    rcases Nat.lt_succ_iff_lt_or_eq.mp (mem_range.mp hi) with hi | rfl
    · exact (h1 i hi).mono (by omega)
    · exact h2
  have hc : (ratFl F p).coeffs.getD i 0 = F.rd ((p.coeffs.getD i 0 : ℚ) : ℝ) := by
    simp only [ratFl, List.getD_eq_getElem?_getD, List.getElem?_map]
    cases p.coeffs[i]? <;> simp [rd_zero]
  obtain ⟨t, ht, e1⟩ := rd_fac F ((p.coeffs.getD i 0 : ℚ) : ℝ)
  rw [hc, e1, ← mul_assoc, ← sub_mul, ← sub_one_mul, abs_mul, abs_mul, abs_pow, mul_assoc]
  exact mul_le_mul_of_nonneg_right (fac_abs (hf.mul ht)) (by positivity)

lemma poly_near (F : Fmt) (p : Poly ℝ) {x : ℝ} (hx : 0 ≤ x) (hp : ∀ c ∈ p.coeffs, 0 ≤ c) : F.Near (2 * p.degree) (polyFl F p x) (p.eval x) := by
  obtain ⟨θ, h1, h2, h3⟩ := polyFl_eq F p x
  rw [h3, eval_sum]
  have hg : ∀ i, 0 ≤ p.coeffs.getD i 0 := by
    intro i
    rcases Nat.lt_or_ge i p.coeffs.length with h | h
    · rw [List.getD_eq_getElem?_getD, List.getElem?_eq_getElem h]
      exact hp _ (List.getElem_mem h)
    · rw [List.getD_eq_getElem?_getD, List.getElem?_eq_none h]
      exact le_rfl
  refine near_sum _ (fun i _ => mul_nonneg (hg i) (pow_nonneg hx i)) fun i hi => ⟨θ i, ?_, mul_assoc _ _ _⟩
  rcases Nat.lt_succ_iff_lt_or_eq.mp (mem_range.mp hi) with hi | rfl
  · exact (h1 i hi).mono (by omega)
  · exact h2

/-- C84: polynomials with non-negative coefficients are evaluated at non-negative arguments with small relative error. -/
theorem poly_relative (F : Fmt) (p : Poly ℝ) {x : ℝ} (hx : 0 ≤ x) (hp : ∀ c ∈ p.coeffs, 0 ≤ c) :
    |polyFl F p x - p.eval x| ≤ ((1 + F.u) ^ (2 * p.degree) - 1) * |p.eval x| := (poly_near F p hx hp).abs

/-! ## Sums -/

variable {ι : Type} [Fintype ι]

/-- C84: whatever the order of summation, the computed sum is the sum up to `n - 1` roundings of each summand. -/
theorem sum_forward (F : Fmt) {t : Tree ι} (ht : t.Full) (f : ι → ℝ) :
    |t.fl F f - ∑ i, f i| ≤ ((1 + F.u) ^ (Fintype.card ι - 1) - 1) * ∑ i, |f i| := by
  obtain ⟨θ, h1, h2⟩ := ht.fl_eq F f
  rw [h2, ← sum_sub_distrib, mul_sum]
  refine (abs_sum_le_sum_abs _ _).trans (sum_le_sum fun i _ => ?_)
  rw [← sub_one_mul, abs_mul]
  exact mul_le_mul_of_nonneg_right (fac_abs (h1 i)) (abs_nonneg _)

/-! ## Kernels -/

lemma sqDist_near {a : ℕ} {t : Tree ι} (ht : t.Full) {s s' : ι → ℝ} (hs : ∀ i, F.Near a (s i) (s' i)) (x y : ι → ℝ) :
    F.Near (Fintype.card ι + 2 * a + 4) (sqDist F t s x y) (∑ i, (s' i * (x i - y i)) ^ 2) := by
  have h := ht.fl_near (F := F) (k := 2 * (1 + a + 1) + 1) (f := fun i => F.rd (F.rd (F.rd (x i - y i) * s i) ^ 2))
    (g := fun i => (s' i * (x i - y i)) ^ 2) (fun i => sq_nonneg _) fun i => by
      have h1 : F.Near 1 (F.rd (x i - y i)) (x i - y i) := rd_fac F _
      have h2 := ((h1.mul (hs i)).rd.pow 2).rd
      rwa [mul_comm (x i - y i)] at h2
  have : 0 < Fintype.card ι := by rw [← ht.length]; exact t.leaves_pos
  exact h.mono (by omega)

lemma dist_near {a : ℕ} {t : Tree ι} (ht : t.Full) {s s' : ι → ℝ} (hs : ∀ i, F.Near a (s i) (s' i)) (x y : ι → ℝ) :
    F.Near (Fintype.card ι + a + 3) (dist F t s x y) (√(∑ i, (s' i * (x i - y i)) ^ 2)) := by
  have h := (sqDist_near ht hs x y).mono (l := 2 * (Fintype.card ι + a + 2)) (by omega)
  exact (near_sqrt (sum_nonneg fun i _ => sq_nonneg _) h).rd

/-- the computed exponential of the negative of a computed distance -/
lemma ex_bounds {k : ℕ} {x y : ℝ} (hy : 0 ≤ y) (h : F.Near k x y) :
    (1 - F.v) * Real.exp (-(((1 + F.u) ^ k - 1) * y)) * Real.exp (-y) ≤ F.ex (-x) ∧
      F.ex (-x) ≤ (1 + F.v) * Real.exp (((1 + F.u) ^ k - 1) * y) * Real.exp (-y) := by
  have h1 := h.abs
  rw [abs_of_nonneg hy, abs_le] at h1
  have h2 := F.ex_err (-x)
  rw [abs_le] at h2
  have hv := F.v_lt
  have hv0 := F.v_nonneg
  constructor
  · rw [mul_assoc, ← Real.exp_add]
    refine le_trans (b := (1 - F.v) * Real.exp (-x)) (mul_le_mul_of_nonneg_left (Real.exp_le_exp.mpr ?_) (by linarith)) (by linarith [h2.1])
    linarith [h1.2]
  · rw [mul_assoc, ← Real.exp_add]
    refine le_trans (b := (1 + F.v) * Real.exp (-x)) (by linarith [h2.2]) (mul_le_mul_of_nonneg_left (Real.exp_le_exp.mpr ?_) (by linarith))
    linarith [h1.1]

/-- … and its absolute error, the same bound at all distances -/
lemma ex_uniform {k : ℕ} {x y : ℝ} (hy : 0 ≤ y) (h : F.Near k x y) :
    |F.ex (-x) - Real.exp (-y)| ≤ F.v + ((1 + F.u) ^ k - 1) / (1 - F.u) ^ k := by
  have hx := h.nonneg hy
  have hx1 : Real.exp (-x) ≤ 1 := Real.exp_le_one_iff.mpr (by linarith)
  have hc : 0 < (1 - F.u) ^ k := pow_pos F.sub_pos k
  have e1 : |F.ex (-x) - Real.exp (-x)| ≤ F.v := (F.ex_err (-x)).trans (mul_le_of_le_one_right F.v_nonneg hx1)
  have e2 : |Real.exp (-x) - Real.exp (-y)| ≤ ((1 + F.u) ^ k - 1) / (1 - F.u) ^ k := by
    have hd := h.abs
    rw [abs_of_nonneg hy] at hd
    have hlow := ((near_iff hy).mp h).1
    have hcy : (1 - F.u) ^ k * y ≤ y := mul_le_of_le_one_left hy (pow_le_one₀ F.sub_nonneg F.sub_le)
    -- the mean value bound with the smaller argument at least `c y`
    have key : ∀ a b : ℝ, a ≤ b → (1 - F.u) ^ k * y ≤ a → Real.exp (-a) - Real.exp (-b) ≤ (b - a) * Real.exp (-((1 - F.u) ^ k * y)) := by
      intro a b hab ha
      have h1 : Real.exp (-b) = Real.exp (-a) * Real.exp (-(b - a)) := by rw [← Real.exp_add]; congr 1; ring
      have h2 := Real.add_one_le_exp (-(b - a))
      have h3 : Real.exp (-a) ≤ Real.exp (-((1 - F.u) ^ k * y)) := Real.exp_le_exp.mpr (by linarith)
      have h4 := Real.exp_pos (-a)
      rw [h1]
      nlinarith
    have h5 : |Real.exp (-x) - Real.exp (-y)| ≤ |x - y| * Real.exp (-((1 - F.u) ^ k * y)) := by
      rcases le_total x y with hxy | hxy
      · rw [abs_of_nonneg (by linarith [Real.exp_le_exp.mpr (neg_le_neg hxy)]), abs_sub_comm, abs_of_nonneg (by linarith)]
        exact key x y hxy hlow
      · rw [abs_sub_comm, abs_of_nonneg (by linarith [Real.exp_le_exp.mpr (neg_le_neg hxy)]), abs_of_nonneg (by linarith)]
        exact key y x hxy hcy
    have h6 : y * Real.exp (-((1 - F.u) ^ k * y)) ≤ 1 / (1 - F.u) ^ k := by
      rw [le_div_iff₀ hc, Real.exp_neg, ← div_eq_mul_inv, div_mul_eq_mul_div, div_le_one (Real.exp_pos _), mul_comm]
      linarith [Real.add_one_le_exp ((1 - F.u) ^ k * y)]
    refine h5.trans ((mul_le_mul_of_nonneg_right hd (Real.exp_pos _).le).trans ?_)
    rw [mul_assoc, div_eq_mul_one_div]
    exact mul_le_mul_of_nonneg_left h6 (eps_nonneg F k)
  calc |F.ex (-x) - Real.exp (-y)| = |(F.ex (-x) - Real.exp (-x)) + (Real.exp (-x) - Real.exp (-y))| := by rw [sub_add_sub_cancel]
    _ ≤ _ := (abs_add_le _ _).trans (add_le_add e1 e2)

/-- The bound of `expQuad_error` below; `a` roundings in each scale factor, `d` dimensions. -/
noncomputable def Fmt.eqErr (F : Fmt) (d a : ℕ) : ℝ := F.v + ((1 + F.u) ^ (d + 2 * a + 4) - 1) / (1 - F.u) ^ (d + 2 * a + 4)

/-- C84: the computed squared exponential covariance, at all pairs of points, in any order of summation and with scale factors that
carry `a` roundings: an absolute error bound that does not depend on the points, and a relative one growing with the distance. -/
theorem expQuad_error {d a : ℕ} {t : Tree (Fin d)} (ht : t.Full) (l : Fin d → ℝ) {s : Fin d → ℝ}
    (hs : ∀ i, F.Near a (s i) (ExpQuad.sf l i)) (x y : Fin d → ℝ) :
    |expQuad F t s x y - (ExpQuad.EK.expquad l).eval x y| ≤ F.eqErr d a ∧
      let δ := ((1 + F.u) ^ (d + 2 * a + 4) - 1) * ∑ i, (ExpQuad.sf l i * (x i - y i)) ^ 2
      (1 - F.v) * Real.exp (-δ) * (ExpQuad.EK.expquad l).eval x y ≤ expQuad F t s x y ∧
        expQuad F t s x y ≤ (1 + F.v) * Real.exp δ * (ExpQuad.EK.expquad l).eval x y := by
  have h := sqDist_near ht hs x y
  rw [Fintype.card_fin] at h
  have h0 : 0 ≤ ∑ i, (ExpQuad.sf l i * (x i - y i)) ^ 2 := sum_nonneg fun i _ => sq_nonneg _
  have e : (ExpQuad.EK.expquad l).eval x y = Real.exp (-∑ i, (ExpQuad.sf l i * (x i - y i)) ^ 2) := rfl
  rw [e]
  exact ⟨ex_uniform h0 h, ex_bounds h0 h⟩

/-! ### Matérn -/

lemma maternCoeff_nonneg (p i : ℕ) : 0 ≤ maternCoeff p i := by
  rw [maternCoeff]
  positivity

lemma pev_matern (p : ℕ) (r : ℝ) : pev (derivPoly p 0) r = ∑ i ∈ range (p + 1), (maternCoeff p i : ℝ) * r ^ i := by
  have e : (toReal (derivPoly p 0)).coeffs = (List.range (p + 1)).map fun i => (maternCoeff p i : ℝ) := by
    rw [derivPoly, maternPoly, toReal]
    simp [List.range_succ_eq_map, Poly.ofCoeffs, Function.comp_def]
  rw [pev, eval_eq_sum, e, List.length_map, List.length_range]
  refine sum_congr rfl fun i hi => ?_
  rw [List.getD_eq_getElem?_getD, List.getElem?_map, List.getElem?_range (mem_range.mp hi)]
  rfl

lemma horner_near {p a : ℕ} {r r' : ℝ} (hr' : 0 ≤ r') (hr : F.Near a r r') :
    F.Near (2 * p + 1 + p * a) (hornerFl F (fun i => F.rd (maternCoeff p i : ℝ)) r p (F.rd (maternCoeff p p : ℝ))) (pev (derivPoly p 0) r') := by
  obtain ⟨θ, h1, h2, h3⟩ := hornerFl_eq F (fun i => F.rd (maternCoeff p i : ℝ)) r p (F.rd (maternCoeff p p : ℝ))
  have e : hornerFl F (fun i => F.rd (maternCoeff p i : ℝ)) r p (F.rd (maternCoeff p p : ℝ)) =
      ∑ i ∈ range (p + 1), θ i * F.rd (maternCoeff p i : ℝ) * r ^ i := by
    rw [h3, sum_range_succ, add_comm]
  rw [e, pev_matern]
  refine near_sum _ (fun i _ => mul_nonneg (by exact_mod_cast maternCoeff_nonneg p i) (pow_nonneg hr' i)) fun i hi => ?_
  have hip : i ≤ p := Nat.lt_succ_iff.mp (mem_range.mp hi)
  have hθ : F.Fac (2 * p) (θ i) := by
    rcases hip.lt_or_eq with h | rfl
    · exact (h1 i h).mono (by omega)
    · exact h2
  have e1 : F.Near (2 * p) (θ i * F.rd (maternCoeff p i : ℝ)) (F.rd (maternCoeff p i : ℝ)) := ⟨θ i, hθ, rfl⟩
  have e2 : F.Near 1 (F.rd (maternCoeff p i : ℝ)) (maternCoeff p i : ℝ) := rd_fac F _
  refine ((e1.trans e2).mul (hr.pow i)).mono ?_
  have := Nat.mul_le_mul_right a hip
  omega

/-- C84: the computed half-integer Matérn covariance, at all pairs of points and in any order of summation: a relative error bound that
grows with the distance only through the rounding of the argument of the exponential. -/
theorem matern_error {d a : ℕ} {t : Tree (Fin d)} (ht : t.Full) (m : Par d) {s : Fin d → ℝ} (hs : ∀ i, F.Near a (s i) (m.s i))
    (x y : Fin d → ℝ) :
    let K := 2 * m.p + 2 + m.p * (d + a + 3)
    let δ := ((1 + F.u) ^ (d + a + 3) - 1) * √(∑ i, (m.s i * (x i - y i)) ^ 2)
    (1 - F.u) ^ K * (1 - F.v) * Real.exp (-δ) * (MK.matern m).eval x y ≤ matern F m.p t s x y ∧
      matern F m.p t s x y ≤ (1 + F.u) ^ K * (1 + F.v) * Real.exp δ * (MK.matern m).eval x y := by
  intro K δ
  have hd := dist_near ht hs x y
  rw [Fintype.card_fin] at hd
  set r' := √(∑ i, (m.s i * (x i - y i)) ^ 2) with hr'
  have hr0 : 0 ≤ r' := Real.sqrt_nonneg _
  have e : (MK.matern m).eval x y = pev (derivPoly m.p 0) r' * Real.exp (-r') := by
    have h1 : Matern.norm (sdiff m.s x y) = r' := by
      rw [hr', Matern.norm]
      congr 1
      exact sum_congr rfl fun i _ => congrArg (· ^ 2) (mul_comm _ _)
    rw [MK.eval, h1]
  have hp0 : 0 ≤ pev (derivPoly m.p 0) r' := by
    rw [pev_matern]
    exact sum_nonneg fun i _ => mul_nonneg (by exact_mod_cast maternCoeff_nonneg m.p i) (pow_nonneg hr0 i)
  obtain ⟨b1, b2⟩ := ex_bounds hr0 hd
  have hh := horner_near (p := m.p) hr0 hd
  obtain ⟨θ, hθ, e1⟩ := hh
  obtain ⟨η, hη, e2⟩ := rd_fac F (hornerFl F (fun i => F.rd (maternCoeff m.p i : ℝ)) (dist F t s x y) m.p (F.rd (maternCoeff m.p m.p : ℝ)) *
    F.ex (-dist F t s x y))
  have e3 : matern F m.p t s x y = (η * θ) * (pev (derivPoly m.p 0) r' * F.ex (-dist F t s x y)) := by
    rw [matern, e2, e1]
    ring
  have hf : F.Fac K (η * θ) := (hη.mul hθ).mono (by omega)
  have hex : 0 ≤ F.ex (-dist F t s x y) :=
    le_trans (mul_nonneg (mul_nonneg (by linarith [F.v_lt]) (Real.exp_pos _).le) (Real.exp_pos _).le) b1
  rw [e, e3]
  constructor
  · calc _ = (1 - F.u) ^ K * (pev (derivPoly m.p 0) r' * ((1 - F.v) * Real.exp (-δ) * Real.exp (-r'))) := by ring
      _ ≤ _ := mul_le_mul hf.1 (mul_le_mul_of_nonneg_left b1 hp0)
        (mul_nonneg hp0 (mul_nonneg (mul_nonneg (by linarith [F.v_lt]) (Real.exp_pos _).le) (Real.exp_pos _).le)) hf.pos.le
  · calc _ ≤ (1 + F.u) ^ K * (pev (derivPoly m.p 0) r' * ((1 + F.v) * Real.exp δ * Real.exp (-r'))) :=
        mul_le_mul hf.2 (mul_le_mul_of_nonneg_left b2 hp0) (mul_nonneg hp0 hex) (hf.pos.le.trans hf.2)
      _ = _ := by ring

lemma pow_exp_le (n : ℕ) {c r : ℝ} (hc : 0 < c) (hr : 0 ≤ r) : r ^ n * Real.exp (-(c * r)) ≤ n.factorial / c ^ n := by
  have h := Real.pow_div_factorial_le_exp (c * r) (mul_nonneg hc.le hr) n
  rw [div_le_iff₀ (by positivity), mul_pow] at h
  rw [Real.exp_neg, le_div_iff₀ (by positivity), mul_assoc, mul_comm (Real.exp _)⁻¹, ← mul_assoc, ← div_eq_mul_inv, div_le_iff₀ (Real.exp_pos _)]
  linarith

/-- The bound of `matern_uniform` below: `p` is the order, `d` the dimension, `a` the number of roundings in each scale factor. -/
noncomputable def Fmt.maternErr (F : Fmt) (p d a : ℕ) : ℝ :=
  let ε := (1 + F.u) ^ (d + a + 3) - 1
  ((1 + F.u) ^ (2 * p + 2 + p * (d + a + 3)) * (1 + F.v) - 1) * ∑ i ∈ range (p + 1), (maternCoeff p i : ℝ) * (i.factorial / (1 - ε) ^ i) +
    ε * ∑ i ∈ range (p + 1), (maternCoeff p i : ℝ) * ((i + 1).factorial / (1 - ε) ^ (i + 1))

/-- C84: the computed half-integer Matérn covariance has an absolute error that is bounded independently of the points. -/
theorem matern_uniform {d a : ℕ} {t : Tree (Fin d)} (ht : t.Full) (m : Par d) {s : Fin d → ℝ} (hs : ∀ i, F.Near a (s i) (m.s i))
    (hF : (1 + F.u) ^ (d + a + 3) < 2) (x y : Fin d → ℝ) : |matern F m.p t s x y - (MK.matern m).eval x y| ≤ F.maternErr m.p d a := by
  obtain ⟨h1, h2⟩ := matern_error (F := F) ht m hs x y
  set K := 2 * m.p + 2 + m.p * (d + a + 3) with hK
  set r := √(∑ i, (m.s i * (x i - y i)) ^ 2) with hr'
  have hr0 : 0 ≤ r := Real.sqrt_nonneg _
  set ε := (1 + F.u) ^ (d + a + 3) - 1 with hε
  have hε0 : 0 ≤ ε := eps_nonneg F _
  have hc : 0 < 1 - ε := by rw [hε]; linarith
  set A := (1 + F.u) ^ K * (1 + F.v) with hA
  set B := (1 - F.u) ^ K * (1 - F.v) with hB
  have e : (MK.matern m).eval x y = (∑ i ∈ range (m.p + 1), (maternCoeff m.p i : ℝ) * r ^ i) * Real.exp (-r) := by
    have h1 : Matern.norm (sdiff m.s x y) = r := by
      rw [hr', Matern.norm]
      congr 1
      exact sum_congr rfl fun i _ => congrArg (· ^ 2) (mul_comm _ _)
    rw [MK.eval, h1, pev_matern]
  set k := (MK.matern m).eval x y with hk
  have hcoef : ∀ i, (0 : ℝ) ≤ maternCoeff m.p i := fun i => by exact_mod_cast maternCoeff_nonneg m.p i
  have hk0 : 0 ≤ k := by
    rw [e]
    exact mul_nonneg (sum_nonneg fun i _ => mul_nonneg (hcoef i) (pow_nonneg hr0 i)) (Real.exp_pos _).le
  have ec : Real.exp (ε * r) * Real.exp (-r) = Real.exp (-((1 - ε) * r)) := by rw [← Real.exp_add]; congr 1; ring
  have b1 : Real.exp (ε * r) * k ≤ ∑ i ∈ range (m.p + 1), (maternCoeff m.p i : ℝ) * (i.factorial / (1 - ε) ^ i) := by
    rw [e, mul_comm, mul_assoc, mul_comm (Real.exp (-r)), ec, sum_mul]
    refine sum_le_sum fun i _ => ?_
    rw [mul_assoc]
    exact mul_le_mul_of_nonneg_left (pow_exp_le i hc hr0) (hcoef i)
  have b2 : r * (Real.exp (ε * r) * k) ≤ ∑ i ∈ range (m.p + 1), (maternCoeff m.p i : ℝ) * ((i + 1).factorial / (1 - ε) ^ (i + 1)) := by
    rw [e, mul_comm r, mul_comm (Real.exp (ε * r)), mul_assoc (∑ i ∈ range (m.p + 1), (maternCoeff m.p i : ℝ) * r ^ i), mul_comm (Real.exp (-r)), ec, mul_assoc, sum_mul]
    refine sum_le_sum fun i _ => ?_
    rw [mul_assoc]
    refine mul_le_mul_of_nonneg_left ?_ (hcoef i)
    have := pow_exp_le (i + 1) hc hr0
    rw [pow_succ] at this
    linarith
  have c1 : 1 ≤ Real.exp (ε * r) := Real.one_le_exp (mul_nonneg hε0 hr0)
  have c2 : Real.exp (ε * r) - 1 ≤ ε * r * Real.exp (ε * r) := by
    have h3 := Real.add_one_le_exp (-(ε * r))
    have h4 : Real.exp (ε * r) * Real.exp (-(ε * r)) = 1 := by rw [← Real.exp_add, add_neg_cancel, Real.exp_zero]
    nlinarith [mul_le_mul_of_nonneg_left h3 (Real.exp_pos (ε * r)).le]
  have c3 : 1 - Real.exp (-(ε * r)) ≤ ε * r := by linarith [Real.add_one_le_exp (-(ε * r))]
  have c4 : Real.exp (-(ε * r)) ≤ 1 := Real.exp_le_one_iff.mpr (neg_nonpos.mpr (mul_nonneg hε0 hr0))
  have hA1 : 1 ≤ A := one_le_mul_of_one_le_of_one_le (one_le_pow₀ F.le_add) (by linarith [F.v_nonneg])
  have hAB : 1 - B ≤ A - 1 := by
    have h3 := fac_abs (F := F) (k := K) ⟨le_rfl, (pow_le_pow_left₀ F.sub_nonneg (F.sub_le.trans F.le_add) K)⟩
    rw [abs_le] at h3
    have h4 : (1 - F.u) ^ K ≤ (1 + F.u) ^ K := pow_le_pow_left₀ F.sub_nonneg (F.sub_le.trans F.le_add) K
    have h5 := mul_le_mul_of_nonneg_left h4 F.v_nonneg
    rw [hA, hB]
    nlinarith [h3.1]
  have hB0 : 0 ≤ B := mul_nonneg (pow_nonneg F.sub_nonneg _) (by linarith [F.v_lt])
  have u1 : (A - 1) * (Real.exp (ε * r) * k) ≤ _ := mul_le_mul_of_nonneg_left b1 (by linarith)
  have u2 : ε * (r * (Real.exp (ε * r) * k)) ≤ _ := mul_le_mul_of_nonneg_left b2 hε0
  have hfin : F.maternErr m.p d a = (A - 1) * ∑ i ∈ range (m.p + 1), (maternCoeff m.p i : ℝ) * (i.factorial / (1 - ε) ^ i) +
      ε * ∑ i ∈ range (m.p + 1), (maternCoeff m.p i : ℝ) * ((i + 1).factorial / (1 - ε) ^ (i + 1)) := rfl
  rw [hfin]
  refine le_trans ?_ (add_le_add u1 u2)
  have hek : k ≤ Real.exp (ε * r) * k := le_mul_of_one_le_left hk0 c1
  rw [abs_le]
  constructor
  · -- the lower bound
    have d1 : k - B * Real.exp (-(ε * r)) * k ≤ (A - 1) * k + ε * r * k := by
      have : 1 - B * Real.exp (-(ε * r)) ≤ (A - 1) + ε * r := by
        nlinarith [mul_le_mul_of_nonneg_right hAB (Real.exp_pos (-(ε * r))).le]
      nlinarith
    have d2 : (A - 1) * k ≤ (A - 1) * (Real.exp (ε * r) * k) := mul_le_mul_of_nonneg_left hek (by linarith)
    have d3 : ε * r * k ≤ ε * r * (Real.exp (ε * r) * k) := mul_le_mul_of_nonneg_left hek (mul_nonneg hε0 hr0)
    have d4 : B * Real.exp (-(ε * r)) * k ≤ matern F m.p t s x y := h1
    nlinarith
  · have d4 : matern F m.p t s x y ≤ A * Real.exp (ε * r) * k := h2
    have d5 : (Real.exp (ε * r) - 1) * k ≤ ε * r * Real.exp (ε * r) * k := mul_le_mul_of_nonneg_right c2 hk0
    nlinarith

/-! ### Symmetry -/

omit [Fintype ι] in
lemma sqDist_symm (F : Fmt) (t : Tree ι) (s x y : ι → ℝ) : sqDist F t s x y = sqDist F t s y x := by
  rw [sqDist, sqDist]
  congr 1
  funext i
  rw [← neg_sub, F.neg, neg_mul, F.neg, neg_sq]

omit [Fintype ι] in
lemma Tree.fl_zero (F : Fmt) (t : Tree ι) : t.fl F (fun _ => 0) = 0 := by
  induction t with
  | leaf i => rfl
  | node l r h1 h2 => rw [Tree.fl, h1, h2, add_zero, rd_zero]

omit [Fintype ι] in
lemma sqDist_self (F : Fmt) (t : Tree ι) (s x : ι → ℝ) : sqDist F t s x x = 0 := by
  rw [sqDist]
  refine Eq.trans ?_ (t.fl_zero F)
  congr 1
  funext i
  rw [sub_self, rd_zero, zero_mul, rd_zero, zero_pow two_ne_zero, rd_zero]

lemma hornerFl_zero (F : Fmt) (c : ℕ → ℝ) (n : ℕ) (hn : 0 < n) (res : ℝ) : hornerFl F c 0 n res = F.rd (c 0) := by
  induction n generalizing res with
  | zero => omega
  | succ n ih =>
    rw [hornerFl, mul_zero, rd_zero, zero_add]
    rcases Nat.eq_zero_or_pos n with rfl | h
    · rfl
    · exact ih h _

omit [Fintype ι] in
/-- C84: computed covariance matrices of the squared exponential and Matérn kernels are exactly symmetric, and their diagonals are
exactly one, as in the branch `x1 = None`. -/
theorem kernels_symmetric (F : Fmt) (t : Tree ι) (s : ι → ℝ) (p : ℕ) (x y : ι → ℝ) :
    expQuad F t s x y = expQuad F t s y x ∧ matern F p t s x y = matern F p t s y x ∧ expQuad F t s x x = 1 ∧ matern F p t s x x = 1 := by
  refine ⟨?_, ?_, ?_, ?_⟩
  · rw [expQuad, expQuad, sqDist_symm]
  · rw [matern, matern, dist, dist, sqDist_symm]
  · rw [expQuad, sqDist_self, neg_zero, F.ex_zero]
  · have e : dist F t s x x = 0 := by rw [dist, sqDist_self, Real.sqrt_zero, rd_zero]
    have h0 : F.rd (maternCoeff p 0 : ℝ) = 1 := by rw [maternCoeff_zero, Rat.cast_one, F.one]
    rw [matern, e, neg_zero, F.ex_zero]
    rcases Nat.eq_zero_or_pos p with rfl | hp
    · dsimp only
      rw [hornerFl, h0, one_mul, F.one]
    · dsimp only
      rw [hornerFl_zero F _ p hp, h0, F.one, one_mul, F.one]

/-! ### Products -/

/-- C84: a tensor product whose factors carry `k` roundings each, `n + 1` factors. -/
theorem product_error (F : Fmt) {k : ℕ} (a a' : ℝ) (h : F.Near k a a') (l l' : List ℝ) (hl : List.Forall₂ (F.Near k) l l') :
    |productFl F a l - a' * l'.prod| ≤ ((1 + F.u) ^ ((l.length + 1) * k + l.length) - 1) * |a' * l'.prod| := by
  have key : ∀ (m : ℕ) (a a' : ℝ), F.Near m a a' → F.Near (m + l.length * (k + 1)) (productFl F a l) (a' * l'.prod) := by
    clear h a a'
    induction hl with
    | nil => intro m a a' h; simpa [productFl] using h
    | @cons b b' l l' hb hl ih =>
      intro m a a' h
      have h1 := ih _ _ _ (h.mul hb).rd
      rw [List.prod_cons, ← mul_assoc]
      refine Fmt.Near.mono h1 ?_
      rw [List.length_cons, add_mul]
      omega
  refine ((key k a a' h).mono ?_).abs
  rw [add_mul, mul_add]
  omega

end LinPDE.Rounding
