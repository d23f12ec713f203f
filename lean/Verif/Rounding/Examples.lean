import Verif.Rounding.Binary

/-!
# C84: examples in double precision
-/

namespace LinPDE.Rounding
open Finset Matrix LinPDE.GP LinPDE.Block LinPDE.Polys LinPDE.Matern

/-- `1 + 2 x + 3 x²` at any argument. -/
example (x : ℝ) : |polyFl (bin 52) (.ofCoeffs [1, 2, 3]) x - (Poly.ofCoeffs [1, 2, 3] : Poly ℝ).eval x| ≤
    ((1 + (bin 52).u) ^ 4 - 1) * (1 + 2 * |x| + 3 * |x| ^ 2) := by
  refine (poly_forward (bin 52) (.ofCoeffs [1, 2, 3]) x).trans (le_of_eq ?_)
  simp [Poly.ofCoeffs, Poly.degree, sum_range_succ]

/-- `1/3 + x/7` at any argument. -/
example (x : ℝ) : |polyFl (bin 52) (ratFl (bin 52) (.ofCoeffs [1 / 3, 1 / 7])) x - (1 / 3 + 1 / 7 * x)| ≤ ((1 + (bin 52).u) ^ 3 - 1) * (1 / 3 + 1 / 7 * |x|) := by
  have h := rat_forward (bin 52) (.ofCoeffs [1 / 3, 1 / 7]) x
  simpa [Poly.ofCoeffs, Poly.degree, sum_range_succ] using h

/-- A constant is returned as it is. -/
example (F : Fmt) (x c : ℝ) : polyFl F (.ofCoeffs [c]) x = c := by
  have h := poly_forward F (.ofCoeffs [c]) x
  simp only [Poly.ofCoeffs, Poly.degree, List.length_singleton, Nat.sub_self, mul_zero, pow_zero, sub_self, zero_mul] at h
  have h1 := sub_eq_zero.mp (abs_nonpos_iff.mp h)
  rw [Poly.ofCoeffs, h1]
  rfl

/-- The order in which three numbers are added. -/
def left3 : Tree (Fin 3) := .node (.node (.leaf 0) (.leaf 1)) (.leaf 2)
def right3 : Tree (Fin 3) := .node (.leaf 0) (.node (.leaf 1) (.leaf 2))

lemma left3_full : left3.Full := ⟨by decide, by decide⟩
lemma right3_full : right3.Full := ⟨by decide, by decide⟩

/-- Two orders of summation. -/
example (F : Fmt) (f : Fin 3 → ℝ) : |left3.fl F f - right3.fl F f| ≤ 2 * (((1 + F.u) ^ 2 - 1) * ∑ i, |f i|) := by
  have h1 := sum_forward F left3_full f
  have h2 := sum_forward F right3_full f
  rw [Fintype.card_fin, show 3 - 1 = 2 from rfl] at h1 h2
  rw [abs_le] at *
  constructor <;> linarith [h1.1, h1.2, h2.1, h2.2]

lemma leaf_full : (Tree.leaf (0 : Fin 1)).Full := ⟨by decide, by decide⟩

/-- The rounded scale factors carry one rounding. -/
lemma rd_scale (F : Fmt) {d : ℕ} (s : Fin d → ℝ) (i : Fin d) : F.Near 1 (F.rd (s i)) (s i) := rd_fac F (s i)

lemma bin_u : (bin 52).u = 1 / 2 ^ 53 ∧ (bin 52).v = 1 / 2 ^ 53 := by
  have : (2 : ℝ) ^ (-((52 : ℕ) + 1 : ℤ)) = 1 / 2 ^ 53 := by norm_num
  exact ⟨this, this⟩

lemma bin_eqErr : (bin 52).eqErr 1 1 ≤ 1 / 2 ^ 49 := by
  rw [Fmt.eqErr, bin_u.1, bin_u.2]
  norm_num

/-- Double precision, scalar inputs: the squared exponential is computed with an absolute error of at most `2⁻⁴⁹`. -/
example (l : Fin 1 → ℝ) (x y : Fin 1 → ℝ) :
    |expQuad (bin 52) (.leaf 0) (fun i => (bin 52).rd (ExpQuad.sf l i)) x y - (ExpQuad.EK.expquad l).eval x y| ≤ 1 / 2 ^ 49 :=
  (expQuad_error leaf_full l (rd_scale (bin 52) (ExpQuad.sf l)) x y).1.trans bin_eqErr

/-- Double precision: Gram matrices of 1000 arbitrary points with noise `10⁻¹¹` are positive definite. -/
example (l : Fin 1 → ℝ) (x : Fin 1000 → Fin 1 → ℝ) :
    (Matrix.of fun i j => (bin 52).rd (expQuad (bin 52) (.leaf 0) (fun i => (bin 52).rd (ExpQuad.sf l i)) (x i) (x j) +
      if i = j then 1 / 10 ^ 11 else 0)).PosDef := by
  refine expQuad_gram (bin 52) leaf_full l (rd_scale (bin 52) (ExpQuad.sf l)) x (by norm_num) ?_
  have h := bin_eqErr
  rw [bin_u.1]
  have : (2 : ℝ) ^ 53 = 9007199254740992 := by norm_num
  have h' : (2 : ℝ) ^ 49 = 562949953421312 := by norm_num
  rw [h'] at h
  rw [this]
  norm_num at h ⊢
  nlinarith

/-- The Matérn-3/2 kernel in three dimensions, summed from the left. -/
example (m : Par 3) (hm : m.p = 1) (x y : Fin 3 → ℝ) :
    matern (bin 52) 1 left3 (fun i => (bin 52).rd (m.s i)) x y ≤
      (1 + (bin 52).u) ^ 11 * (1 + (bin 52).v) * Real.exp (((1 + (bin 52).u) ^ 7 - 1) * √(∑ i, (m.s i * (x i - y i)) ^ 2)) * (MK.matern m).eval x y := by
  have h := (matern_error (F := bin 52) left3_full m (rd_scale (bin 52) m.s) x y).2
  simpa only [hm] using h

lemma bin_maternErr : (bin 52).maternErr 1 1 1 ≤ 1 / 2 ^ 45 := by
  have h0 : (maternCoeff 1 0 : ℝ) = 1 := by exact_mod_cast maternCoeff_zero 1
  have h1 : (maternCoeff 1 1 : ℝ) = 1 := by
    have : maternCoeff 1 1 = 1 := by decide +kernel
    exact_mod_cast this
  simp only [Fmt.maternErr, sum_range_succ, sum_range_zero, bin_u.1, bin_u.2, h0, h1]
  norm_num [Nat.factorial]

/-- Double precision: Gram matrices of the Matérn-3/2 covariance at 1000 arbitrary points with noise `10⁻¹⁰` are positive definite. -/
example (m : Par 1) (hm : m.p = 1) (x : Fin 1000 → Fin 1 → ℝ) :
    (Matrix.of fun i j => (bin 52).rd (matern (bin 52) m.p (.leaf 0) (fun i => (bin 52).rd (m.s i)) (x i) (x j) +
      if i = j then 1 / 10 ^ 10 else 0)).PosDef := by
  refine matern_gram (bin 52) leaf_full m (rd_scale (bin 52) m.s) ?_ x (by norm_num) ?_
  · rw [bin_u.1]
    norm_num
  · have h := bin_maternErr
    rw [hm, bin_u.1]
    norm_num at h ⊢
    linarith

/-- A product of three factors with one rounding each. -/
example (F : Fmt) (a b c : ℝ) : |productFl F (F.rd a) [F.rd b, F.rd c] - a * [b, c].prod| ≤ ((1 + F.u) ^ 5 - 1) * |a * [b, c].prod| :=
  product_error F (k := 1) _ a (rd_fac F a) _ _ (.cons (rd_fac F b) (.cons (rd_fac F c) .nil))

/-- The posterior of the white process after two noisy measurements: all orders of summation, all computed weights. -/
example : ∃ (e : Env) (c : Cond (white ℕ)), run e (noisy1 0 3) [noisy1 1 5] = .ok c ∧
    ∀ (t : Tree c.s.Idx), t.Full → ∀ (x : ℕ) (m : ℝ) (k w : c.s.Idx → ℝ), ∃ v, c.covfunc e x x = .ok v ∧
      |postMean (bin 52) t m k w - c.mean x| ≤
        ((1 + (bin 52).u) ^ (Fintype.card c.s.Idx + 1) - 1) * (|m| + ∑ i, |k i| * |w i|) + |m - (white ℕ).m.1 x| + ∑ j, |k j - (c.kLas j).1 x| * |w j| +
          √(((white ℕ).k x x - v) * ((∑ i, ((c.gram.toMat *ᵥ w) i - (c.Ys i - (c.Ls i).1 (white ℕ).m - c.bs i)) ^ 2) / 1)) := by
  obtain ⟨e, he, -⟩ := exists_env false false
  obtain ⟨c, hc, -⟩ := run_posterior e he (white_regular ℕ) _ _ noisy_posDef
  exact ⟨e, c, hc, fun t ht x m k w => posterior_mean_error (bin 52) e he (white_regular ℕ) _ _ noisy_posDef one_pos noisy_atLeast c hc ht x m k w⟩

example : ∃ (e : Env) (c : Cond (white ℕ)), run e (noisy1 0 3) [noisy1 1 5] = .ok c ∧
    ∀ (t : Tree c.s.Idx), t.Full → ∀ (x y : ℕ) (kxy : ℝ) (k z : c.s.Idx → ℝ), ∃ v K, c.covfunc e x x = .ok v ∧ c.covfunc e x y = .ok K ∧
      |postCov (bin 52) t kxy k z - K| ≤
        ((1 + (bin 52).u) ^ (Fintype.card c.s.Idx + 1) - 1) * (|kxy| + ∑ i, |k i| * |z i|) + |kxy - (white ℕ).k x y| + ∑ j, |k j - (c.kLas j).1 x| * |z j| +
          √(((white ℕ).k x x - v) * ((∑ i, ((c.gram.toMat *ᵥ z) i - (c.kLas i).1 y) ^ 2) / 1)) := by
  obtain ⟨e, he, -⟩ := exists_env false false
  obtain ⟨c, hc, -⟩ := run_posterior e he (white_regular ℕ) _ _ noisy_posDef
  exact ⟨e, c, hc, fun t ht x y kxy k z => posterior_cov_error (bin 52) e he (white_regular ℕ) _ _ noisy_posDef one_pos noisy_atLeast c hc ht x y kxy k z⟩

end LinPDE.Rounding
