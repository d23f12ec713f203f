import Verif.Wendland.Lemmas
import Mathlib.Analysis.Calculus.IteratedDeriv.Lemmas
import Mathlib.Analysis.Calculus.ContDiff.Polynomial

/-! # Wendland covariance functions (C22) -/

namespace LinPDE.Wendland
open LinPDE.Polys
open Polynomial MeasureTheory

/-! ## Specification -/

/-- Wendland's definition (Definition 9.11 of the reference): the truncated power `(1 - r)₊ ^ l`, integrated `k` times by
`φ ↦ (r ↦ ∫_r^∞ t φ(t) dt)`. -/
noncomputable def phiInt (l : ℕ) : ℕ → ℝ → ℝ
  | 0, r => max (1 - r) 0 ^ l
  | k + 1, r => ∫ t in Set.Ioi r, t * phiInt l k t

lemma phiInt_eq (l k : ℕ) (hl : 0 < l) (r : ℝ) : phiInt l k r = cut (P l k) 1 r := by
  induction k generalizing r with
  | zero =>
    rw [phiInt, cut, P_zero]
    split_ifs with h
    · rw [max_eq_left (by linarith)]; simp
    · rw [max_eq_right (by linarith), zero_pow (by omega)]
  | succ k ih =>
    rw [phiInt]
    by_cases h : r ≤ 1
    · rw [setIntegral_eq_of_subset_of_forall_sdiff_eq_zero (s := Set.Ioc r 1) measurableSet_Ioi Set.Ioc_subset_Ioi_self]
      · rw [← intervalIntegral.integral_of_le h,
          intervalIntegral.integral_congr (g := fun t => t * (P l k).eval t)]
        · have hd : ∀ t ∈ Set.uIcc r 1, HasDerivAt (fun t => -(P l (k + 1)).eval t) (t * (P l k).eval t) t := by
            intro t _
            exact (hasDerivAt_P l k t).neg.congr_deriv (by ring)
          rw [intervalIntegral.integral_eq_sub_of_hasDerivAt hd
            ((continuous_id.mul (Polynomial.differentiable _).continuous).intervalIntegrable _ _), P_one l (k + 1) hl,
            cut, if_pos h]
          ring
        · intro t ht
          rw [Set.uIcc_of_le h] at ht
          simp only
          rw [ih, cut, if_pos ht.2]
      · intro t ht
        have h1 : ¬t ≤ 1 := fun hc => ht.2 ⟨ht.1, hc⟩
        rw [ih, cut, if_neg h1, mul_zero]
    · rw [cut, if_neg h]
      refine setIntegral_eq_zero_of_forall_eq_zero fun t ht => ?_
      have ht : r < t := ht
      rw [ih, cut, if_neg (by linarith), mul_zero]

/-! ## Construction -/

lemma length_step (cs : List ℚ) : (integrateStep cs).length = cs.length + 2 := by simp [integrateStep]

lemma length_iterate (cs : List ℚ) (k : ℕ) : (integrateStep^[k] cs).length = cs.length + 2 * k := by
  induction k with
  | zero => rfl
  | succ k ih => rw [Function.iterate_succ_apply', length_step, ih]; ring

lemma head_eq (l k : ℕ) : (((integrateStep^[k] (phiList l)).headD 0 : ℚ) : ℝ) = (P l k).eval 0 := by
  rw [← coeff_zero_eq_eval_zero]
  unfold P
  rw [coeff_map, coeff_listPoly]
  cases integrateStep^[k] (phiList l) <;> simp

lemma wendlandPoly_spec (d k : ℕ) : ∃ p, wendlandPoly d k = .ok p ∧ p.degree = ell d k + 2 * k ∧
    ∀ r, (realPoly p).eval r = (P (ell d k) k).eval r / (P (ell d k) k).eval 0 := by
  set l := ell d k with hl
  have hl0 : 0 < l := by rw [hl]; unfold ell; omega
  have h0 := P_pos l k hl0 0 le_rfl (by norm_num)
  have hh : (integrateStep^[k] (phiList l)).headD 0 ≠ 0 := by
    intro hc
    have := head_eq l k
    rw [hc] at this
    simp at this
    linarith
  set cs := integrateStep^[k] (phiList l) with hcs
  have hlen : (cs.map fun c => c / cs.headD 0).length = l + 2 * k + 1 := by
    rw [List.length_map, hcs, length_iterate]
    simp [phiList]
    ring
  have hdeg : (Poly.ofCoeffs (cs.map fun c => c / cs.headD 0)).degree = l + 2 * k := by
    unfold Poly.degree
    cases hc : cs.map (fun c => c / cs.headD 0) with
    | nil => rw [hc] at hlen; simp at hlen
    | cons a as =>
      rw [hc] at hlen
      show (a :: as).length - 1 = _
      omega
  refine ⟨Poly.ofCoeffs (cs.map fun c => c / cs.headD 0), ?_, hdeg, fun r => ?_⟩
  · unfold wendlandPoly
    rw [← hl, phiCoeffs_eq]
    show (normalize cs >>= _ : Except Err _) = _
    unfold normalize
    rw [if_neg hh]
    show (if _ then _ else _) = _
    rw [if_pos hdeg]
  · have e : (realPoly (Poly.ofCoeffs (cs.map fun c => c / cs.headD 0))).toPoly =
        C (((cs.headD 0 : ℚ) : ℝ)⁻¹) * P l k := by
      unfold realPoly
      rw [toPoly_ofCoeffs]
      have hne : cs.map (fun c => c / cs.headD 0) ≠ [] := by
        intro hc; rw [hc] at hlen; simp at hlen
      have hco : (Poly.ofCoeffs (cs.map fun c => c / cs.headD 0)).coeffs = cs.map fun c => c / cs.headD 0 := by
        cases hc : cs.map (fun c => c / cs.headD 0) with
        | nil => exact absurd hc hne
        | cons a as => rfl
      rw [hco]
      ext n
      rw [coeff_listPoly, coeff_C_mul]
      unfold P
      rw [coeff_map, coeff_listPoly, ← hcs, List.map_map]
      simp only [List.getD_eq_getElem?_getD, List.getElem?_map]
      cases cs[n]? with
      | none => simp
      | some c => simp [div_eq_inv_mul]
    rw [eval_eq_toPoly_eval, e, eval_mul, eval_C, head_eq]
    ring

/-- C22: construction succeeds for every dimension and smoothness, with a polynomial of degree `l + 2 k`. -/
theorem wendland_constructs (d k : ℕ) : ∃ p, wendlandPoly d k = .ok p ∧ p.degree = (d / 2 + k + 1) + 2 * k := by
  obtain ⟨p, hp, hd, _⟩ := wendlandPoly_spec d k
  exact ⟨p, hp, hd⟩

lemma wendlandFun_eq {d k : ℕ} {p : Poly ℚ} (h : wendlandPoly d k = .ok p) (r : ℝ) :
    wendlandFun p r = cut (P (ell d k) k) 1 r / (P (ell d k) k).eval 0 := by
  obtain ⟨p', hp', _, he⟩ := wendlandPoly_spec d k
  rw [h] at hp'
  cases hp'
  unfold wendlandFun cut
  split_ifs
  · exact he r
  · rw [zero_div]

/-- C22: the function is the normalised `k`-fold integral transform of the truncated power with exponent
`⌊d/2⌋ + k + 1`. -/
theorem wendland_transform {d k : ℕ} {p : Poly ℚ} (h : wendlandPoly d k = .ok p) (r : ℝ) :
    wendlandFun p r = phiInt (d / 2 + k + 1) k r / phiInt (d / 2 + k + 1) k 0 := by
  have hl : 0 < d / 2 + k + 1 := by omega
  rw [wendlandFun_eq h, phiInt_eq _ _ hl, phiInt_eq _ _ hl]
  congr 1
  rw [cut, if_pos zero_le_one]
  rfl

/-- C22: normalisation, positivity, monotonicity, compact support, bound. -/
theorem wendland_shape {d k : ℕ} {p : Poly ℚ} (h : wendlandPoly d k = .ok p) :
    wendlandFun p 0 = 1 ∧ (∀ r, 0 ≤ r → r < 1 → 0 < wendlandFun p r) ∧ (∀ r, 1 ≤ r → wendlandFun p r = 0) ∧
      AntitoneOn (wendlandFun p) (Set.Ici 0) ∧ ∀ r, 0 ≤ r → 0 ≤ wendlandFun p r ∧ wendlandFun p r ≤ 1 := by
  have hl : 0 < ell d k := by unfold ell; omega
  have h0 := P_pos (ell d k) k hl 0 le_rfl (by norm_num)
  have z : ∀ r, 1 ≤ r → wendlandFun p r = 0 := by
    intro r hr
    rw [wendlandFun_eq h, cut]
    split_ifs with hr'
    · rw [le_antisymm hr' hr, P_one _ _ hl, zero_div]
    · rw [zero_div]
  have i : ∀ r, r ≤ 1 → wendlandFun p r = (P (ell d k) k).eval r / (P (ell d k) k).eval 0 := by
    intro r hr
    rw [wendlandFun_eq h, cut, if_pos hr]
  have n : ∀ r, 0 ≤ r → 0 ≤ wendlandFun p r := by
    intro r hr
    by_cases h1 : r ≤ 1
    · rw [i r h1]; exact div_nonneg (P_nonneg _ _ hl r hr h1) h0.le
    · rw [z r (by linarith)]
  have a : AntitoneOn (wendlandFun p) (Set.Ici 0) := by
    intro x hx y hy hxy
    by_cases h1 : y ≤ 1
    · rw [i y h1, i x (hxy.trans h1)]
      exact div_le_div_of_nonneg_right (P_anti _ _ hl ⟨hx, hxy.trans h1⟩ ⟨hy, h1⟩ hxy) h0.le
    · rw [z y (by linarith)]; exact n x hx
  have o : wendlandFun p 0 = 1 := by rw [i 0 zero_le_one, div_self h0.ne']
  refine ⟨o, fun r hr h1 => ?_, z, a, fun r hr => ⟨n r hr, ?_⟩⟩
  · rw [i r h1.le]; exact div_pos (P_pos _ _ hl r hr h1) h0
  · rw [← o]; exact a (Set.mem_Ici.mpr le_rfl) hr hr

/-! ## Smoothness -/

lemma iteratedDeriv_cut (m : ℕ) : ∀ {Q : ℝ[X]} {c : ℝ}, (X - C c) ^ (m + 1) ∣ Q →
    iteratedDeriv m (cut Q c) = cut (derivative^[m] Q) c := by
  induction m with
  | zero => intro Q c _; simp
  | succ m ih =>
    intro Q c h
    have hd : (X - C c) ^ (m + 1) ∣ derivative Q := by
      have := Polynomial.pow_sub_one_dvd_derivative_of_pow_dvd h
      simpa using this
    have h0 : Q.eval c = 0 := by obtain ⟨R, rfl⟩ := h; simp
    have h1 : (derivative Q).eval c = 0 := by obtain ⟨R, hR⟩ := hd; rw [hR]; simp
    rw [iteratedDeriv_succ', show deriv (cut Q c) = cut (derivative Q) c from
      funext fun t => (hasDerivAt_cut h0 h1 t).deriv, ih hd]
    rfl

/-- C22: the radial function has `2 k` continuous derivatives, all of which vanish at `r = 1`. -/
theorem wendland_smooth {d k : ℕ} {p : Poly ℚ} (h : wendlandPoly d k = .ok p) :
    ContDiff ℝ (2 * k : ℕ) (wendlandFun p) ∧ ∀ m ≤ 2 * k, iteratedDeriv m (wendlandFun p) 1 = 0 := by
  have hl : 0 < ell d k := by unfold ell; omega
  set a := (P (ell d k) k).eval 0
  have hdv : ∀ m ≤ 2 * k, (X - C 1) ^ (m + 1) ∣ C a⁻¹ * P (ell d k) k := fun m hm =>
    ((pow_dvd_pow _ (by unfold ell; omega)).trans (P_dvd _ _ hl)).mul_left _
  have e : wendlandFun p = cut (C a⁻¹ * P (ell d k) k) 1 := by
    funext r
    rw [wendlandFun_eq h, cut, cut]
    split_ifs
    · rw [eval_mul, eval_C, div_eq_inv_mul]
    · rw [zero_div]
  rw [e]
  refine ⟨contDiff_cut _ (hdv _ le_rfl), fun m hm => ?_⟩
  rw [iteratedDeriv_cut m (hdv m hm), cut, if_pos le_rfl]
  have := Polynomial.pow_sub_dvd_iterate_derivative_of_pow_dvd m (hdv m hm)
  rw [show m + 1 - m = 1 by omega, pow_one] at this
  obtain ⟨R, hR⟩ := this
  rw [hR]
  simp

lemma contDiff_abs_poly {Q : ℝ[X]} {n : ℕ} (h : ∀ j, 2 * j + 1 ≤ n → Q.coeff (2 * j + 1) = 0) :
    ContDiff ℝ n (fun t : ℝ => Q.eval |t|) := by
  have hd : (X - C 0) ^ (n + 1) ∣ Q.comp (C (-1) * X) - Q := by
    rw [C_0, sub_zero, X_pow_dvd_iff]
    intro j hj
    rw [coeff_sub, comp_C_mul_X_coeff]
    rcases Nat.even_or_odd j with he | ho
    · rw [he.neg_one_pow]; ring
    · obtain ⟨i, rfl⟩ := ho
      rw [h i (by omega)]; ring
  have e : (fun t : ℝ => Q.eval |t|) = fun t => Q.eval t + cut (Q.comp (C (-1) * X) - Q) 0 t := by
    funext t
    unfold cut
    split_ifs with ht
    · rw [abs_of_nonpos ht, eval_sub, eval_comp]; simp
    · rw [abs_of_pos (not_le.mp ht), add_zero]
  rw [e]
  have hq : ContDiff ℝ n (fun t : ℝ => Q.eval t) := by
    simpa using Polynomial.contDiff_aeval (𝕜 := ℝ) Q n
  exact hq.add (contDiff_cut n hd)

/-- C22: as a function of the difference of two scalar inputs the kernel has `2 k` continuous derivatives everywhere. -/
theorem wendland_abs_smooth {d k : ℕ} {p : Poly ℚ} (h : wendlandPoly d k = .ok p) :
    ContDiff ℝ (2 * k : ℕ) (fun t => wendlandFun p |t|) := by
  have hs := (wendland_smooth h).1
  rw [contDiff_iff_contDiffAt]
  intro t
  rcases lt_trichotomy t 0 with ht | rfl | ht
  · refine (hs.comp contDiff_neg).contDiffAt.congr_of_eventuallyEq ?_
    filter_upwards [Iio_mem_nhds ht] with s hs
    rw [abs_of_neg hs]; rfl
  · have hp : ContDiff ℝ (2 * k : ℕ) (fun t : ℝ => (P (ell d k) k).eval |t| / (P (ell d k) k).eval 0) :=
      (contDiff_abs_poly fun j hj => P_coeff_odd _ _ j (by omega)).div_const _
    refine hp.contDiffAt.congr_of_eventuallyEq ?_
    filter_upwards [Ioo_mem_nhds (show (-1 : ℝ) < 0 by norm_num) (show (0 : ℝ) < 1 by norm_num)] with s hs
    rw [wendlandFun_eq h, cut, if_pos (abs_le.mpr ⟨hs.1.le, hs.2.le⟩)]
  · refine hs.contDiffAt.congr_of_eventuallyEq ?_
    filter_upwards [Ioi_mem_nhds ht] with s hs
    rw [abs_of_pos hs]

/-! ## The covariance function -/

/-- C22: the covariance function is symmetric, takes values in `[0, 1]`, is 1 on the diagonal (also as computed for
`x1 = None`) and vanishes as soon as the scaled distance reaches 1. -/
theorem wendland_cov {d k : ℕ} {l : Fin d → ℝ} {K : WendlandCov d} (h : mkWendland d k l = .ok K) (x0 x1 : Fin d → ℝ) :
    K.eval x0 x1 = K.eval x1 x0 ∧ 0 ≤ K.eval x0 x1 ∧ K.eval x0 x1 ≤ 1 ∧ K.eval x0 x0 = 1 ∧ K.evalNone = K.eval x0 x0 ∧
      (1 ≤ ∑ i, ((x0 i - x1 i) / l i) ^ 2 → K.eval x0 x1 = 0) ∧
      (∑ i, ((x0 i - x1 i) / l i) ^ 2 < 1 → 0 < K.eval x0 x1) := by
  unfold mkWendland at h
  obtain ⟨p, hp⟩ : ∃ p, wendlandPoly d k = .ok p := ⟨_, (wendland_constructs d k).choose_spec.1⟩
  rw [hp] at h
  obtain rfl : (⟨p, l⟩ : WendlandCov d) = K := Except.ok.inj h
  obtain ⟨h0, h1, h2, _, h4⟩ := wendland_shape hp
  have z : WendlandCov.eval ⟨p, l⟩ x0 x0 = 1 := by
    unfold WendlandCov.eval
    simpa using h0
  refine ⟨?_, (h4 _ (Real.sqrt_nonneg _)).1, (h4 _ (Real.sqrt_nonneg _)).2, z, ?_, fun hs => ?_, fun hs => ?_⟩
  · unfold WendlandCov.eval
    congr 2
    exact Finset.sum_congr rfl fun i _ => by ring
  · rw [z]; exact h0
  · refine h2 _ (Real.one_le_sqrt.mpr (hs.trans_eq (Finset.sum_congr rfl fun i _ => by rw [mul_one_div])))
  · refine h1 _ (Real.sqrt_nonneg _) ?_
    rw [Real.sqrt_lt' one_pos, one_pow]
    refine lt_of_eq_of_lt (Finset.sum_congr rfl fun i _ => ?_) hs
    rw [mul_one_div]

/-! ## Non-vacuity -/

/-- In one dimension with `k = 1` the polynomial is `(1 - r)³ (3 r + 1)`. -/
example : wendlandPoly 1 1 = .ok (Poly.ofCoeffs [1, 0, -6, 8, -3]) := by
  decide +kernel

example : wendlandPoly 3 2 = .ok (Poly.ofCoeffs [1, 0, -28 / 3, 0, 70, -448 / 3, 140, -64, 35 / 3]) := by
  decide +kernel

end LinPDE.Wendland
