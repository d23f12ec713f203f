import Verif.PosDef.Askey
import Verif.Wendland.Props

/-!
# C57: Wendland's covariance functions are positive semidefinite
-/

namespace LinPDE.PosDef
open MeasureTheory Filter Topology Polynomial LinPDE.Wendland

lemma cut_P_tame (l k : ℕ) (hl : 0 < l) : Tame fun u => cut (P l k) 1 √u := by
  refine ⟨?_, ⟨(P l k).eval 0, fun u => ?_⟩, ⟨1, zero_le_one, fun u hu => ?_⟩⟩
  · unfold cut
    exact Measurable.ite (measurableSet_le (by fun_prop) measurable_const) ((P l k).continuous.measurable.comp (by fun_prop))
      measurable_const
  · unfold cut
    split_ifs with h
    · rw [abs_of_nonneg (P_nonneg l k hl _ (Real.sqrt_nonneg _) h)]
      exact P_anti l k hl ⟨le_rfl, zero_le_one⟩ ⟨Real.sqrt_nonneg _, h⟩ (Real.sqrt_nonneg _)
    · rw [abs_zero]
      exact (P_pos l k hl 0 le_rfl one_pos).le
  · unfold cut
    split_ifs with h
    · rw [le_antisymm h (Real.one_le_sqrt.mpr hu), P_one l k hl]
    · rfl

lemma cut_P_step (l k : ℕ) (hl : 0 < l) {u : ℝ} (hu : 0 ≤ u) :
    cut (P l (k + 1)) 1 √u = 2⁻¹ * ∫ v in Set.Ioi u, cut (P l k) 1 √v := by
  rcases le_or_gt u 1 with h1 | h1
  · have e1 : ∫ v in Set.Ioi u, cut (P l k) 1 √v = ∫ v in Set.Ioc u 1, (P l k).eval √v := by
      rw [setIntegral_eq_of_subset_of_forall_sdiff_eq_zero measurableSet_Ioi (s := Set.Ioc u 1) Set.Ioc_subset_Ioi_self fun v hv => ?_]
      · refine setIntegral_congr_fun measurableSet_Ioc fun v hv => ?_
        unfold cut
        rw [if_pos (Real.sqrt_le_one.mpr hv.2)]
      · have : 1 < v := by
          by_contra h
          exact hv.2 ⟨hv.1, not_lt.mp h⟩
        unfold cut
        rw [if_neg]
        rw [not_le, Real.lt_sqrt zero_le_one]
        linarith
    rw [e1, ← intervalIntegral.integral_of_le h1]
    have h2 := intervalIntegral.integral_eq_sub_of_hasDerivAt_of_le (f := fun v => -2 * (P l (k + 1)).eval √v)
      (f' := fun v => (P l k).eval √v) h1 ?_ ?_ ?_
    · rw [h2]
      unfold cut
      rw [if_pos (Real.sqrt_le_one.mpr h1), Real.sqrt_one, P_one l (k + 1) hl]
      ring
    · exact (continuous_const.mul ((P l (k + 1)).continuous.comp Real.continuous_sqrt)).continuousOn
    · intro v hv
      have hv0 : 0 < v := lt_of_le_of_lt hu hv.1
      have h3 := ((hasDerivAt_P l k √v).comp v (Real.hasDerivAt_sqrt hv0.ne')).const_mul (-2)
      have h4 : √v ≠ 0 := (Real.sqrt_pos.mpr hv0).ne'
      convert! h3 using 1
      field_simp
    · exact ((P l k).continuous.comp Real.continuous_sqrt).intervalIntegrable _ _
  · have e1 : ∀ v, u ≤ v → ∀ j, cut (P l j) 1 √v = 0 := by
      intro v hv j
      unfold cut
      rw [if_neg]
      rw [not_le, Real.lt_sqrt zero_le_one]
      linarith
    have h2 : ∫ v in Set.Ioi u, cut (P l k) 1 √v = 0 := setIntegral_eq_zero_of_forall_eq_zero fun v hv => e1 v (le_of_lt hv) k
    rw [e1 u le_rfl, h2, mul_zero]

lemma cut_P_rad (m : ℕ) : ∀ k n, n + 2 * k ≤ 2 * m + 1 → Rad n fun u => cut (P (m + 1) k) 1 √u := by
  intro k
  induction k with
  | zero =>
    intro n hn
    refine (Rad.mono (by omega) (askey_rad m)).congr fun u hu => ?_
    unfold cut
    split_ifs with h
    · rw [P_zero, max_eq_left (by linarith)]
      simp
    · rw [max_eq_right (by linarith), zero_pow (by omega)]
  | succ k ih =>
    intro n hn
    have h1 := Rad.integrate (ih (n + 2) (by omega)) (cut_P_tame (m + 1) k (by omega))
    have h2 : Rad n fun u => 2⁻¹ * ∫ v in Set.Ioi u, cut (P (m + 1) k) 1 √v := PSD.smul h1 (by positivity)
    exact h2.congr fun u hu => cut_P_step (m + 1) k (by omega) hu

/-- C57: the Wendland covariance functions are positive semidefinite in the dimension they are constructed for, for every
smoothness and all lengthscales. -/
theorem wendland_psd {d k : ℕ} {l : Fin d → ℝ} {K : WendlandCov d} (h : mkWendland d k l = .ok K) : PSD K.eval := by
  unfold mkWendland at h
  obtain ⟨p, hp⟩ : ∃ p, wendlandPoly d k = .ok p := ⟨_, (wendland_constructs d k).choose_spec.1⟩
  rw [hp] at h
  obtain rfl : (⟨p, l⟩ : WendlandCov d) = K := Except.ok.inj h
  have h0 := P_pos (ell d k) k (by unfold ell; omega) 0 le_rfl one_pos
  have h1 := cut_P_rad (d / 2 + k) k d (by omega)
  refine ((PSD.comp h1 fun (x : Fin d → ℝ) i => x i * (1 / l i)).smul (c := ((P (ell d k) k).eval 0)⁻¹) (by positivity)).congr
    fun x y => ?_
  unfold WendlandCov.eval
  dsimp only
  rw [wendlandFun_eq hp, div_eq_inv_mul]
  congr 3
  exact Finset.sum_congr rfl fun i _ => by ring

/-- C57: the function constructed for dimension `d` gives a covariance function in all dimensions up to `2 ⌊d/2⌋ + 1`. -/
theorem wendland_radial_psd {d k n : ℕ} {p : Polys.Poly ℚ} (h : wendlandPoly d k = .ok p) (hn : n ≤ 2 * (d / 2) + 1) :
    PSD fun x y : Fin n → ℝ => wendlandFun p √(∑ i, (x i - y i) ^ 2) := by
  have h0 := P_pos (ell d k) k (by unfold ell; omega) 0 le_rfl one_pos
  have h1 := cut_P_rad (d / 2 + k) k n (by omega)
  refine (PSD.smul h1 (c := ((P (ell d k) k).eval 0)⁻¹) (by positivity)).congr fun x y => ?_
  rw [wendlandFun_eq h, div_eq_inv_mul]
  rfl

/-- In four dimensions, with smoothness two. -/
example : ∃ K : WendlandCov 4, mkWendland 4 2 (fun i => (i : ℝ) + 1) = .ok K ∧ PSD K.eval := by
  obtain ⟨p, hp, _⟩ := wendland_constructs 4 2
  have h : mkWendland 4 2 (fun i => (i : ℝ) + 1) = .ok ⟨p, fun i => (i : ℝ) + 1⟩ := by
    unfold mkWendland
    rw [hp]
    rfl
  exact ⟨_, h, wendland_psd h⟩

end LinPDE.PosDef
