import Verif.PosDef.Jet1
import Mathlib.Algebra.Polynomial.Sequence
import Mathlib.Algebra.Polynomial.AlgebraMap
import Mathlib.Algebra.Polynomial.Taylor
import Mathlib.Algebra.Polynomial.EraseLead

/-!
# Derivatives of Gaussian and Matérn processes in one dimension are linearly independent
-/

namespace LinPDE.PosDef
open Filter Topology Polynomial
open LinPDE.Matern (phi psi R)

/-! ## Gaussian kernels -/

/-- Hermite polynomials, `d^i/dt^i exp(-c t²) = H_i(t) exp(-c t²)`. -/
noncomputable def herm (c : ℝ) : ℕ → ℝ[X]
  | 0 => 1
  | i + 1 => derivative (herm c i) - C (2 * c) * X * herm c i

/-- Derivatives of the Gaussian. -/
noncomputable def gaussD (c : ℝ) (i : ℕ) (t : ℝ) : ℝ := (herm c i).eval t * Real.exp (-(c * t ^ 2))

lemma hasDerivAt_gaussD (c : ℝ) (i : ℕ) (t : ℝ) : HasDerivAt (gaussD c i) (gaussD c (i + 1) t) t := by
  have h1 : HasDerivAt (fun t : ℝ => -(c * t ^ 2)) (-(2 * c * t)) t := by
    have := ((hasDerivAt_pow 2 t).const_mul c).neg
    refine this.congr_deriv ?_
    simp
    ring
  have h2 := ((herm c i).hasDerivAt t).mul h1.exp
  refine h2.congr_deriv ?_
  simp only [gaussD, herm, eval_sub, eval_mul, eval_C, eval_X]
  ring

lemma gauss_chain (c : ℝ) : Chain ⊤ (gaussD c) :=
  ⟨fun i _ t => hasDerivAt_gaussD c i t, fun i _ =>
    continuous_iff_continuousAt.mpr fun t => (hasDerivAt_gaussD c i t).continuousAt⟩

lemma herm_degree {c : ℝ} (hc : c ≠ 0) (i : ℕ) : (herm c i).degree = i := by
  induction i with
  | zero => simp [herm]
  | succ i ih =>
    have h0 : herm c i ≠ 0 := fun h => by
      rw [h, degree_zero] at ih
      exact absurd ih (by simp)
    have h1 : (C (2 * c) * X * herm c i).degree = (i : WithBot ℕ) + 1 := by
      rw [degree_mul, degree_mul, degree_C (by simpa using hc), degree_X, ih]
      rw [zero_add, add_comm]
    have h2 : (derivative (herm c i)).degree < (C (2 * c) * X * herm c i).degree := by
      rw [h1]
      refine (degree_derivative_lt h0).trans ?_
      rw [ih]
      exact_mod_cast Nat.lt_succ_self i
    rw [herm, degree_sub_eq_right_of_degree_lt h2, h1]
    push_cast
    rfl

lemma sum_by_point {N : ℕ∞} (s : Finset (Jet1 N)) (F : Jet1 N → ℝ) :
    ∑ q ∈ s, F q = ∑ y ∈ s.image Prod.snd, ∑ q ∈ s with q.2 = y, F q :=
  (Finset.sum_fiberwise_of_maps_to (fun _ hq => Finset.mem_image_of_mem _ hq) F).symm

/-- Independent polynomials indexed by the orders at one point. -/
lemma orders_independent {N : ℕ∞} {P : ℕ → ℝ[X]}
    (hP : ∀ (T : Finset ℕ), (∀ m ∈ T, (m : ℕ∞) ≤ N) → ∀ b : ℕ → ℝ, ∑ m ∈ T, C (b m) * P m = 0 → ∀ m ∈ T, b m = 0)
    (s : Finset (Jet1 N)) (y : ℝ) (hs : ∀ q ∈ s, q.2 = y) (b : Jet1 N → ℝ) (h : ∑ q ∈ s, C (b q) * P q.1 = 0) : ∀ q ∈ s, b q = 0 := by
  classical
  have hinj : Set.InjOn (fun q : Jet1 N => q.1.1) s := by
    intro q hq r hr h
    exact Prod.ext (Subtype.ext h) ((hs q hq).trans (hs r hr).symm)
  have h1 := hP (s.image fun q => q.1.1) (fun m hm => by
    obtain ⟨q, _, rfl⟩ := Finset.mem_image.mp hm
    exact q.1.2) (fun m => if hm : (m : ℕ∞) ≤ N then b (⟨m, hm⟩, y) else 0) (by
    rw [Finset.sum_image hinj, ← h]
    refine Finset.sum_congr rfl fun q hq => ?_
    rw [dif_pos q.1.2, ← hs q hq])
  intro q hq
  have := h1 q.1.1 (Finset.mem_image_of_mem _ hq)
  rw [dif_pos q.1.2, ← hs q hq] at this
  exact this

lemma gauss_psd {c : ℝ} (hc : 0 < c) : PSD fun x y : ℝ => gaussD c 0 (x - y) := by
  refine (PSD.comp (PSD.gauss (d := 1) hc.le) fun (x : ℝ) _ => x).congr fun x y => ?_
  simp [gaussD, herm, dsq]

/-- Derivatives of a Gaussian process at different points, and of different orders, are linearly independent. -/
lemma gauss_jet_spd {c : ℝ} (hc : 0 < c) : SPD fun p q : Jet1 ⊤ => jetK (gaussD c) p.1 p.2 q.1 q.2 := by
  classical
  refine SPD.of_sections (jetK_psd (gauss_chain c) (gauss_psd hc)) fun s a hz => ?_
  -- polynomial factor at each point
  let Q : ℝ → ℝ[X] := fun y => ∑ q ∈ s with q.2 = y, C (a q * (-1) ^ q.1.1) * (herm c q.1).comp (X - C y)
  have h1 : ∀ z, ∑ y ∈ s.image Prod.snd, (C (Real.exp (-(c * y ^ 2))) * (Q y).comp (C (2 * c)⁻¹ * X)).eval z * Real.exp (y * z) = 0 := by
    intro z
    have hc2 : 2 * c ≠ 0 := by positivity
    set x := (2 * c)⁻¹ * z with hx
    have hzx : z = 2 * c * x := by rw [hx, mul_inv_cancel_left₀ hc2]
    have e := hz (⟨0, by simp⟩, x)
    rw [sum_by_point] at e
    have e2 : ∀ y, ∑ q ∈ s with q.2 = y, a q * jetK (gaussD c) 0 x q.1 q.2 =
        ((C (Real.exp (-(c * y ^ 2))) * (Q y).comp (C (2 * c)⁻¹ * X)).eval z * Real.exp (y * z)) * Real.exp (-(c * x ^ 2)) := by
      intro y
      have e3 : (Q y).eval x = ∑ q ∈ s with q.2 = y, a q * (-1) ^ q.1.1 * (herm c q.1).eval (x - y) := by
        simp [Q, eval_finsetSum, eval_comp]
      rw [eval_mul, eval_C, eval_comp, eval_mul, eval_C, eval_X, ← hx, e3, Finset.mul_sum, Finset.sum_mul, Finset.sum_mul]
      refine Finset.sum_congr rfl fun q hq => ?_
      rw [(Finset.mem_filter.mp hq).2]
      simp only [jetK, gaussD, zero_add]
      have e4 : Real.exp (-(c * (x - y) ^ 2)) = Real.exp (-(c * y ^ 2)) * Real.exp (y * z) * Real.exp (-(c * x ^ 2)) := by
        rw [← Real.exp_add, ← Real.exp_add]
        congr 1
        rw [hzx]
        ring
      rw [e4]
      ring
    rw [Finset.sum_congr rfl fun y _ => e2 y, ← Finset.sum_mul] at e
    exact (mul_eq_zero.mp e).resolve_right (Real.exp_pos _).ne'
  have h2 := poly_exp_independent _ _ h1
  intro q hq
  have h3 := h2 q.2 (Finset.mem_image_of_mem _ hq)
  have h4 : Q q.2 = 0 := by
    rcases mul_eq_zero.mp h3 with h | h
    · rw [C_eq_zero] at h
      exact absurd h (Real.exp_pos _).ne'
    · have := congrArg (fun P : ℝ[X] => P.comp (C (2 * c) * X)) h
      simp only [zero_comp, comp_assoc, mul_comp, C_comp, X_comp] at this
      rw [← mul_assoc, ← C_mul, inv_mul_cancel₀ (by positivity), C_1, one_mul, comp_X] at this
      exact this
  have h5 : ∑ r ∈ s with r.2 = q.2, C (a r * (-1) ^ r.1.1) * herm c r.1 = 0 := by
    have := congrArg (fun P : ℝ[X] => P.comp (X + C q.2)) h4
    simp only [Q, zero_comp, Polynomial.sum_comp, mul_comp, C_comp, comp_assoc, sub_comp, X_comp, add_sub_cancel_right, comp_X] at this
    exact this
  have h6 := orders_independent (N := ⊤) (P := herm c) (fun T _ b hb => by
    have := (⟨herm c, herm_degree hc.ne'⟩ : Sequence ℝ).linearIndependent
    rw [linearIndependent_iff'] at this
    refine this T b ?_
    rw [← hb]
    refine Finset.sum_congr rfl fun m _ => ?_
    rw [smul_eq_C_mul]) (s.filter fun r => r.2 = q.2) q.2 (fun r hr => (Finset.mem_filter.mp hr).2) (fun r => a r * (-1) ^ r.1.1) h5 q (by simp [hq])
  exact (mul_eq_zero.mp h6).resolve_right (pow_ne_zero _ (by norm_num))

/-! ## Matérn kernels -/

lemma matern_chain (p : ℕ) : Chain p (phi p) := by
  refine ⟨fun i hi t => Matern.hasDerivAt_phi p i t (Or.inl ?_), fun i hi => Matern.continuous_phi p i ?_⟩
  · have : ((i + 1 : ℕ) : ℕ∞) ≤ ((2 * p : ℕ) : ℕ∞) := by
      refine hi.trans (le_of_eq ?_)
      push_cast
      ring
    exact_mod_cast this
  · have : (i : ℕ∞) ≤ ((2 * p : ℕ) : ℕ∞) := by
      refine hi.trans (le_of_eq ?_)
      push_cast
      ring
    exact_mod_cast this

lemma R_coeff (p : ℕ) : (R p 0).coeff p ≠ 0 ∧ ∀ j, p < j → (R p 0).coeff j = 0 := by
  have e : ∀ j, (R p 0).coeff j = ((if j ≤ p then Matern.maternCoeff p j else 0 : ℚ) : ℝ) := by
    intro j
    show ((Matern.maternPoly p).toPoly.map (algebraMap ℚ ℝ)).coeff j = _
    rw [coeff_map, Matern.coeff_maternPoly]
    rfl
  refine ⟨?_, fun j hj => ?_⟩
  · rw [e, if_pos le_rfl]
    have : 0 < Matern.maternCoeff p p := by
      unfold Matern.maternCoeff
      positivity
    exact_mod_cast this.ne'
  · rw [e, if_neg (by omega)]
    simp

/-- The derivative polynomials up to order `p` are linearly independent. -/
lemma R_independent (p : ℕ) (T : Finset ℕ) (hT : ∀ m ∈ T, m ≤ p) (b : ℕ → ℝ) (h : ∑ m ∈ T, C (b m) * R p m = 0) :
    ∀ m ∈ T, b m = 0 := by
  let D : Module.End ℝ ℝ[X] := derivative
  have hR : ∀ m, R p m = ((D - 1) ^ m) (R p 0) := by
    intro m
    induction m with
    | zero => simp
    | succ m ih => rw [Matern.R_succ, ih, pow_succ']; rfl
  let q : ℝ[X] := ∑ m ∈ T, C (b m) * X ^ m
  have hq : aeval (D - 1) q (R p 0) = 0 := by
    simp only [q, map_sum, map_mul, aeval_C, map_pow, aeval_X, LinearMap.sum_apply, Module.End.mul_apply,
      Module.algebraMap_end_apply, ← hR, smul_eq_C_mul]
    exact h
  set q' := q.comp (X - 1) with hq'
  have h1 : aeval D q' (R p 0) = 0 := by
    rw [hq', aeval_comp]
    simpa using hq
  have hdeg : q'.natDegree ≤ p := by
    rw [hq', natDegree_comp, show (X - 1 : ℝ[X]) = X - C 1 by simp, natDegree_X_sub_C, mul_one]
    refine natDegree_sum_le_of_forall_le _ _ fun m hm => ?_
    exact (natDegree_C_mul_X_pow_le _ _).trans (hT m hm)
  have h2 : q' = 0 := by
    by_contra hne
    have hk : q'.natTrailingDegree ≤ p := (natTrailingDegree_le_natDegree q').trans hdeg
    set k := q'.natTrailingDegree
    have hck : q'.coeff k ≠ 0 := by
      have := mt trailingCoeff_eq_zero.mp hne
      exact this
    have h3 := congrArg (fun P : ℝ[X] => P.coeff (p - k)) h1
    rw [aeval_eq_sum_range] at h3
    simp only [LinearMap.sum_apply, LinearMap.smul_apply, finsetSum_coeff, coeff_smul, smul_eq_mul, coeff_zero] at h3
    have hD : ∀ j, (D ^ j) (R p 0) = derivative^[j] (R p 0) := fun j => by
      rw [Module.End.pow_apply]
    simp only [hD, coeff_iterate_derivative] at h3
    rw [Finset.sum_eq_single k] at h3
    · rw [show p - k + k = p by omega] at h3
      rcases mul_eq_zero.mp h3 with h | h
      · exact hck h
      · rw [nsmul_eq_mul] at h
        rcases mul_eq_zero.mp h with h | h
        · have : p.descFactorial k = 0 := by exact_mod_cast h
          rw [Nat.descFactorial_eq_zero_iff_lt] at this
          omega
        · exact (R_coeff p).1 h
    · intro j _ hj
      rcases lt_or_gt_of_ne hj with h | h
      · rw [coeff_eq_zero_of_lt_natTrailingDegree h, zero_mul]
      · rw [(R_coeff p).2 _ (by omega)]
        simp
    · intro hk
      rw [Finset.mem_range, not_lt] at hk
      have := coeff_eq_zero_of_natDegree_lt (p := q') (n := k) (by omega)
      exact absurd this hck
  have h3 : q = 0 := by
    have := congrArg (fun P : ℝ[X] => P.comp (X + 1)) h2
    rw [hq'] at this
    simpa [comp_assoc] using this
  intro m hm
  have := congrArg (fun P : ℝ[X] => P.coeff m) h3
  simpa [q, finsetSum_coeff, coeff_X_pow, hm] using this

lemma phi0_psd (p : ℕ) : PSD fun x y : ℝ => phi p 0 (x - y) :=
  ((phi_psd p 0 (Nat.zero_le _)).comp fun (x : ℝ) (_ : Fin 1) => x).congr fun x y => by simp

/-- Derivatives up to order `p` of a Matérn process are linearly independent. -/
lemma matern_jet_spd (p : ℕ) : SPD fun a b : Jet1 p => jetK (phi p) a.1 a.2 b.1 b.2 := by
  classical
  refine SPD.of_sections (jetK_psd (matern_chain p) (phi0_psd p)) fun s a hz => ?_
  by_contra hne
  push Not at hne
  obtain ⟨q0, hq0, ha0⟩ := hne
  let S := s.filter fun q => a q ≠ 0
  obtain ⟨q1, hq1, hmin⟩ := S.exists_min_image Prod.snd ⟨q0, by simp [S, hq0, ha0]⟩
  set y := q1.2 with hy
  let S1 := S.filter fun q => q.2 = y
  let S2 := S.filter fun q => q.2 ≠ y
  have hS2 : ∀ q ∈ S2, y < q.2 := by
    intro q hq
    obtain ⟨h1, h2⟩ := Finset.mem_filter.mp hq
    exact lt_of_le_of_ne (hmin q h1) (Ne.symm h2)
  obtain ⟨y2, hy2, hlt⟩ : ∃ y2, y < y2 ∧ ∀ q ∈ S2, y2 ≤ q.2 := by
    rcases S2.eq_empty_or_nonempty with h | h
    · exact ⟨y + 1, by linarith, by simp [h]⟩
    · obtain ⟨q, hq, hm⟩ := S2.exists_min_image Prod.snd h
      exact ⟨q.2, hS2 q hq, hm⟩
  let A : ℝ[X] := ∑ q ∈ S1, C (a q * (-1) ^ q.1.1 * Real.exp y) * (R p q.1).comp (X - C y)
  let B : ℝ[X] := ∑ q ∈ S2, C (a q * Real.exp (-q.2)) * (R p q.1).comp (C q.2 - X)
  have h1 : ∀ z ∈ Set.Ioo y y2, A.eval z * Real.exp (-1 * z) + B.eval z * Real.exp (1 * z) = 0 := by
    intro z hzz
    have e := hz (⟨0, by simp⟩, z)
    have e1 : ∑ q ∈ s, a q * jetK (phi p) 0 z q.1 q.2 = ∑ q ∈ S1, a q * jetK (phi p) 0 z q.1 q.2 +
        ∑ q ∈ S2, a q * jetK (phi p) 0 z q.1 q.2 := by
      rw [Finset.sum_filter_add_sum_filter_not, Finset.sum_filter]
      refine Finset.sum_congr rfl fun q _ => ?_
      split_ifs with h
      · rfl
      · rw [not_not.mp h, zero_mul]
    rw [e1] at e
    rw [← e]
    congr 1
    · simp only [A, eval_finsetSum, Finset.sum_mul]
      refine Finset.sum_congr rfl fun q hq => ?_
      have hqy : q.2 = y := (Finset.mem_filter.mp hq).2
      rw [jetK, zero_add, hqy, Matern.phi_of_nonneg (by linarith [hzz.1]), psi]
      simp only [eval_mul, eval_C, eval_comp, eval_sub, eval_X]
      have : Real.exp (-(z - y)) = Real.exp y * Real.exp (-1 * z) := by
        rw [← Real.exp_add]
        congr 1
        ring
      rw [this]
      ring
    · simp only [B, eval_finsetSum, Finset.sum_mul]
      refine Finset.sum_congr rfl fun q hq => ?_
      have hlt' : z - q.2 < 0 := by
        have := hlt q hq
        have := hzz.2
        linarith
      rw [jetK, zero_add, phi, if_neg (by linarith), psi]
      simp only [eval_mul, eval_C, eval_comp, eval_sub, eval_X]
      have : Real.exp (-(-(z - q.2))) = Real.exp (-q.2) * Real.exp (1 * z) := by
        rw [← Real.exp_add]
        congr 1
        ring
      rw [this, neg_sub]
      have h2 : ((-1 : ℝ) ^ q.1.1) * (-1) ^ q.1.1 = 1 := by rw [← mul_pow]; simp
      linear_combination (-(a q * (R p q.1).eval (q.2 - z) * Real.exp (-q.2) * Real.exp (1 * z))) * h2
  have h2 : ∀ z, A.eval z * Real.exp (-1 * z) + B.eval z * Real.exp (1 * z) = 0 := by
    have han : AnalyticOnNhd ℝ (fun z => A.eval z * Real.exp (-1 * z) + B.eval z * Real.exp (1 * z)) Set.univ := by
      intro z _
      have hexp : ∀ c : ℝ, AnalyticAt ℝ (fun z : ℝ => Real.exp (c * z)) z := fun c =>
        (analyticAt_const.mul analyticAt_id).rexp'
      have hpoly : ∀ P : ℝ[X], AnalyticAt ℝ (fun z : ℝ => P.eval z) z := fun P => by
        have := AnalyticAt.aeval_polynomial (𝕜 := ℝ) (analyticAt_id (z := z)) P
        simpa [Polynomial.coe_aeval_eq_eval] using this
      exact ((hpoly A).mul (hexp _)).add ((hpoly B).mul (hexp _))
    have hmid : (y + y2) / 2 ∈ Set.Ioo y y2 := ⟨by linarith, by linarith⟩
    have := han.eqOn_zero_of_preconnected_of_eventuallyEq_zero isPreconnected_univ (Set.mem_univ ((y + y2) / 2)) (by
      filter_upwards [isOpen_Ioo.mem_nhds hmid] with z hz using h1 z hz)
    exact fun z => this (Set.mem_univ z)
  have h3 := poly_exp_independent {-1, 1} (fun v => if v = -1 then A else B) (fun z => by
    rw [Finset.sum_pair (by norm_num), if_pos rfl, if_neg (by norm_num)]
    exact h2 z) (-1) (by simp)
  rw [if_pos rfl] at h3
  have h4 : ∑ q ∈ S1, C (a q * (-1) ^ q.1.1 * Real.exp y) * R p q.1 = 0 := by
    have := congrArg (fun P : ℝ[X] => P.comp (X + C y)) h3
    simp only [A, zero_comp, Polynomial.sum_comp, mul_comp, C_comp, comp_assoc, sub_comp, X_comp, add_sub_cancel_right, comp_X] at this
    exact this
  have h5 := orders_independent (N := p) (P := R p) (fun T hT b hb => R_independent p T (fun m hm => by exact_mod_cast hT m hm) b hb)
    S1 y (fun r hr => (Finset.mem_filter.mp hr).2) (fun r => a r * (-1) ^ r.1.1 * Real.exp y) h4 q1 (by simp [S1, hq1, hy])
  have h6 := (mul_eq_zero.mp ((mul_eq_zero.mp h5).resolve_right (Real.exp_pos _).ne')).resolve_right (pow_ne_zero _ (by norm_num))
  exact (Finset.mem_filter.mp hq1).2 h6

end LinPDE.PosDef
