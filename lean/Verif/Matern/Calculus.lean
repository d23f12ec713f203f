import Verif.Matern.PolyLemmas
import Mathlib.Analysis.Calculus.Deriv.Polynomial
import Mathlib.Analysis.Calculus.FDeriv.Extend
import Mathlib.Analysis.SpecialFunctions.ExpDeriv
import Mathlib.Analysis.SpecialFunctions.Sqrt
import Mathlib.Analysis.Calculus.Deriv.Abs

/-! # Calculus of half-integer Matérn profiles -/

namespace LinPDE.Matern
open LinPDE.Polys Polynomial Filter Topology

/-- The derivative polynomials over the reals. -/
noncomputable def R (p n : ℕ) : ℝ[X] := (P p n).map (algebraMap ℚ ℝ)

lemma R_succ (p n : ℕ) : R p (n + 1) = derivative (R p n) - R p n := by
  unfold R; rw [P_succ, Polynomial.map_sub, derivative_map]

lemma toPoly_toReal (q : Poly ℚ) : (toReal q).toPoly = q.toPoly.map (algebraMap ℚ ℝ) := by
  ext k
  unfold toReal
  rw [coeff_map, coeff_toPoly q, coeff_ofCoeffs, List.getD_eq_getElem?_getD, List.getD_eq_getElem?_getD, List.getElem?_map]
  cases q.coeffs[k]? <;> simp

lemma pev_eq (q : Poly ℚ) (r : ℝ) : pev q r = (q.toPoly.map (algebraMap ℚ ℝ)).eval r := by
  unfold pev
  rw [eval_eq_toPoly_eval, toPoly_toReal]

/-- The `n`-th derivative of the profile, as polynomial times exponential. -/
noncomputable def psi (p n : ℕ) (r : ℝ) : ℝ := (R p n).eval r * Real.exp (-r)

lemma hasDerivAt_psi (p n : ℕ) (r : ℝ) : HasDerivAt (psi p n) (psi p (n + 1) r) r := by
  have h := ((R p n).hasDerivAt r).mul ((Real.hasDerivAt_exp (-r)).comp r (hasDerivAt_neg r))
  refine h.congr_deriv ?_
  unfold psi
  rw [R_succ, eval_sub]
  simp only [Function.comp]
  ring

lemma psi_one (p : ℕ) (r : ℝ) : psi (p + 1) 1 r = -(1 / (2 * (p : ℝ) + 1)) * (r * psi p 0 r) := by
  unfold psi R
  rw [P_one]
  simp
  ring

lemma psi_odd_zero (p m : ℕ) (h : 2 * m + 1 < 2 * p) : psi p (2 * m + 1) 0 = 0 := by
  unfold psi R
  rw [eval_zero_map, P_odd_zero p m h]
  simp

lemma psi_odd_ne (p m : ℕ) (h : p ≤ m) : psi p (2 * m + 1) 0 ≠ 0 := by
  unfold psi R
  rw [eval_zero_map]
  have := P_odd_ne p m h
  simp [this]

/-- Even/odd extension of the profile derivatives. -/
noncomputable def phi (p n : ℕ) (t : ℝ) : ℝ := if 0 ≤ t then psi p n t else (-1) ^ n * psi p n (-t)

lemma phi_of_nonneg {p n : ℕ} {t : ℝ} (h : 0 ≤ t) : phi p n t = psi p n t := if_pos h

lemma phi_of_nonpos {p n : ℕ} {t : ℝ} (h : t ≤ 0) (hn : n < 2 * p ∨ Even n ∨ t ≠ 0) :
    phi p n t = (-1) ^ n * psi p n (-t) := by
  unfold phi
  split_ifs with h0
  · have ht : t = 0 := le_antisymm h h0
    subst ht
    rcases Nat.even_or_odd n with he | ⟨m, hm⟩
    · rw [he.neg_one_pow]; simp
    · rcases hn with hn | hn | hn
      · subst hm
        rw [psi_odd_zero p m hn]
        rw [neg_zero, psi_odd_zero p m hn]; simp
      · subst hm
        exact absurd hn (by simp)
      · exact absurd rfl hn
  · rfl

lemma hasDerivAt_neg_psi (p n : ℕ) (t : ℝ) :
    HasDerivAt (fun t => (-1) ^ n * psi p n (-t)) ((-1) ^ (n + 1) * psi p (n + 1) (-t)) t := by
  have h := (((hasDerivAt_psi p n (-t)).comp t (hasDerivAt_neg t)).const_mul ((-1 : ℝ) ^ n))
  refine h.congr_deriv ?_
  rw [pow_succ]; ring

/-- The extension has the next one as derivative, away from zero always, at zero up to order `2p`. -/
lemma hasDerivAt_phi (p n : ℕ) (t : ℝ) (h : n + 1 ≤ 2 * p ∨ t ≠ 0) : HasDerivAt (phi p n) (phi p (n + 1) t) t := by
  rcases lt_trichotomy t 0 with ht | ht | ht
  · rw [phi_of_nonpos ht.le (Or.inr (Or.inr ht.ne))]
    refine (hasDerivAt_neg_psi p n t).congr_of_eventuallyEq ?_
    filter_upwards [Iio_mem_nhds ht] with u hu
    exact phi_of_nonpos (le_of_lt hu) (Or.inr (Or.inr (ne_of_lt hu)))
  · subst ht
    have hp : n + 1 ≤ 2 * p := h.resolve_right (by simp)
    have hr : HasDerivWithinAt (phi p n) (phi p (n + 1) 0) (Set.Ici 0) 0 := by
      rw [phi_of_nonneg le_rfl]
      exact (hasDerivAt_psi p n 0).hasDerivWithinAt.congr (fun u hu => phi_of_nonneg hu) (phi_of_nonneg le_rfl)
    have hl : HasDerivWithinAt (phi p n) (phi p (n + 1) 0) (Set.Iic 0) 0 := by
      have e : phi p (n + 1) 0 = (-1) ^ (n + 1) * psi p (n + 1) (-0) := by
        apply phi_of_nonpos le_rfl
        rcases Nat.lt_or_ge (n + 1) (2 * p) with hq | hq
        · exact Or.inl hq
        · right; left
          exact ⟨p, by omega⟩
      rw [e]
      exact (hasDerivAt_neg_psi p n 0).hasDerivWithinAt.congr
        (fun u hu => phi_of_nonpos hu (Or.inl (by omega))) (phi_of_nonpos le_rfl (Or.inl (by omega)))
    have := hl.union hr
    rwa [Set.Iic_union_Ici, hasDerivWithinAt_univ] at this
  · rw [phi_of_nonneg ht.le]
    refine (hasDerivAt_psi p n t).congr_of_eventuallyEq ?_
    filter_upwards [Ioi_mem_nhds ht] with u hu
    exact phi_of_nonneg (le_of_lt hu)

/-- The derivative of order `2p` has a kink at zero. -/
lemma not_differentiableAt_phi (p : ℕ) : ¬DifferentiableAt ℝ (phi p (2 * p)) 0 := by
  intro h
  have hd := h.hasDerivAt
  have hr : HasDerivWithinAt (phi p (2 * p)) (psi p (2 * p + 1) 0) (Set.Ici 0) 0 :=
    (hasDerivAt_psi p (2 * p) 0).hasDerivWithinAt.congr (fun u hu => phi_of_nonneg hu) (phi_of_nonneg le_rfl)
  have hl : HasDerivWithinAt (phi p (2 * p)) ((-1) ^ (2 * p + 1) * psi p (2 * p + 1) (-0)) (Set.Iic 0) 0 :=
    (hasDerivAt_neg_psi p (2 * p) 0).hasDerivWithinAt.congr
      (fun u hu => phi_of_nonpos hu (Or.inr (Or.inl (even_two_mul p))))
      (phi_of_nonpos le_rfl (Or.inr (Or.inl (even_two_mul p))))
  have e1 := (uniqueDiffOn_Ici (0 : ℝ) 0 (by simp)).eq_deriv _ hr hd.hasDerivWithinAt
  have e2 := (uniqueDiffOn_Iic (0 : ℝ) 0 (by simp)).eq_deriv _ hl hd.hasDerivWithinAt
  rw [neg_zero, pow_succ, (even_two_mul p).neg_one_pow] at e2
  have : psi p (2 * p + 1) 0 = 0 := by linarith
  exact psi_odd_ne p p le_rfl this

/-- The profile as a function of the squared distance. -/
noncomputable def sq (p : ℕ) (s : ℝ) : ℝ := psi p 0 (Real.sqrt s)

lemma continuous_psi (p n : ℕ) : Continuous (psi p n) :=
  continuous_iff_continuousAt.mpr fun r => (hasDerivAt_psi p n r).continuousAt

lemma continuous_sq (p : ℕ) : Continuous (sq p) := (continuous_psi p 0).comp Real.continuous_sqrt

lemma hasDerivAt_sq_pos (p : ℕ) {s : ℝ} (hs : 0 < s) :
    HasDerivAt (sq (p + 1)) (-(1 / (2 * (2 * (p : ℝ) + 1))) * sq p s) s := by
  have h := (hasDerivAt_psi (p + 1) 0 (Real.sqrt s)).comp s (Real.hasDerivAt_sqrt hs.ne')
  refine h.congr_deriv ?_
  rw [psi_one]
  unfold sq
  have h1 : Real.sqrt s ≠ 0 := (Real.sqrt_pos.mpr hs).ne'
  have h2 : (2 * (p : ℝ) + 1) ≠ 0 := by positivity
  field_simp

/-- Derivative with respect to the squared distance, also at distance zero. -/
lemma hasDerivWithinAt_sq (p : ℕ) {s : ℝ} (hs : 0 ≤ s) :
    HasDerivWithinAt (sq (p + 1)) (-(1 / (2 * (2 * (p : ℝ) + 1))) * sq p s) (Set.Ici 0) s := by
  rcases hs.eq_or_lt with rfl | hs
  · refine hasDerivWithinAt_Ici_of_tendsto_deriv (s := Set.Ioi 0) ?_ ?_ self_mem_nhdsWithin ?_
    · exact fun t ht => (hasDerivAt_sq_pos p ht).differentiableAt.differentiableWithinAt
    · exact (continuous_sq (p + 1)).continuousWithinAt
    · have hc : Tendsto (fun s => -(1 / (2 * (2 * (p : ℝ) + 1))) * sq p s) (𝓝[>] 0)
          (𝓝 (-(1 / (2 * (2 * (p : ℝ) + 1))) * sq p 0)) :=
        ((continuous_const.mul (continuous_sq p)).tendsto 0).mono_left nhdsWithin_le_nhds
      refine hc.congr' ?_
      filter_upwards [self_mem_nhdsWithin] with t ht
      exact (hasDerivAt_sq_pos p ht).deriv.symm
  · exact (hasDerivAt_sq_pos p hs).hasDerivWithinAt

variable {d : ℕ}

lemma norm_eq_sqrt_dot (v : Fin d → ℝ) : norm v = Real.sqrt (dot v v) := by
  unfold norm dot
  congr 1
  exact Finset.sum_congr rfl fun i _ => by ring

lemma psi_norm (p : ℕ) (v : Fin d → ℝ) : psi p 0 (norm v) = sq p (dot v v) := by
  rw [norm_eq_sqrt_dot]; rfl

lemma dot_self_nonneg (v : Fin d → ℝ) : 0 ≤ dot v v :=
  Finset.sum_nonneg fun _ _ => mul_self_nonneg _

lemma dot_add_left (a b c : Fin d → ℝ) : dot (a + b) c = dot a c + dot b c := by
  unfold dot; rw [← Finset.sum_add_distrib]; exact Finset.sum_congr rfl fun i _ => by simp; ring

lemma dot_comm (a b : Fin d → ℝ) : dot a b = dot b a := by
  unfold dot; exact Finset.sum_congr rfl fun i _ => by ring

lemma dot_smul_left (c : ℝ) (a b : Fin d → ℝ) : dot (c • a) b = c * dot a b := by
  unfold dot; rw [Finset.mul_sum]; exact Finset.sum_congr rfl fun i _ => by simp; ring

lemma dot_line (v u : Fin d → ℝ) (t : ℝ) :
    dot (v + t • u) (v + t • u) = dot v v + 2 * t * dot v u + t ^ 2 * dot u u := by
  rw [dot_add_left, dot_comm v, dot_comm (t • u), dot_add_left, dot_add_left, dot_smul_left, dot_smul_left,
    dot_comm v (t • u), dot_smul_left, dot_comm u (t • u), dot_smul_left, dot_comm u v]
  ring

/-- Derivative of the profile along a line. -/
lemma hasDerivAt_line (p : ℕ) (v u : Fin d → ℝ) :
    HasDerivAt (fun t : ℝ => psi (p + 1) 0 (norm (v + t • u))) (-(1 / (2 * (p : ℝ) + 1)) * psi p 0 (norm v) * dot v u) 0 := by
  have h1 : HasDerivAt (fun t : ℝ => dot (v + t • u) (v + t • u)) (2 * dot v u) 0 := by
    have : HasDerivAt (fun t : ℝ => dot v v + 2 * t * dot v u + t ^ 2 * dot u u)
        (0 + 2 * 1 * dot v u + ((2 : ℕ) * (0 : ℝ) ^ 1 * 1) * dot u u) 0 :=
      (((hasDerivAt_const (0 : ℝ) (dot v v)).add (((hasDerivAt_id (0 : ℝ)).const_mul 2).mul_const _))).add
        (((hasDerivAt_id (0 : ℝ)).pow 2).mul_const _)
    refine (this.congr_deriv (by simp)).congr_of_eventuallyEq ?_
    exact Eventually.of_forall fun t => dot_line v u t
  have h2 := hasDerivWithinAt_sq p (dot_self_nonneg (v + (0 : ℝ) • u))
  have h3 := (HasDerivWithinAt.comp (0 : ℝ) h2 (h1.hasDerivWithinAt (s := Set.univ))
    (fun t _ => dot_self_nonneg (v + t • u)))
  rw [hasDerivWithinAt_univ] at h3
  refine (h3.congr_deriv ?_).congr_of_eventuallyEq ?_
  · rw [zero_smul, add_zero, psi_norm]
    have h2 : (2 * (p : ℝ) + 1) ≠ 0 := by positivity
    field_simp
  · exact Eventually.of_forall fun t => psi_norm (p + 1) _

end LinPDE.Matern
