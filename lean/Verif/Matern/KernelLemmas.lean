import Verif.Matern.Calculus
import Mathlib.Analysis.Calculus.ContDiff.Basic
import Mathlib.Analysis.Calculus.IteratedDeriv.Lemmas

/-! # Helper lemmas about derivative kernels -/

namespace LinPDE.Matern
open LinPDE.Polys Polynomial Filter Topology

/-! ## Divisions -/

lemma divMono_ok {q r : Poly ℚ} {n : ℕ} (h : divMono q n = .ok r) :
    q.floordivMonomial n = .ok r := by
  unfold divMono at h
  split at h
  · rename_i r' hr
    cases h; exact hr
  · cases h

lemma divMono_mul {q r : Poly ℚ} {n : ℕ} (h : divMono q n = .ok r) : r.toPoly * X ^ n = q.toPoly :=
  (floordivMonomial_spec q n).1 r (divMono_ok h)

lemma divMono_ok_iff (q : Poly ℚ) (n : ℕ) : (∃ r, divMono q n = .ok r) ↔ X ^ n ∣ q.toPoly ∧ n ≤ q.degree := by
  rw [← (floordivMonomial_spec q n).2.1]
  constructor
  · rintro ⟨r, hr⟩; exact ⟨r, divMono_ok hr⟩
  · rintro ⟨r, hr⟩
    refine ⟨r, ?_⟩
    unfold divMono
    rw [hr]

lemma divMono_error {q : Poly ℚ} {n : ℕ} {e : Err} (h : divMono q n = .error e) : e = .valueError := by
  unfold divMono at h
  split at h
  · cases h
  · cases h; rfl

lemma divMono_length {q r : Poly ℚ} {n : ℕ} (h : divMono q n = .ok r) : r.coeffs.length = q.coeffs.length - n := by
  have := ((floordivMonomial_ok_iff _ _ _).mp (divMono_ok h)).2.1
  rw [this, List.length_drop]

lemma degree_derivPoly (p n : ℕ) : (derivPoly p n).degree = p := by
  have := length_derivPoly p n
  rw [length_eq] at this
  omega

lemma degree_neg (q : Poly ℚ) : q.neg.degree = q.degree := by
  have h : q.neg.coeffs.length = q.coeffs.length := by
    unfold Poly.neg
    rw [coeffs_ofCoeffs_of_ne _ (by simpa using q.ne), List.length_map]
  rw [length_eq, length_eq] at h
  omega

lemma degree_add (q r : Poly ℚ) : (q.add r).degree = max q.degree r.degree := by
  have h : (q.add r).coeffs.length = max q.coeffs.length r.coeffs.length := by
    unfold Poly.add
    rw [coeffs_ofCoeffs_of_ne, zipLongest_length]
    intro h
    have h1 := congrArg List.length h
    rw [zipLongest_length, List.length_nil] at h1
    have := length_pos q
    omega
  rw [length_eq, length_eq, length_eq] at h
  omega

lemma X_dvd_odd_iff (p m : ℕ) : X ^ 1 ∣ P p (2 * m + 1) ↔ m < p := by
  rw [pow_one, X_dvd_iff, coeff_zero_eq_eval_zero]
  constructor
  · intro h
    by_contra hc
    exact P_odd_ne p m (by omega) h
  · intro h; exact P_odd_zero p m (by omega)

lemma div_one_ok_iff (p : ℕ) : (∃ r, divMono (derivPoly p 1) 1 = .ok r) ↔ 1 ≤ p := by
  rw [divMono_ok_iff, degree_derivPoly]
  have := X_dvd_odd_iff p 0
  constructor
  · exact fun h => h.2
  · exact fun h => ⟨this.mpr h, h⟩

lemma div_three_ok_iff (p : ℕ) : (∃ r, divMono (derivPoly p 3) 1 = .ok r) ↔ 2 ≤ p := by
  rw [divMono_ok_iff, degree_derivPoly]
  have := X_dvd_odd_iff p 1
  constructor
  · exact fun h => this.mp h.1
  · exact fun h => ⟨this.mpr (by omega), by omega⟩

lemma mul_X_inj {a b : ℚ[X]} (n : ℕ) (h : a * X ^ n = b * X ^ n) : a = b :=
  mul_right_cancel₀ (pow_ne_zero n X_ne_zero) h

/-- The quotient of the first derivative. -/
lemma quot_one {p : ℕ} {r : Poly ℚ} (h : r.toPoly * X ^ 1 = P p 1) :
    ∃ q, p = q + 1 ∧ r.toPoly = -C (1 / (2 * (q : ℚ) + 1)) * P q 0 := by
  have hp : 1 ≤ p := (X_dvd_odd_iff p 0).mp ⟨r.toPoly, by rw [← h]; ring⟩
  obtain ⟨q, rfl⟩ : ∃ q, p = q + 1 := ⟨p - 1, by omega⟩
  refine ⟨q, rfl, mul_X_inj 1 ?_⟩
  rw [h, P_one]; ring

/-- The quotients of the mixed second derivative. -/
lemma quot_two {p : ℕ} {a b : Poly ℚ} (ha : a.toPoly * X ^ 1 = -P p 1) (hb : b.toPoly * X ^ 2 = P p 2 + a.toPoly) :
    ∃ q, p = q + 2 ∧ a.toPoly = C (1 / (2 * (q : ℚ) + 3)) * P (q + 1) 0 ∧
      b.toPoly = C (1 / (2 * (q : ℚ) + 3)) * (C (1 / (2 * (q : ℚ) + 1)) * P q 0) := by
  have hp : 1 ≤ p := (X_dvd_odd_iff p 0).mp ⟨-a.toPoly, by
    have := congrArg (fun z => -z) ha
    simp only [neg_neg] at this
    rw [← this]; ring⟩
  obtain ⟨q, rfl⟩ : ∃ q, p = q + 1 := ⟨p - 1, by omega⟩
  have ea : a.toPoly = C (1 / (2 * (q : ℚ) + 1)) * P q 0 := by
    apply mul_X_inj 1
    rw [ha, P_one]; ring
  rw [ea, show (2 : ℕ) = 0 + 2 from rfl, P_step] at hb
  have hq : (2 * (q : ℚ) + 1) ≠ 0 := by positivity
  have hb2 : b.toPoly * X * X ^ 1 = (-C (1 / (2 * (q : ℚ) + 1)) * P q 1) * X ^ 1 := by
    have : b.toPoly * X * X ^ 1 = b.toPoly * X ^ (0 + 2) := by ring
    rw [this, hb]
    simp
    ring
  have hb3 := mul_X_inj 1 hb2
  cases q with
  | zero =>
    exfalso
    rw [P_zero_order] at hb3
    have := congrArg (fun z => z.coeff 0) hb3
    simp at this
  | succ q =>
    refine ⟨q, rfl, ?_, ?_⟩
    · rw [ea]; push_cast; congr 3; ring
    · apply mul_X_inj 1
      rw [pow_one, hb3, P_one, show (2 * ((q + 1 : ℕ) : ℚ) + 1) = 2 * q + 3 by push_cast; ring]
      ring

lemma mkDDDD_ok_iff {d : ℕ} (m : Par d) (u0 u1 : Fin d → ℝ) : (∃ k, mkDDDD m u0 u1 = .ok k) ↔ 2 ≤ m.p := by
  unfold mkDDDD
  constructor
  · rintro ⟨k, hk⟩
    cases ha : divMono (derivPoly m.p 1).neg 1 with
    | error e => rw [ha] at hk; cases hk
    | ok a =>
      rw [ha] at hk
      cases hb : divMono ((derivPoly m.p 2).add a) 2 with
      | error e =>
        have : (divMono ((derivPoly m.p 2).add a) 2 >>= fun b => Except.ok (MK.ddDD m u0 u1 a b)) = .ok k := hk
        rw [hb] at this; cases this
      | ok b =>
        have := ((divMono_ok_iff _ _).mp ⟨b, hb⟩).2
        rw [degree_add, degree_derivPoly] at this
        have l := divMono_length ha
        rw [length_eq, length_eq, degree_neg, degree_derivPoly] at l
        omega
  · intro hp
    obtain ⟨q, hq⟩ : ∃ q, m.p = q + 2 := ⟨m.p - 2, by omega⟩
    obtain ⟨a, ha⟩ : ∃ a, divMono (derivPoly m.p 1).neg 1 = .ok a := by
      rw [divMono_ok_iff, degree_neg, degree_derivPoly, toPoly_neg]
      exact ⟨(dvd_neg).mpr ((X_dvd_odd_iff m.p 0).mpr (by omega)), by omega⟩
    have ea : a.toPoly = C (1 / (2 * (q : ℚ) + 3)) * P (q + 1) 0 := by
      apply mul_X_inj 1
      rw [divMono_mul ha, toPoly_neg]
      show -P m.p 1 = _
      rw [hq, P_one, show (2 * ((q + 1 : ℕ) : ℚ) + 1) = 2 * q + 3 by push_cast; ring]; ring
    obtain ⟨b, hb⟩ : ∃ b, divMono ((derivPoly m.p 2).add a) 2 = .ok b := by
      rw [divMono_ok_iff, degree_add, degree_derivPoly, toPoly_add]
      refine ⟨?_, by omega⟩
      show _ ∣ P m.p 2 + _
      rw [ea, hq, show P (q + 2) 2 = P ((q + 1) + 1) (0 + 2) from rfl, P_step, P_one,
        show (2 * ((q + 1 : ℕ) : ℚ) + 1) = 2 * q + 3 by push_cast; ring]
      refine ⟨C (1 / (2 * (q : ℚ) + 3)) * (C (1 / (2 * (q : ℚ) + 1)) * P q 0), ?_⟩
      simp
      ring
    refine ⟨.ddDD m u0 u1 a b, ?_⟩
    rw [ha]
    show (divMono ((derivPoly m.p 2).add a) 2 >>= fun b => Except.ok (MK.ddDD m u0 u1 a b)) = _
    rw [hb]; rfl

/-! ## Smoothness of the profile -/

lemma iteratedDeriv_phi (p k : ℕ) (hk : k ≤ 2 * p) : iteratedDeriv k (phi p 0) = phi p k := by
  induction k with
  | zero => rw [iteratedDeriv_zero]
  | succ k ih =>
    rw [iteratedDeriv_succ, ih (by omega)]
    funext t
    exact (hasDerivAt_phi p k t (Or.inl hk)).deriv

lemma continuous_phi (p k : ℕ) (hk : k ≤ 2 * p) : Continuous (phi p k) := by
  rcases Nat.lt_or_ge k (2 * p) with h | h
  · exact continuous_iff_continuousAt.mpr fun t => (hasDerivAt_phi p k t (Or.inl h)).continuousAt
  · have : k = 2 * p := by omega
    subst this
    have e : phi p (2 * p) = fun t => psi p (2 * p) |t| := by
      funext t
      rcases le_total 0 t with ht | ht
      · rw [phi_of_nonneg ht, abs_of_nonneg ht]
      · rw [phi_of_nonpos ht (Or.inr (Or.inl (even_two_mul p))), abs_of_nonpos ht, (even_two_mul p).neg_one_pow, one_mul]
    rw [e]
    exact (continuous_psi p _).comp continuous_abs

lemma contDiff_phi_iff (p n : ℕ) : ContDiff ℝ n (phi p 0) ↔ n ≤ 2 * p := by
  constructor
  · intro h
    by_contra hc
    have hd : ContDiff ℝ ((2 * p + 1 : ℕ)) (phi p 0) := h.of_le (by exact_mod_cast (by omega : 2 * p + 1 ≤ n))
    have := hd.differentiable_iteratedDeriv (2 * p) (by exact_mod_cast (by omega : 2 * p < 2 * p + 1))
    rw [iteratedDeriv_phi p _ le_rfl] at this
    exact not_differentiableAt_phi p (this 0)
  · intro h
    rw [contDiff_nat_iff_iteratedDeriv]
    constructor
    · intro m hm
      rw [iteratedDeriv_phi p m (by omega)]
      exact continuous_phi p m (by omega)
    · intro m hm
      rw [iteratedDeriv_phi p m (by omega)]
      exact fun t => (hasDerivAt_phi p m t (Or.inl (by omega))).differentiableAt

lemma pev_derivPoly (p n : ℕ) (r : ℝ) : pev (derivPoly p n) r * Real.exp (-r) = psi p n r := by
  rw [pev_eq]; rfl

lemma phi_zero_abs (p : ℕ) (t : ℝ) : phi p 0 t = psi p 0 |t| := by
  rcases le_total 0 t with ht | ht
  · rw [phi_of_nonneg ht, abs_of_nonneg ht]
  · rw [phi_of_nonpos ht (Or.inr (Or.inl (by simp))), abs_of_nonpos ht, pow_zero, one_mul]

lemma phi_even_abs (p n : ℕ) (hn : Even n) (t : ℝ) : phi p n t = psi p n |t| := by
  rcases le_total 0 t with ht | ht
  · rw [phi_of_nonneg ht, abs_of_nonneg ht]
  · rw [phi_of_nonpos ht (Or.inr (Or.inl hn)), abs_of_nonpos ht, hn.neg_one_pow, one_mul]

/-- Odd derivatives from the divided polynomial. -/
lemma phi_odd_quot (p m : ℕ) (r : Poly ℚ) (h : r.toPoly * X ^ 1 = P p (2 * m + 1)) (t : ℝ) :
    pev r |t| * Real.exp (-|t|) * t = phi p (2 * m + 1) t := by
  have hm : m < p := (X_dvd_odd_iff p m).mp ⟨r.toPoly, by rw [← h]; ring⟩
  have hR : ∀ u : ℝ, pev r u * u = (R p (2 * m + 1)).eval u := by
    intro u
    rw [pev_eq, R, ← h]
    simp
  rcases le_total 0 t with ht | ht
  · rw [phi_of_nonneg ht, abs_of_nonneg ht, psi, ← hR]; ring
  · rw [phi_of_nonpos ht (Or.inl (by omega)), abs_of_nonpos ht, psi, ← hR, pow_succ, (even_two_mul m).neg_one_pow]; ring

/-! ## Constructed kernels -/

variable {d : ℕ}

/-- The parameters of a kernel. -/
def MK.par : MK d → Par d
  | .matern m | .idDD m _ _ _ | .ddDD m _ _ _ _ | .uniDDDD m _ _ _ | .idWL m _ _ _ | .wlWL m _ _ _ | .ddWL m _ _ _ _ => m

/-- Total order of differentiation of a kernel. -/
def MK.ord : MK d → ℕ
  | .matern _ => 0
  | .idDD .. => 1
  | .ddDD .. | .uniDDDD .. | .idWL .. => 2
  | .ddWL .. => 3
  | .wlWL .. => 4

/-- What the constructors establish. -/
def MK.Valid : MK d → Prop
  | .matern _ => True
  | .idDD m _ _ q => q.toPoly * X ^ 1 = P m.p 1
  | .ddDD m _ _ a b => d ≠ 1 ∧ a.toPoly * X ^ 1 = -P m.p 1 ∧ b.toPoly * X ^ 2 = P m.p 2 + a.toPoly
  | .uniDDDD m _ _ q => d = 1 ∧ 1 ≤ m.p ∧ q.toPoly = -P m.p 2
  | .idWL m _ _ q => d = 1 ∧ q.toPoly = P m.p 2
  | .wlWL m _ _ q => d = 1 ∧ q.toPoly = P m.p 4
  | .ddWL m _ _ _ q => d = 1 ∧ q.toPoly * X ^ 1 = P m.p 3

lemma mkIdDD_ok {m : Par d} {u : Fin d → ℝ} {r : Bool} {k : MK d} (h : mkIdDD m u r = .ok k) :
    ∃ q, k = .idDD m u r q ∧ q.toPoly * X ^ 1 = P m.p 1 := by
  unfold mkIdDD at h
  cases hq : divMono (derivPoly m.p 1) 1 with
  | error e => rw [hq] at h; cases h
  | ok q => rw [hq] at h; cases h; exact ⟨q, rfl, divMono_mul hq⟩

lemma mkDDDD_ok {m : Par d} {u0 u1 : Fin d → ℝ} {k : MK d} (h : mkDDDD m u0 u1 = .ok k) :
    ∃ a b, k = .ddDD m u0 u1 a b ∧ a.toPoly * X ^ 1 = -P m.p 1 ∧ b.toPoly * X ^ 2 = P m.p 2 + a.toPoly := by
  unfold mkDDDD at h
  cases ha : divMono (derivPoly m.p 1).neg 1 with
  | error e => rw [ha] at h; cases h
  | ok a =>
    rw [ha] at h
    have h : (divMono ((derivPoly m.p 2).add a) 2 >>= fun b => Except.ok (MK.ddDD m u0 u1 a b)) = .ok k := h
    cases hb : divMono ((derivPoly m.p 2).add a) 2 with
    | error e => rw [hb] at h; cases h
    | ok b =>
      rw [hb] at h; cases h
      exact ⟨a, b, rfl, by rw [divMono_mul ha, toPoly_neg]; rfl, by rw [divMono_mul hb, toPoly_add]; rfl⟩

lemma mkUniDDDD_ok {m : Par d} {u0 u1 : Fin d → ℝ} {k : MK d} (h : mkUniDDDD m u0 u1 = .ok k) :
    d = 1 ∧ ∃ q, k = .uniDDDD m u0 u1 q ∧ q.toPoly = -P m.p 2 := by
  unfold mkUniDDDD at h
  split at h
  · cases h
  · rename_i hd
    cases h
    exact ⟨not_not.mp hd, _, rfl, by rw [toPoly_neg]; rfl⟩

lemma mkIdWL_ok {m : Par d} {w : Fin d → ℝ} {r : Bool} {k : MK d} (h : mkIdWL m w r = .ok k) :
    d = 1 ∧ ∃ q, k = .idWL m w r q ∧ q.toPoly = P m.p 2 := by
  unfold mkIdWL at h
  split at h
  · cases h
  · rename_i hd
    cases h
    exact ⟨not_not.mp hd, _, rfl, rfl⟩

lemma mkWLWL_ok {m : Par d} {w0 w1 : Fin d → ℝ} {k : MK d} (h : mkWLWL m w0 w1 = .ok k) :
    d = 1 ∧ ∃ q, k = .wlWL m w0 w1 q ∧ q.toPoly = P m.p 4 := by
  unfold mkWLWL at h
  split at h
  · cases h
  · rename_i hd
    cases h
    exact ⟨not_not.mp hd, _, rfl, rfl⟩

lemma mkDDWL_ok {m : Par d} {u w : Fin d → ℝ} {r : Bool} {k : MK d} (h : mkDDWL m u w r = .ok k) :
    d = 1 ∧ ∃ q, k = .ddWL m u w r q ∧ q.toPoly * X ^ 1 = P m.p 3 := by
  unfold mkDDWL at h
  split at h
  · cases h
  · rename_i hd
    cases hq : divMono (derivPoly m.p 3) 1 with
    | error e => rw [hq] at h; cases h
    | ok q => rw [hq] at h; cases h; exact ⟨not_not.mp hd, q, rfl, divMono_mul hq⟩

/-! ## One dimension -/

/-- The constant in front of the profile derivative in one dimension. -/
def MK.coef : MK 1 → ℝ
  | .matern _ => 1
  | .idDD m u r _ => m.s 0 * u 0 * (if r then 1 else -1)
  | .ddDD m u0 u1 _ _ | .uniDDDD m u0 u1 _ => -(u0 0 * u1 0 * m.s 0 ^ 2)
  | .idWL m w _ _ => w 0 * m.s 0 * m.s 0
  | .wlWL m w0 w1 _ => w0 0 * w1 0 * m.s 0 ^ 4
  | .ddWL m u w r _ => w 0 * m.s 0 ^ 3 * u 0 * (if r then -1 else 1)

lemma norm_one (v : Fin 1 → ℝ) : norm v = |v 0| := by
  unfold norm; rw [Fin.sum_univ_one, Real.sqrt_sq_eq_abs]

lemma dot_one (a b : Fin 1 → ℝ) : dot a b = a 0 * b 0 := by
  unfold dot; rw [Fin.sum_univ_one]

lemma pev_of_eq {q : Poly ℚ} {p n : ℕ} (h : q.toPoly = P p n) (r : ℝ) : Real.exp (-r) * pev q r = psi p n r := by
  rw [pev_eq, h]; exact mul_comm _ _

lemma pev_of_neg {q : Poly ℚ} {p n : ℕ} (h : q.toPoly = -P p n) (r : ℝ) : pev q r * Real.exp (-r) = -psi p n r := by
  rw [pev_eq, h, Polynomial.map_neg, eval_neg]; unfold psi R; ring

/-- In one dimension every constructed kernel is a multiple of a derivative of the profile. -/
lemma eval_univariate {k : MK 1} (hk : k.Valid) (x0 x1 : Fin 1 → ℝ) :
    k.eval x0 x1 = k.coef * phi k.par.p k.ord (k.par.s 0 * (x0 0 - x1 0)) := by
  have hv : ∀ m : Par 1, sdiff m.s x0 x1 0 = m.s 0 * (x0 0 - x1 0) := fun m => mul_comm _ _
  cases k with
  | matern m =>
    show pev _ _ * _ = 1 * phi m.p 0 (m.s 0 * (x0 0 - x1 0))
    rw [pev_derivPoly, norm_one, hv, phi_zero_abs, one_mul]
  | idDD m u r q =>
    show pev q _ * Real.exp _ * dot _ _ = _ * phi m.p 1 (m.s 0 * (x0 0 - x1 0))
    rw [← phi_odd_quot m.p 0 q hk, dot_one, norm_one, hv]
    unfold dirDD MK.coef
    ring
  | ddDD m u0 u1 a b => exact absurd rfl hk.1
  | uniDDDD m u0 u1 q =>
    show (∑ i, _) * pev q _ * Real.exp _ = -(u0 0 * u1 0 * m.s 0 ^ 2) * phi m.p 2 (m.s 0 * (x0 0 - x1 0))
    rw [mul_assoc, pev_of_neg hk.2.2, Fin.sum_univ_one, norm_one, hv, phi_even_abs _ _ even_two]
    ring
  | idWL m w r q =>
    show (∑ i, _) * Real.exp _ * pev q _ = _ * phi m.p 2 (m.s 0 * (x0 0 - x1 0))
    rw [mul_assoc, pev_of_eq hk.2, Fin.sum_univ_one, norm_one, hv, phi_even_abs _ _ even_two]
    rfl
  | wlWL m w0 w1 q =>
    show (∑ i, _) * Real.exp _ * pev q _ = _ * phi m.p 4 (m.s 0 * (x0 0 - x1 0))
    rw [mul_assoc, pev_of_eq hk.2, Fin.sum_univ_one, norm_one, hv, phi_even_abs _ _ (by decide)]
    rfl
  | ddWL m u w r q =>
    show Real.exp _ * pev q _ * dot _ _ = _ * phi m.p 3 (m.s 0 * (x0 0 - x1 0))
    rw [← phi_odd_quot m.p 1 q hk.2, dot_one, norm_one, hv]
    unfold dirDDWL MK.coef
    ring

/-- Derivative of a multiple of the profile derivative along a line. -/
lemma hasDerivAt_affine (p n : ℕ) (c a b t : ℝ) (h : n + 1 ≤ 2 * p ∨ a + t * b ≠ 0) :
    HasDerivAt (fun t => c * phi p n (a + t * b)) (c * b * phi p (n + 1) (a + t * b)) t := by
  have h1 := hasDerivAt_phi p n (a + t * b) h
  have h2 : HasDerivAt (fun t : ℝ => a + t * b) (1 * b) t := ((hasDerivAt_id t).mul_const b).const_add a
  refine ((h1.comp t h2).const_mul c).congr_deriv ?_
  ring

end LinPDE.Matern
