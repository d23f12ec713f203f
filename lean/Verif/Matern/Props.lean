import Verif.Matern.KernelLemmas

/-!
# Properties of half-integer Matérn derivative kernels (C23, C24)
-/

namespace LinPDE.Matern
open LinPDE.Polys Polynomial Filter Topology

/-! ## C23: derivative polynomials -/

/-- The half-integer Matérn profile `κ_p(r) = exp(-r) p!/(2p)! Σ_k (p+k)!/(k!(p-k)!) (2r)^(p-k)`, written in increasing
powers. -/
noncomputable def profile (p : ℕ) (r : ℝ) : ℝ :=
  Real.exp (-r) * ((p.factorial : ℝ) / (2 * p).factorial) *
    ∑ k ∈ Finset.range (p + 1), ((2 * p - k).factorial : ℝ) / (k.factorial * (p - k).factorial) * (2 * r) ^ k

lemma profile_eq (p : ℕ) (r : ℝ) : profile p r = psi p 0 r := by
  unfold profile
  rw [← pev_derivPoly, pev_eq]
  show _ = (((maternPoly p).toPoly).map (algebraMap ℚ ℝ)).eval r * _
  have hdeg : ((maternPoly p).toPoly.map (algebraMap ℚ ℝ)).natDegree < p + 1 := by
    refine lt_of_le_of_lt natDegree_map_le ?_
    refine lt_of_le_of_lt (natDegree_toPoly_le _) ?_
    have := degree_derivPoly p 0
    show (derivPoly p 0).degree < p + 1
    omega
  rw [eval_eq_sum_range' hdeg, mul_comm _ (Real.exp (-r)), mul_assoc, Finset.mul_sum]
  congr 1
  refine Finset.sum_congr rfl fun k hk => ?_
  rw [coeff_map, coeff_maternPoly, if_pos (by simpa using Nat.lt_succ_iff.mp (Finset.mem_range.mp hk))]
  unfold maternCoeff
  rw [mul_pow]
  simp
  field_simp

/-- C23: `half_integer_matern_derivative_polynomial(p, n)` times `exp(-r)` is the `n`-th derivative of the profile. -/
theorem derivPoly_spec (p n : ℕ) (r : ℝ) :
    iteratedDeriv n (profile p) r = pev (derivPoly p n) r * Real.exp (-r) := by
  have e : profile p = psi p 0 := funext fun r => profile_eq p r
  rw [e, pev_derivPoly]
  have : ∀ n, iteratedDeriv n (psi p 0) = psi p n := by
    intro n
    induction n with
    | zero => rw [iteratedDeriv_zero]
    | succ n ih =>
      rw [iteratedDeriv_succ, ih]
      exact funext fun t => (hasDerivAt_psi p n t).deriv
  rw [this]

/-- C23: the profile, as a function of the signed distance, is `n` times continuously differentiable exactly for
`n ≤ 2p`. -/
theorem profile_contDiff_iff (p n : ℕ) : ContDiff ℝ n (fun t : ℝ => profile p |t|) ↔ n ≤ 2 * p := by
  rw [← contDiff_phi_iff]
  have : (fun t : ℝ => profile p |t|) = phi p 0 := funext fun t => by rw [profile_eq, phi_zero_abs]
  rw [this]

/-- C23: the constructor of the first-derivative kernel succeeds exactly if the profile is continuously
differentiable, and otherwise raises `ValueError`. -/
theorem mkIdDD_ok_iff {d : ℕ} (m : Par d) (u : Fin d → ℝ) (r : Bool) :
    ((∃ k, mkIdDD m u r = .ok k) ↔ ContDiff ℝ 1 (fun t : ℝ => profile m.p |t|)) ∧
    ∀ e, mkIdDD m u r = .error e → e = .valueError := by
  constructor
  · have := profile_contDiff_iff m.p 1
    rw [Nat.cast_one] at this
    rw [this, show (1 ≤ 2 * m.p ↔ 1 ≤ m.p) by omega, ← div_one_ok_iff]
    unfold mkIdDD
    constructor
    · rintro ⟨k, hk⟩
      cases hq : divMono (derivPoly m.p 1) 1 with
      | error e => rw [hq] at hk; cases hk
      | ok q => exact ⟨q, rfl⟩
    · rintro ⟨q, hq⟩
      exact ⟨.idDD m u r q, by rw [hq]; rfl⟩
  · intro e h
    unfold mkIdDD at h
    cases hq : divMono (derivPoly m.p 1) 1 with
    | error e' => rw [hq] at h; cases h; exact divMono_error hq
    | ok q => rw [hq] at h; cases h

/-- C23: the constructor of the kernel with three derivatives succeeds exactly for univariate inputs with a three times
continuously differentiable profile, and otherwise raises `ValueError`. -/
theorem mkDDWL_ok_iff {d : ℕ} (m : Par d) (u w : Fin d → ℝ) (r : Bool) :
    ((∃ k, mkDDWL m u w r = .ok k) ↔ d = 1 ∧ ContDiff ℝ 3 (fun t : ℝ => profile m.p |t|)) ∧
    ∀ e, mkDDWL m u w r = .error e → e = .valueError := by
  constructor
  · have := profile_contDiff_iff m.p 3
    rw [Nat.cast_ofNat] at this
    rw [this, show (3 ≤ 2 * m.p ↔ 2 ≤ m.p) by omega, ← div_three_ok_iff]
    unfold mkDDWL
    split_ifs with hd
    · constructor
      · rintro ⟨k, hk⟩; cases hk
      · rintro ⟨h, _⟩; exact absurd h hd
    · constructor
      · rintro ⟨k, hk⟩
        refine ⟨not_not.mp hd, ?_⟩
        cases hq : divMono (derivPoly m.p 3) 1 with
        | error e => rw [hq] at hk; cases hk
        | ok q => exact ⟨q, rfl⟩
      · rintro ⟨_, q, hq⟩
        exact ⟨.ddWL m u w r q, by rw [hq]; rfl⟩
  · intro e h
    unfold mkDDWL at h
    split_ifs at h
    · cases h; rfl
    · cases hq : divMono (derivPoly m.p 3) 1 with
      | error e' => rw [hq] at h; cases h; exact divMono_error hq
      | ok q => rw [hq] at h; cases h

/-- C23 (part): the constructor of the mixed second derivative kernel succeeds exactly for `p ≥ 2`; the kernel exists
already for `p = 1`, see `mkDDDD_violated`. -/
theorem mkDDDD_ok_iff_partial {d : ℕ} (m : Par d) (u0 u1 : Fin d → ℝ) :
    (∃ k, mkDDDD m u0 u1 = .ok k) ↔ 2 ≤ m.p := mkDDDD_ok_iff m u0 u1

/-! ## C24: derivative kernels are derivatives -/

variable {d : ℕ}

/-- The value `y` is the result of the differential operator `L` applied to `g` at the point `x`: directional
derivatives, weighted sums of second partial derivatives, and univariate derivatives up to order two (the only partial
derivatives for which the code has closed forms). -/
def OpAt (L : DOp d) (g : (Fin d → ℝ) → ℝ) (x : Fin d → ℝ) (y : ℝ) : Prop :=
  match L with
  | .dd u => HasDerivAt (fun t : ℝ => g (x + t • u)) y 0
  | .wl w => ∃ (D1 : Fin d → ℝ → ℝ) (D2 : Fin d → ℝ),
      (∀ i, ∀ᶠ t in 𝓝 (0 : ℝ), HasDerivAt (fun t : ℝ => g (x + t • Pi.single i 1)) (D1 i t) t) ∧
      (∀ i, HasDerivAt (D1 i) (D2 i) 0) ∧ y = ∑ i, w i * D2 i
  | .pd n =>
    match n with
    | 0 => y = g x
    | 1 => HasDerivAt (fun t : ℝ => g (x + t • 1)) y 0
    | _ => ∃ D1 : ℝ → ℝ, (∀ᶠ t in 𝓝 (0 : ℝ), HasDerivAt (fun t : ℝ => g (x + t • 1)) (D1 t) t) ∧ HasDerivAt D1 y 0

/-- Order of a differential operator. -/
def DOp.order : DOp d → ℕ
  | .dd _ => 1
  | .wl _ => 2
  | .pd n => n

/-- Kernels obtained from a Matérn kernel by successive application of operators to its arguments, with the total order
of differentiation. -/
inductive Built (m : Par d) : ℕ → MK d → Prop
  | base : Built m 0 (.matern m)
  | step {n : ℕ} {k k' : MK d} (L : DOp d) (a : Bool) (hk : Built m n k) (h : apply L a k = .ok k') :
      Built m (n + L.order) k'

/-- The sign of the argument position. -/
def sgn (a : Bool) : ℝ := if a then 1 else -1

lemma applyDD_inv {u : Fin d → ℝ} {a : Bool} {k k' : MK d} (hk : k.Valid) (h : applyDD u a k = .ok k') :
    k'.Valid ∧ k'.ord = k.ord + 1 ∧ k'.par = k.par ∧ k'.ord ≤ 2 * k.par.p := by
  cases k with
  | matern m =>
    obtain ⟨q, rfl, hq⟩ := mkIdDD_ok (show mkIdDD m u a = .ok k' from h)
    obtain ⟨p, hp, _⟩ := quot_one hq
    exact ⟨hq, rfl, rfl, by show 1 ≤ 2 * m.p; omega⟩
  | idDD m u' r q =>
    obtain ⟨p, hp, _⟩ := quot_one hk
    rw [applyDD] at h
    split_ifs at h with h1 h2 h2 h3
    · obtain ⟨hd, q', rfl, hq'⟩ := mkUniDDDD_ok h
      exact ⟨⟨hd, by omega, hq'⟩, rfl, rfl, by show 2 ≤ 2 * m.p; omega⟩
    · obtain ⟨a, b, rfl, ha, hb⟩ := mkDDDD_ok h
      exact ⟨⟨h2, ha, hb⟩, rfl, rfl, by show 2 ≤ 2 * m.p; omega⟩
    · obtain ⟨hd, q', rfl, hq'⟩ := mkUniDDDD_ok h
      exact ⟨⟨hd, by omega, hq'⟩, rfl, rfl, by show 2 ≤ 2 * m.p; omega⟩
    · obtain ⟨a, b, rfl, ha, hb⟩ := mkDDDD_ok h
      exact ⟨⟨h3, ha, hb⟩, rfl, rfl, by show 2 ≤ 2 * m.p; omega⟩
  | idWL m w r q =>
    rw [applyDD] at h
    split_ifs at h with h1
    obtain ⟨hd, q', rfl, hq'⟩ := mkDDWL_ok h
    have := (X_dvd_odd_iff m.p 1).mp ⟨q'.toPoly, by rw [← hq']; ring⟩
    exact ⟨⟨hd, hq'⟩, rfl, rfl, by show 3 ≤ 2 * m.p; omega⟩
  | ddDD => cases h
  | uniDDDD => cases h
  | wlWL => cases h
  | ddWL => cases h

lemma applyWL_inv {w : Fin d → ℝ} {a : Bool} {k k' : MK d} (h : applyWL w a k = .ok k') :
    d = 1 ∧ k'.Valid ∧ k'.ord = k.ord + 2 ∧ k'.par = k.par := by
  cases k with
  | matern m =>
    rw [applyWL] at h
    split_ifs at h with h1
    obtain ⟨hd, q', rfl, hq'⟩ := mkIdWL_ok h
    exact ⟨h1, ⟨hd, hq'⟩, rfl, rfl⟩
  | idDD m u' r q =>
    rw [applyWL] at h
    split_ifs at h with h1 h2
    obtain ⟨hd, q', rfl, hq'⟩ := mkDDWL_ok h
    exact ⟨hd, ⟨hd, hq'⟩, rfl, rfl⟩
  | idWL m w r q =>
    rw [applyWL] at h
    split_ifs at h with h1 h2 h3
    · obtain ⟨hd, q', rfl, hq'⟩ := mkWLWL_ok h
      exact ⟨hd, ⟨hd, hq'⟩, rfl, rfl⟩
    · obtain ⟨hd, q', rfl, hq'⟩ := mkWLWL_ok h
      exact ⟨hd, ⟨hd, hq'⟩, rfl, rfl⟩
  | ddDD => cases h
  | uniDDDD => cases h
  | wlWL => cases h
  | ddWL => cases h

lemma applyPD_inv {n : ℕ} {a : Bool} {k k' : MK d} (h : applyPD n a k = .ok k') :
    (n = 0 ∧ k' = k) ∨ (n = 1 ∧ d = 1 ∧ applyDD (fun _ => 1) a k = .ok k') ∨
      (n = 2 ∧ d = 1 ∧ applyWL (fun _ => 1) a k = .ok k') := by
  cases k <;> simp only [applyPD] at h
  case ddDD => cases h
  case uniDDDD => cases h
  case wlWL => cases h
  case ddWL => cases h
  all_goals
    split_ifs at h with h1 h2 h3
    · cases h; exact Or.inl ⟨h1, rfl⟩
    · exact Or.inr (Or.inl ⟨h2.2, h2.1, h⟩)
    · exact Or.inr (Or.inr ⟨h3.2, h3.1, h⟩)

lemma apply_inv {L : DOp d} {a : Bool} {k k' : MK d} (hk : k.Valid) (h : apply L a k = .ok k') :
    k'.Valid ∧ k'.ord = k.ord + L.order ∧ k'.par = k.par := by
  cases L with
  | dd u => obtain ⟨h1, h2, h3, _⟩ := applyDD_inv hk h; exact ⟨h1, h2, h3⟩
  | wl w => obtain ⟨_, h1, h2, h3⟩ := applyWL_inv h; exact ⟨h1, h2, h3⟩
  | pd n =>
    rcases applyPD_inv h with ⟨rfl, rfl⟩ | ⟨rfl, _, h⟩ | ⟨rfl, _, h⟩
    · exact ⟨hk, rfl, rfl⟩
    · obtain ⟨h1, h2, h3, _⟩ := applyDD_inv hk h; exact ⟨h1, h2, h3⟩
    · obtain ⟨_, h1, h2, h3⟩ := applyWL_inv h; exact ⟨h1, h2, h3⟩

lemma Built.valid {m : Par d} {n : ℕ} {k : MK d} (h : Built m n k) : k.Valid ∧ k.ord = n ∧ k.par = m := by
  induction h with
  | base => exact ⟨trivial, rfl, rfl⟩
  | step L a _ h ih =>
    obtain ⟨h1, h2, h3⟩ := apply_inv ih.1 h
    exact ⟨h1, by rw [h2, ih.2.1], by rw [h3, ih.2.2]⟩

lemma applyDD_coef {u : Fin 1 → ℝ} {a : Bool} {k k' : MK 1} (h : applyDD u a k = .ok k') :
    k'.coef = sgn a * k.par.s 0 * u 0 * k.coef := by
  cases k with
  | matern m =>
    obtain ⟨q, rfl, hq⟩ := mkIdDD_ok (show mkIdDD m u a = .ok k' from h)
    cases a <;> simp [MK.coef, sgn, MK.par]
  | idDD m u' r q =>
    rw [applyDD] at h
    split_ifs at h with h1 h2 h2 h3
    · obtain ⟨hd, q', rfl, hq'⟩ := mkUniDDDD_ok h
      simp [MK.coef, MK.par, sgn, h1.1, h1.2]; ring
    · exact absurd rfl h2
    · obtain ⟨hd, q', rfl, hq'⟩ := mkUniDDDD_ok h
      simp [MK.coef, MK.par, sgn, h2.1, h2.2]; ring
    · exact absurd rfl h3
  | idWL m w r q =>
    rw [applyDD] at h
    split_ifs at h with h1
    obtain ⟨hd, q', rfl, hq'⟩ := mkDDWL_ok h
    cases a <;> simp [MK.coef, MK.par, sgn] <;> ring
  | ddDD => cases h
  | uniDDDD => cases h
  | wlWL => cases h
  | ddWL => cases h

lemma applyWL_coef {w : Fin 1 → ℝ} {a : Bool} {k k' : MK 1} (h : applyWL w a k = .ok k') :
    k'.coef = w 0 * k.par.s 0 ^ 2 * k.coef := by
  cases k with
  | matern m =>
    rw [applyWL] at h
    split_ifs at h with h1
    · obtain ⟨hd, q', rfl, hq'⟩ := mkIdWL_ok h
      simp [MK.coef, MK.par]; ring
  | idDD m u' r q =>
    rw [applyWL] at h
    split_ifs at h with h1 h2
    obtain ⟨hd, q', rfl, hq'⟩ := mkDDWL_ok h
    cases a <;> cases r <;> simp_all [MK.coef, MK.par] <;> ring
  | idWL m w r q =>
    rw [applyWL] at h
    split_ifs at h with h1 h2 h3
    · obtain ⟨hd, q', rfl, hq'⟩ := mkWLWL_ok h
      simp [MK.coef, MK.par]; ring
    · obtain ⟨hd, q', rfl, hq'⟩ := mkWLWL_ok h
      simp [MK.coef, MK.par]; ring
  | ddDD => cases h
  | uniDDDD => cases h
  | wlWL => cases h
  | ddWL => cases h

/-- A kernel as a function of one argument. -/
noncomputable def slice (k : MK d) (a : Bool) (x0 x1 : Fin d → ℝ) : (Fin d → ℝ) → ℝ :=
  if a then fun x => k.eval x x1 else fun x => k.eval x0 x

/-- The differentiated argument. -/
def pt (a : Bool) (x0 x1 : Fin d → ℝ) : Fin d → ℝ := if a then x0 else x1

lemma slice_line_univariate {k : MK 1} (hk : k.Valid) (a : Bool) (x0 x1 u : Fin 1 → ℝ) (t : ℝ) :
    slice k a x0 x1 (pt a x0 x1 + t • u) =
      k.coef * phi k.par.p k.ord (k.par.s 0 * (x0 0 - x1 0) + t * (sgn a * k.par.s 0 * u 0)) := by
  cases a
  · show k.eval x0 (x1 + t • u) = _
    rw [eval_univariate hk]
    congr 2
    simp [sgn]; ring
  · show k.eval (x0 + t • u) x1 = _
    rw [eval_univariate hk]
    congr 2
    simp [sgn]; ring

lemma dd_univariate {u : Fin 1 → ℝ} {a : Bool} {k k' : MK 1} (hk : k.Valid) (h : applyDD u a k = .ok k')
    (x0 x1 : Fin 1 → ℝ) : HasDerivAt (fun t : ℝ => slice k a x0 x1 (pt a x0 x1 + t • u)) (k'.eval x0 x1) 0 := by
  obtain ⟨h1, h2, h3, h4⟩ := applyDD_inv hk h
  have := hasDerivAt_affine k.par.p k.ord k.coef (k.par.s 0 * (x0 0 - x1 0)) (sgn a * k.par.s 0 * u 0) 0
    (Or.inl (by omega))
  refine (this.congr_deriv ?_).congr_of_eventuallyEq
    (Eventually.of_forall fun t => slice_line_univariate hk a x0 x1 u t)
  rw [eval_univariate h1, applyDD_coef h, h2, h3, zero_mul, add_zero]
  ring

lemma wl_univariate {w : Fin 1 → ℝ} {a : Bool} {k k' : MK 1} (hk : k.Valid) (h : applyWL w a k = .ok k')
    (x0 x1 u : Fin 1 → ℝ) (hu : u 0 = 1) (hs : k'.ord ≤ 2 * k.par.p ∨ k.par.s 0 * (x0 0 - x1 0) ≠ 0) :
    ∃ (D1 : ℝ → ℝ) (D2 : ℝ),
      (∀ᶠ t in 𝓝 (0 : ℝ), HasDerivAt (fun t : ℝ => slice k a x0 x1 (pt a x0 x1 + t • u)) (D1 t) t) ∧
      HasDerivAt D1 D2 0 ∧ k'.eval x0 x1 = w 0 * D2 := by
  obtain ⟨_, h1, h2, h3⟩ := applyWL_inv h
  set α := k.par.s 0 * (x0 0 - x1 0) with hα
  set β := sgn a * k.par.s 0 * u 0 with hβ
  refine ⟨fun t => k.coef * β * phi k.par.p (k.ord + 1) (α + t * β),
    k.coef * β * β * phi k.par.p (k.ord + 2) (α + 0 * β), ?_, ?_, ?_⟩
  · have hev : ∀ᶠ t in 𝓝 (0 : ℝ), k.ord + 1 ≤ 2 * k.par.p ∨ α + t * β ≠ 0 := by
      rcases hs with hs | hs
      · exact Eventually.of_forall fun t => Or.inl (by omega)
      · have hc : Continuous fun t : ℝ => α + t * β := by fun_prop
        have := hc.continuousAt (x := 0) |>.eventually_ne (y := 0) (by simpa using hs)
        exact this.mono fun t ht => Or.inr ht
    filter_upwards [hev] with t ht
    exact (hasDerivAt_affine k.par.p k.ord k.coef α β t ht).congr_of_eventuallyEq
      (Eventually.of_forall fun t => slice_line_univariate hk a x0 x1 u t)
  · refine hasDerivAt_affine k.par.p (k.ord + 1) (k.coef * β) α β 0 ?_
    rcases hs with hs | hs
    · exact Or.inl (by omega)
    · exact Or.inr (by simpa using hs)
  · rw [eval_univariate h1, applyWL_coef h, h2, h3, zero_mul, add_zero]
    have : β * β = k.par.s 0 ^ 2 := by
      rw [hβ, hu]; cases a <;> simp [sgn] <;> ring
    linear_combination -(w 0 * k.coef * phi k.par.p (k.ord + 2) α) * this

/-- Line through the scaled difference. -/
lemma slice_sdiff (s x0 x1 u : Fin d → ℝ) (a : Bool) (t : ℝ) :
    (if a then sdiff s (x0 + t • u) x1 else sdiff s x0 (x1 + t • u)) =
      sdiff s x0 x1 + t • (fun i => sgn a * s i * u i) := by
  funext i
  cases a <;> simp [sdiff, sgn] <;> ring

lemma pev_quot {q : Poly ℚ} {p : ℕ} {c : ℚ} (h : q.toPoly = C c * P p 0) (r : ℝ) :
    pev q r * Real.exp (-r) = (c : ℝ) * psi p 0 r := by
  rw [pev_eq, h, Polynomial.map_mul, map_C, eval_mul, eval_C, mul_assoc]; rfl

lemma dd_matern {u : Fin d → ℝ} {a : Bool} {m : Par d} {k' : MK d} (h : mkIdDD m u a = .ok k') (x0 x1 : Fin d → ℝ) :
    HasDerivAt (fun t : ℝ => slice (.matern m) a x0 x1 (pt a x0 x1 + t • u)) (k'.eval x0 x1) 0 := by
  obtain ⟨q, rfl, hq⟩ := mkIdDD_ok h
  obtain ⟨p, hp, hq⟩ := quot_one hq
  have hd := hasDerivAt_line p (sdiff m.s x0 x1) (fun i => sgn a * m.s i * u i)
  refine (hd.congr_deriv ?_).congr_of_eventuallyEq (Eventually.of_forall fun t => ?_)
  · show _ = pev q _ * Real.exp _ * dot (dirDD m u a) _
    rw [pev_quot (c := -(1 / (2 * (p : ℚ) + 1))) (by rw [hq, C_neg]), dot_comm]
    have : dirDD m u a = fun i => sgn a * m.s i * u i := by
      funext i; cases a <;> simp [dirDD, sgn]
    rw [this]
    push_cast
    ring
  · beta_reduce
    rw [← slice_sdiff]
    cases a
    · show pev _ _ * _ = psi _ _ _
      rw [pev_derivPoly, hp]; rfl
    · show pev _ _ * _ = psi _ _ _
      rw [pev_derivPoly, hp]; rfl

/-- Derivative of `κ(‖v‖) ⟨c, v⟩` along a line. -/
lemma hasDerivAt_line_mul (p : ℕ) (v u c : Fin d → ℝ) :
    HasDerivAt (fun t : ℝ => psi (p + 1) 0 (norm (v + t • u)) * dot c (v + t • u))
      (-(1 / (2 * (p : ℝ) + 1)) * psi p 0 (norm v) * dot v u * dot c v + psi (p + 1) 0 (norm v) * dot c u) 0 := by
  have h1 := hasDerivAt_line p v u
  have h2 : HasDerivAt (fun t : ℝ => dot c (v + t • u)) (dot c u) 0 := by
    have : HasDerivAt (fun t : ℝ => dot c v + t * dot c u) (1 * dot c u) 0 :=
      ((hasDerivAt_id (0 : ℝ)).mul_const _).const_add _
    refine (this.congr_deriv (one_mul _)).congr_of_eventuallyEq (Eventually.of_forall fun t => ?_)
    show dot c (v + t • u) = _
    rw [dot_comm, dot_add_left, dot_smul_left, dot_comm v, dot_comm u]
  refine (h1.mul h2).congr_deriv ?_
  simp

lemma dd_idDD {m : Par d} {u0 u1 : Fin d → ℝ} {q : Poly ℚ} (hq : q.toPoly * X ^ 1 = P m.p 1)
    {a : Bool} {k' : MK d} (h : (if a then mkDDDD m u0 u1 else mkDDDD m u1 u0) = .ok k') (x0 x1 : Fin d → ℝ) :
    HasDerivAt (fun t : ℝ => slice (.idDD m u1 (!a) q) a x0 x1 (pt a x0 x1 + t • u0)) (k'.eval x0 x1) 0 := by
  have hk' : ∃ A B : Poly ℚ, (k' = if a then .ddDD m u0 u1 A B else .ddDD m u1 u0 A B) ∧
      A.toPoly * X ^ 1 = -P m.p 1 ∧ B.toPoly * X ^ 2 = P m.p 2 + A.toPoly := by
    cases a
    · obtain ⟨A, B, e, h1, h2⟩ := mkDDDD_ok (show mkDDDD m u1 u0 = .ok k' from h)
      exact ⟨A, B, e, h1, h2⟩
    · obtain ⟨A, B, e, h1, h2⟩ := mkDDDD_ok (show mkDDDD m u0 u1 = .ok k' from h)
      exact ⟨A, B, e, h1, h2⟩
  obtain ⟨A, B, e, hA, hB⟩ := hk'
  obtain ⟨p, hp, hA, hB⟩ := quot_two hA hB
  obtain ⟨p', hp', hq⟩ := quot_one hq
  obtain rfl : p' = p + 1 := by omega
  have c3 : (2 * ((p + 1 : ℕ) : ℚ) + 1) = 2 * p + 3 := by push_cast; ring
  rw [c3] at hq
  have hd := hasDerivAt_line_mul p (sdiff m.s x0 x1) (fun i => sgn a * m.s i * u0 i) (fun i => sgn a * m.s i * u1 i)
  have hd2 := hd.const_mul ((1 : ℝ) / (2 * p + 3))
  have eval_k' : k'.eval x0 x1 = (dot (fun i => m.s i * u0 i) (fun i => m.s i * u1 i) * pev A (norm (sdiff m.s x0 x1)) -
      dot (fun i => m.s i * u0 i) (sdiff m.s x0 x1) * dot (fun i => m.s i * u1 i) (sdiff m.s x0 x1) *
        pev B (norm (sdiff m.s x0 x1))) * Real.exp (-norm (sdiff m.s x0 x1)) := by
    rw [e]
    cases a
    · show (dot _ _ * _ - dot _ _ * dot _ _ * _) * _ = _
      rw [dot_comm (fun i => m.s i * u1 i) (fun i => m.s i * u0 i)]
      ring
    · rfl
  have sd : ∀ w z : Fin d → ℝ, dot (fun i => sgn a * m.s i * w i) z = sgn a * dot (fun i => m.s i * w i) z := by
    intro w z
    rw [← dot_smul_left]
    congr 1
    funext i; simp; ring
  have ss : sgn a * sgn a = 1 := by cases a <;> simp [sgn]
  refine (hd2.congr_deriv ?_).congr_of_eventuallyEq (Eventually.of_forall fun t => ?_)
  · rw [eval_k', sub_mul, mul_assoc (dot _ _), pev_quot hA, mul_assoc (dot _ _ * dot _ _),
      pev_quot (q := B) (c := 1 / (2 * (p : ℚ) + 3) * (1 / (2 * (p : ℚ) + 1))) (by rw [hB, C_mul]; ring),
      dot_comm (sdiff _ _ _), sd, sd, sd, dot_comm _ (fun i => sgn a * m.s i * u0 i), sd]
    push_cast
    linear_combination (1 / (2 * (p : ℝ) + 3) * (psi (p + 1) 0 (norm (sdiff m.s x0 x1)) *
      dot (fun i => m.s i * u0 i) (fun i => m.s i * u1 i)) - 1 / (2 * (p : ℝ) + 3) * (1 / (2 * (p : ℝ) + 1)) *
      psi p 0 (norm (sdiff m.s x0 x1)) * dot (fun i => m.s i * u0 i) (sdiff m.s x0 x1) *
      dot (fun i => m.s i * u1 i) (sdiff m.s x0 x1)) * ss
  · have key : ∀ v : Fin d → ℝ, pev q (norm v) * Real.exp (-norm v) * dot (dirDD m u1 (!a)) v =
        1 / (2 * (p : ℝ) + 3) * (psi (p + 1) 0 (norm v) * dot (fun i => sgn a * m.s i * u1 i) v) := by
      intro v
      rw [pev_quot (c := -(1 / (2 * (p : ℚ) + 3))) (by rw [hq, C_neg])]
      have : dirDD m u1 (!a) = (-1 : ℝ) • (fun i => sgn a * m.s i * u1 i) := by
        funext i; cases a <;> simp [dirDD, sgn]
      rw [this, dot_smul_left]
      push_cast
      ring
    beta_reduce
    rw [← slice_sdiff]
    cases a
    · exact key _
    · exact key _

/-- C24: operators applied to a Matérn kernel or to a kernel obtained from it evaluate to the mathematical derivative
with respect to the chosen argument, at every pair of points if the total order does not exceed `2p`, and at all pairs of
distinct points in any case. -/
theorem matern_derivative {m : Par d} {n : ℕ} {k k' : MK d} {L : DOp d} {a : Bool} (hk : Built m n k)
    (h : apply L a k = .ok k') (x0 x1 : Fin d → ℝ)
    (hs : n + L.order ≤ 2 * m.p ∨ ((∀ i, m.s i ≠ 0) ∧ x0 ≠ x1)) :
    OpAt L (if a then fun x => k.eval x x1 else fun x => k.eval x0 x) (if a then x0 else x1) (k'.eval x0 x1) := by
  obtain ⟨hv, ho, hp⟩ := hk.valid
  show OpAt L (slice k a x0 x1) (pt a x0 x1) _
  have hdd : ∀ u : Fin d → ℝ, applyDD u a k = .ok k' →
      HasDerivAt (fun t : ℝ => slice k a x0 x1 (pt a x0 x1 + t • u)) (k'.eval x0 x1) 0 := by
    clear h
    intro u h
    by_cases hd : d = 1
    · subst hd
      exact dd_univariate hv h x0 x1
    · cases k with
      | matern m => exact dd_matern h x0 x1
      | idDD m u' r q =>
        rw [applyDD, if_neg hd, if_neg hd] at h
        split_ifs at h with h1 h2
        · obtain ⟨rfl, h1⟩ := h1
          have : r = false := by simpa using h1
          subst this
          exact dd_idDD (a := true) hv h x0 x1
        · obtain ⟨h1, h2⟩ := h2
          have h1 : a = false := by simpa using h1
          subst h1
          subst h2
          exact dd_idDD (a := false) hv h x0 x1
      | idWL m w r q => exact absurd hv.1 hd
      | ddDD => cases h
      | uniDDDD => cases h
      | wlWL => cases h
      | ddWL => cases h
  have hwl : ∀ (w u : Fin d → ℝ) (i : Fin d), u i = 1 → applyWL w a k = .ok k' → k'.ord = n + L.order →
      ∃ (D1 : ℝ → ℝ) (D2 : ℝ),
      (∀ᶠ t in 𝓝 (0 : ℝ), HasDerivAt (fun t : ℝ => slice k a x0 x1 (pt a x0 x1 + t • u)) (D1 t) t) ∧
      HasDerivAt D1 D2 0 ∧ k'.eval x0 x1 = w i * D2 := by
    intro w u i hu h hord
    have hd := (applyWL_inv h).1
    subst hd
    have hi : i = 0 := Subsingleton.elim _ _
    subst hi
    refine wl_univariate hv h x0 x1 u hu ?_
    rcases hs with hs | ⟨hs, hx⟩
    · exact Or.inl (by rw [hp, hord]; exact hs)
    · right
      rw [hp]
      refine mul_ne_zero (hs 0) ?_
      intro h0
      apply hx
      funext i
      have : i = 0 := Subsingleton.elim _ _
      subst this
      linarith
  cases L with
  | dd u => exact hdd u h
  | wl w =>
    have hd := (applyWL_inv h).1
    have hord : k'.ord = n + (DOp.wl w).order := by rw [(applyWL_inv h).2.2.1, ho]; rfl
    subst hd
    obtain ⟨D1, D2, h1, h2, h3⟩ := hwl w (Pi.single 0 1) 0 (by simp) h hord
    refine ⟨fun _ => D1, fun _ => D2, ?_, fun _ => h2, by rw [Fin.sum_univ_one]; exact h3⟩
    intro i
    have hi : i = 0 := Subsingleton.elim _ _
    subst hi
    exact h1
  | pd n' =>
    rcases applyPD_inv h with ⟨rfl, rfl⟩ | ⟨rfl, _, h⟩ | ⟨rfl, hd, h⟩
    · show k'.eval x0 x1 = _
      cases a <;> rfl
    · exact hdd (fun _ => 1) h
    · have hord : k'.ord = n + (DOp.pd 2 : DOp d).order := by rw [(applyWL_inv h).2.2.1, ho]; rfl
      subst hd
      obtain ⟨D1, D2, h1, h2, h3⟩ := hwl (fun _ => 1) 1 0 rfl h hord
      rw [one_mul] at h3
      exact ⟨D1, h1, h3 ▸ h2⟩

/-- C24: for directional derivatives the smoothness condition holds whenever the code returns a kernel. -/
theorem matern_directional {m : Par d} {n : ℕ} {k k' : MK d} {u : Fin d → ℝ} {a : Bool} (hk : Built m n k)
    (h : apply (.dd u) a k = .ok k') (x0 x1 : Fin d → ℝ) :
    HasDerivAt (fun t : ℝ => if a then k.eval (x0 + t • u) x1 else k.eval x0 (x1 + t • u)) (k'.eval x0 x1) 0 := by
  obtain ⟨hv, ho, hp⟩ := hk.valid
  have hi := applyDD_inv hv h
  have := matern_derivative hk h x0 x1 (Or.inl (by show n + 1 ≤ _; rw [← ho, ← hp, ← hi.2.1]; exact hi.2.2.2))
  cases a <;> exact this

/-- Non-vacuity: a Matérn-5/2 kernel (`p = 2`) in three dimensions is differentiated once in each argument, and in one
dimension up to twice in each argument. -/
example (u0 u1 : Fin 3 → ℝ) (w : Fin 1 → ℝ) :
    (∃ k, Built (⟨2, fun _ => 2⟩ : Par 3) (0 + 1 + 1) k) ∧ (∃ k, Built (⟨2, fun _ => 2⟩ : Par 1) (0 + 2 + 2) k) ∧
    (0 + 2 + 2 ≤ 2 * (⟨2, fun _ => 2⟩ : Par 1).p) := by
  refine ⟨?_, ?_, by decide⟩
  · obtain ⟨q, hq⟩ := (div_one_ok_iff 2).mpr (by decide)
    obtain ⟨k, hk⟩ := (mkDDDD_ok_iff (⟨2, fun _ => 2⟩ : Par 3) u0 u1).mpr le_rfl
    refine ⟨k, .step (.dd u0) true (.step (k' := .idDD ⟨2, fun _ => 2⟩ u1 false q) (.dd u1) false .base ?_) ?_⟩
    · show mkIdDD _ _ _ = _
      unfold mkIdDD
      rw [hq]; rfl
    · show applyDD u0 true (MK.idDD _ u1 false q) = _
      rw [applyDD, if_pos (by simp), if_neg (by decide), hk]
  · exact ⟨_, .step (.wl w) true (.step (.wl w) false .base rfl) rfl⟩

/-- C24: the value computed for `x1 = None` is the value on the diagonal. -/
theorem matern_evalNone {m : Par d} {n : ℕ} {k : MK d} (hk : Built m n k) (x : Fin d → ℝ) :
    k.evalNone = k.eval x x := by
  have hv : ∀ s : Fin d → ℝ, sdiff s x x = 0 := fun s => by funext i; simp [sdiff]
  have hn : norm (0 : Fin d → ℝ) = 0 := by simp [norm]
  have hd : ∀ a : Fin d → ℝ, dot a 0 = 0 := fun a => by simp [dot]
  have hh : ∀ q : Poly ℚ, (toReal q).coeffs.headI = pev q 0 := by
    intro q
    unfold pev
    rw [eval_eq_toPoly_eval, ← coeff_zero_eq_eval_zero, coeff_toPoly]
    cases h : (toReal q).coeffs with
    | nil => exact absurd h (toReal q).ne
    | cons c l => rfl
  cases k <;> simp [MK.evalNone, MK.eval, hv, hn, hd, hh]

/-- Operators by their effect. -/
inductive Core (d : ℕ)
  | id
  | dd (u : Fin d → ℝ)
  | wl (w : Fin d → ℝ)

/-- Effect of an operator. -/
def DOp.core : DOp d → Option (Core d)
  | .dd u => some (.dd u)
  | .wl w => some (.wl w)
  | .pd 0 => some .id
  | .pd 1 => some (.dd fun _ => 1)
  | .pd 2 => some (.wl fun _ => 1)
  | .pd _ => none

/-- Application by effect. -/
def applyCore (a : Bool) (k : MK d) : Core d → Except Err (MK d)
  | .id => .ok k
  | .dd u => applyDD u a k
  | .wl w => applyWL w a k

lemma apply_core {L : DOp d} {a : Bool} {k k' : MK d} (h : apply L a k = .ok k') :
    ∃ c, L.core = some c ∧ applyCore a k c = .ok k' := by
  cases L with
  | dd u => exact ⟨_, rfl, h⟩
  | wl w => exact ⟨_, rfl, h⟩
  | pd n =>
    rcases applyPD_inv h with ⟨rfl, rfl⟩ | ⟨rfl, _, h⟩ | ⟨rfl, _, h⟩
    · exact ⟨_, rfl, rfl⟩
    · exact ⟨_, rfl, h⟩
    · exact ⟨_, rfl, h⟩

lemma bind_ok_inv {α β : Type} {x : Except Err α} {f : α → Except Err β} {b : β} (h : (x >>= f) = .ok b) :
    ∃ a, x = .ok a ∧ f a = .ok b := by
  cases x with
  | error e => cases h
  | ok a => exact ⟨a, rfl, h⟩

lemma core_commute (m : Par d) (c0 c1 : Core d) {a b k01 k10 : MK d} (ha : applyCore true (.matern m) c0 = .ok a)
    (h01 : applyCore false a c1 = .ok k01) (hb : applyCore false (.matern m) c1 = .ok b)
    (h10 : applyCore true b c0 = .ok k10) : k01 = k10 := by
  have inj : ∀ {x : Except Err (MK d)}, x = .ok k01 → x = .ok k10 → k01 = k10 := by
    intro x h h'
    rw [h] at h'
    cases h'; rfl
  cases c0 with
  | id =>
    cases ha
    cases h10
    exact inj h01 hb
  | dd u0 =>
    obtain ⟨q, rfl, -⟩ := mkIdDD_ok (show mkIdDD m u0 true = .ok a from ha)
    cases c1 with
    | id =>
      cases hb
      cases h01
      rw [show applyCore true (MK.matern m) (.dd u0) = .ok k10 from h10] at ha
      cases ha; rfl
    | dd u1 =>
      obtain ⟨q, rfl, -⟩ := mkIdDD_ok (show mkIdDD m u1 false = .ok b from hb)
      simp [applyCore, applyDD] at h01 h10
      exact inj h01 h10
    | wl w1 =>
      obtain ⟨hd, q, rfl, -⟩ := mkIdWL_ok (show mkIdWL m w1 false = .ok b from by
        simp only [applyCore, applyWL] at hb
        split_ifs at hb
        exact hb)
      simp [applyCore, applyDD] at h10
      simp [applyCore, applyWL, hd] at h01
      exact inj h01 h10
  | wl w0 =>
    obtain ⟨hd, q, rfl, -⟩ := mkIdWL_ok (show mkIdWL m w0 true = .ok a from by
      simp only [applyCore, applyWL] at ha
      split_ifs at ha
      exact ha)
    cases c1 with
    | id =>
      cases hb
      cases h01
      rw [show applyCore true (MK.matern m) (.wl w0) = .ok k10 from h10] at ha
      cases ha; rfl
    | dd u1 =>
      obtain ⟨q, rfl, -⟩ := mkIdDD_ok (show mkIdDD m u1 false = .ok b from hb)
      simp [applyCore, applyDD] at h01
      simp [applyCore, applyWL, hd] at h10
      exact inj h01 h10
    | wl w1 =>
      obtain ⟨hd, q, rfl, -⟩ := mkIdWL_ok (show mkIdWL m w1 false = .ok b from by
        simp only [applyCore, applyWL] at hb
        split_ifs at hb
        exact hb)
      simp [applyCore, applyWL, hd] at h01 h10
      exact inj h01 h10

/-- C24: the order in which operators are applied to the two arguments does not matter. -/
theorem matern_commute (m : Par d) (L0 L1 : DOp d) (k01 k10 : MK d)
    (h01 : (apply L0 true (.matern m) >>= fun k => apply L1 false k) = .ok k01)
    (h10 : (apply L1 false (.matern m) >>= fun k => apply L0 true k) = .ok k10) : k01 = k10 := by
  obtain ⟨a, ha, h01⟩ := bind_ok_inv h01
  obtain ⟨b, hb, h10⟩ := bind_ok_inv h10
  obtain ⟨c0, e0, ha⟩ := apply_core ha
  obtain ⟨c1, e1, h01⟩ := apply_core h01
  obtain ⟨c1', e1', hb⟩ := apply_core hb
  obtain ⟨c0', e0', h10⟩ := apply_core h10
  obtain rfl : c1 = c1' := Option.some.inj (e1.symm.trans e1')
  obtain rfl : c0 = c0' := Option.some.inj (e0.symm.trans e0')
  exact core_commute m c0 c1 ha h01 hb h10

/-- C24 is violated for Laplacians of kernels that are not smooth enough: for `p = 0` the code returns a kernel for
the Laplacian in the first argument, although the Matérn kernel is not even once differentiable there. -/
theorem matern_wl_violated (s w : Fin 1 → ℝ) (hs : s 0 ≠ 0) :
    (∃ k', apply (.wl w) true (.matern ⟨0, s⟩) = .ok k') ∧
    ∀ x y, ¬OpAt (.wl w) (fun x0 => (MK.matern ⟨0, s⟩).eval x0 x) x y := by
  refine ⟨⟨_, rfl⟩, ?_⟩
  rintro x y ⟨D1, D2, h1, -, -⟩
  have h := (h1 0).self_of_nhds
  apply not_differentiableAt_phi 0
  have e : phi 0 (2 * 0) = (fun t : ℝ => (MK.matern ⟨0, s⟩).eval (x + t • Pi.single (0 : Fin 1) 1) x) ∘ fun t => t / s 0 := by
    funext t
    show _ = (MK.matern ⟨0, s⟩).eval _ _
    rw [eval_univariate (show (MK.matern ⟨0, s⟩).Valid from trivial)]
    show _ = 1 * phi 0 0 _
    rw [one_mul]
    congr 1
    show t = s 0 * _
    simp
    field_simp
  rw [e]
  refine DifferentiableAt.comp 0 ?_ (by fun_prop)
  rw [zero_div]
  exact h.differentiableAt

/-- C24 is violated for the Laplacian in both arguments with `p = 1`: the code returns a kernel, although the
Laplacian in one argument is not differentiable with respect to the other. -/
theorem matern_wl_wl_violated (s w w' : Fin 1 → ℝ) (hs : s 0 ≠ 0) (hw : w' 0 ≠ 0) :
    ∃ k k', apply (.wl w') false (.matern ⟨1, s⟩) = .ok k ∧ apply (.wl w) true k = .ok k' ∧
    ∀ x y, ¬OpAt (.wl w) (fun x0 => k.eval x0 x) x y := by
  refine ⟨_, _, rfl, rfl, ?_⟩
  rintro x y ⟨D1, D2, h1, -, -⟩
  have h := (h1 0).self_of_nhds
  apply not_differentiableAt_phi 1
  set k : MK 1 := .idWL ⟨1, s⟩ w' false (derivPoly 1 2) with hk
  have e : phi 1 (2 * 1) = fun t => (w' 0 * s 0 * s 0)⁻¹ *
      ((fun t : ℝ => k.eval (x + t • Pi.single (0 : Fin 1) 1) x) ∘ fun t => t / s 0) t := by
    funext t
    show _ = _ * k.eval _ _
    rw [eval_univariate (by exact ⟨rfl, rfl⟩)]
    show _ = _ * ((w' 0 * s 0 * s 0) * phi 1 2 _)
    rw [inv_mul_cancel_left₀ (by simp [hs, hw])]
    congr 1
    show t = s 0 * _
    simp
    field_simp
  rw [e]
  refine DifferentiableAt.const_mul (DifferentiableAt.comp 0 ?_ (by fun_prop)) _
  rw [zero_div]
  exact h.differentiableAt

/-- C23 is violated for mixed second derivatives with `p = 1` in several dimensions: the constructor raises
`ValueError`, although the kernel has mixed second derivatives at every pair of points. -/
theorem mkDDDD_violated (s u0 u1 : Fin d → ℝ) (hd : d ≠ 1) :
    ∃ k, apply (.dd u1) false (.matern ⟨1, s⟩) = .ok k ∧ apply (.dd u0) true k = .error .valueError ∧
    ∀ x0 x1, ∃ y, HasDerivAt (fun t : ℝ => k.eval (x0 + t • u0) x1) y 0 := by
  obtain ⟨q, hq⟩ := (div_one_ok_iff 1).mpr le_rfl
  refine ⟨.idDD ⟨1, s⟩ u1 false q, ?_, ?_, ?_⟩
  · show mkIdDD _ _ _ = _
    unfold mkIdDD
    rw [hq]; rfl
  · show applyDD u0 true (MK.idDD (⟨1, s⟩ : Par d) u1 false q) = Except.error Err.valueError
    rw [applyDD, if_pos (by simp), if_neg hd]
    cases h : mkDDDD (⟨1, s⟩ : Par d) u0 u1 with
    | ok k =>
      have := (mkDDDD_ok_iff _ _ _).mp ⟨k, h⟩
      simp at this
    | error e =>
      unfold mkDDDD at h
      cases ha : divMono (derivPoly 1 1).neg 1 with
      | error e' => rw [ha] at h; cases h; rw [divMono_error ha]
      | ok A =>
        rw [ha] at h
        have h : (divMono ((derivPoly 1 2).add A) 2 >>= fun b => Except.ok (MK.ddDD (⟨1, s⟩ : Par d) u0 u1 A b)) =
          .error e := h
        cases hb : divMono ((derivPoly 1 2).add A) 2 with
        | error e' => rw [hb] at h; cases h; rw [divMono_error hb]
        | ok B => rw [hb] at h; cases h
  · intro x0 x1
    have hq1 := quot_one (divMono_mul hq)
    obtain ⟨p, hp, hq1⟩ := hq1
    obtain rfl : p = 0 := by omega
    set v := sdiff s x0 x1 with hv
    set u : Fin d → ℝ := fun i => sgn true * s i * u0 i with hu
    set c := dirDD ⟨1, s⟩ u1 false with hc
    have e : ∀ t : ℝ, (MK.idDD ⟨1, s⟩ u1 false q).eval (x0 + t • u0) x1 =
        -(psi 0 0 (norm (v + t • u)) * dot c (v + t • u)) := by
      intro t
      show pev q (norm (sdiff s (x0 + t • u0) x1)) * Real.exp (-norm (sdiff s (x0 + t • u0) x1)) *
        dot c (sdiff s (x0 + t • u0) x1) = _
      have := slice_sdiff s x0 x1 u0 true t
      rw [if_pos rfl] at this
      rw [this, pev_quot (c := -(1 / (2 * ((0 : ℕ) : ℚ) + 1))) (by rw [hq1, C_neg])]
      push_cast
      ring
    have hlin : HasDerivAt (fun t : ℝ => dot c (v + t • u)) (dot c u) 0 := by
      have : HasDerivAt (fun t : ℝ => dot c v + t * dot c u) (1 * dot c u) 0 :=
        ((hasDerivAt_id (0 : ℝ)).mul_const _).const_add _
      refine (this.congr_deriv (one_mul _)).congr_of_eventuallyEq (Eventually.of_forall fun t => ?_)
      show dot c (v + t • u) = _
      rw [dot_comm, dot_add_left, dot_smul_left, dot_comm v, dot_comm u]
    suffices h : ∃ y, HasDerivAt (fun t : ℝ => psi 0 0 (norm (v + t • u)) * dot c (v + t • u)) y 0 by
      obtain ⟨y, hy⟩ := h
      exact ⟨-y, hy.neg.congr_of_eventuallyEq (Eventually.of_forall e)⟩
    by_cases h0 : dot v v = 0
    · have hvz : v = 0 := by
        funext i
        have := (Finset.sum_eq_zero_iff_of_nonneg (fun j _ => mul_self_nonneg (v j))).mp h0 i (Finset.mem_univ _)
        exact mul_self_eq_zero.mp this
      have hsc : ∀ t : ℝ, psi 0 0 (norm (v + t • u)) * dot c (v + t • u) = t * (psi 0 0 (norm (t • u)) * dot c u) := by
        intro t
        rw [hvz, zero_add, dot_comm, dot_smul_left, dot_comm]; ring
      refine ⟨psi 0 0 (norm ((0 : ℝ) • u)) * dot c u, ?_⟩
      have hcont : ContinuousAt (fun t : ℝ => psi 0 0 (norm (t • u)) * dot c u) 0 := by
        apply Continuous.continuousAt
        refine ((continuous_psi 0 0).comp ?_).mul continuous_const
        unfold norm
        fun_prop
      rw [hasDerivAt_iff_tendsto_slope_zero]
      refine (hcont.tendsto.mono_left nhdsWithin_le_nhds).congr' ?_
      filter_upwards [self_mem_nhdsWithin] with t ht
      have ht : t ≠ 0 := ht
      rw [zero_add, hsc, hsc, zero_mul, sub_zero, smul_eq_mul]
      field_simp
    · have hpos : 0 < dot v v := lt_of_le_of_ne (dot_self_nonneg v) (Ne.symm h0)
      have h1 : HasDerivAt (fun t : ℝ => dot (v + t • u) (v + t • u)) (2 * dot v u) 0 := by
        have : HasDerivAt (fun t : ℝ => dot v v + 2 * t * dot v u + t ^ 2 * dot u u)
            (0 + 2 * 1 * dot v u + ((2 : ℕ) * (0 : ℝ) ^ 1 * 1) * dot u u) 0 :=
          (((hasDerivAt_const (0 : ℝ) (dot v v)).add (((hasDerivAt_id (0 : ℝ)).const_mul 2).mul_const _))).add
            (((hasDerivAt_id (0 : ℝ)).pow 2).mul_const _)
        refine (this.congr_deriv (by simp)).congr_of_eventuallyEq ?_
        exact Eventually.of_forall fun t => dot_line v u t
      have h2 := (hasDerivAt_psi 0 0 (Real.sqrt (dot (v + (0 : ℝ) • u) (v + (0 : ℝ) • u)))).comp 0
        (h1.sqrt (by rw [zero_smul, add_zero]; exact hpos.ne'))
      have h3 := h2.congr_of_eventuallyEq (f₁ := fun t : ℝ => psi 0 0 (norm (v + t • u)))
        (Eventually.of_forall fun t => by
          show psi 0 0 (norm _) = psi 0 0 _
          rw [norm_eq_sqrt_dot])
      exact ⟨_, h3.mul hlin⟩

end LinPDE.Matern
