import Verif.PosDef.Deriv
import Verif.Matern.Props
import Verif.ExpQuad.Props
import Verif.Tensor.Props
import Mathlib.Analysis.SpecialFunctions.PolynomialExp

/-!
# C57: the closed-form kernels are covariance functions

`PSD k` says that `k` is symmetric and that every Gram matrix of `k` is positive semidefinite.
-/

namespace LinPDE.PosDef
open Filter Topology MeasureTheory
open LinPDE.Matern (MK Par psi sq sdiff phi DOp)

variable {d : ℕ}

/-! ## Matérn kernels -/

lemma psi_zero_zero (r : ℝ) : psi 0 0 r = Real.exp (-r) := by
  rw [← Matern.pev_derivPoly]
  have : Matern.pev (Matern.derivPoly 0 0) r = 1 := by
    rw [Matern.pev_eq]
    simp [Matern.derivPoly, Matern.maternPoly, Matern.maternCoeff, Polys.Poly.toPoly, Polys.Poly.ofCoeffs]
  rw [this, one_mul]

lemma tendsto_sq (p : ℕ) : Tendsto (sq p) atTop (𝓝 0) := by
  have h1 : Tendsto (fun r => psi p 0 r) atTop (𝓝 0) := by
    have := (Matern.R p 0).tendsto_div_exp_atTop
    refine this.congr fun r => ?_
    unfold psi
    rw [Real.exp_neg]
    rfl
  exact h1.comp Real.tendsto_sqrt_atTop

/-- A Matérn profile is a mixture of shifted profiles of the next lower order. -/
lemma sq_mixture (p : ℕ) : (0 : ℝ) < 1 / (2 * (2 * (p : ℝ) + 1)) ∧
    (∀ s, 0 ≤ s → IntegrableOn (fun w => 1 / (2 * (2 * (p : ℝ) + 1)) * sq p (s + w)) (Set.Ioi 0)) ∧
    ∀ s, 0 ≤ s → sq (p + 1) s = ∫ w in Set.Ioi (0 : ℝ), 1 / (2 * (2 * (p : ℝ) + 1)) * sq p (s + w) := by
  have c0 : (0 : ℝ) < 1 / (2 * (2 * (p : ℝ) + 1)) := by positivity
  have hd : ∀ s, 0 ≤ s → ∀ w ∈ Set.Ioi (0 : ℝ),
      HasDerivAt (fun w => sq (p + 1) (s + w)) (-(1 / (2 * (2 * (p : ℝ) + 1))) * sq p (s + w)) w := by
    intro s hs w hw
    have hw : 0 < w := hw
    exact (Matern.hasDerivAt_sq_pos p (show 0 < s + w by linarith)).comp_const_add s w
  have hct : ∀ p s, ContinuousWithinAt (fun w => sq p (s + w)) (Set.Ici 0) 0 := fun p s =>
    ((Matern.continuous_sq p).comp (continuous_const.add continuous_id)).continuousWithinAt
  have ht : ∀ p s, Tendsto (fun w => sq p (s + w)) atTop (𝓝 0) := fun p s =>
    (tendsto_sq p).comp (tendsto_atTop_add_const_left _ s tendsto_id)
  have hnn : ∀ p s, 0 ≤ s → 0 ≤ sq p s := by
    intro p
    induction p with
    | zero =>
      intro s _
      exact (Real.exp_pos _).le.trans (psi_zero_zero _).ge
    | succ p ih =>
      intro s hs
      have hmono : AntitoneOn (fun w => sq (p + 1) (s + w)) (Set.Ici 0) := by
        refine antitoneOn_of_deriv_nonpos (convex_Ici 0)
          ((Matern.continuous_sq (p + 1)).comp (continuous_const.add continuous_id)).continuousOn ?_ ?_
        · rw [interior_Ici]
          intro w hw
          have hw : 0 < w := hw
          exact ((Matern.hasDerivAt_sq_pos p (show 0 < s + w by linarith)).comp_const_add s w).differentiableAt.differentiableWithinAt
        · rw [interior_Ici]
          intro w hw
          have hw : 0 < w := hw
          rw [((Matern.hasDerivAt_sq_pos p (show 0 < s + w by linarith)).comp_const_add s w).deriv]
          have : (0 : ℝ) < 1 / (2 * (2 * (p : ℝ) + 1)) := by positivity
          have := mul_nonneg this.le (ih (s + w) (by linarith))
          linarith
      have h1 : ∀ w, 0 ≤ w → sq (p + 1) (s + w) ≤ sq (p + 1) (s + 0) := fun w hw =>
        hmono (Set.mem_Ici.mpr le_rfl) (Set.mem_Ici.mpr hw) hw
      rw [add_zero] at h1
      exact le_of_tendsto (ht (p + 1) s) ((eventually_ge_atTop 0).mono h1)
  have hi : ∀ s, 0 ≤ s → IntegrableOn (fun w => -(1 / (2 * (2 * (p : ℝ) + 1))) * sq p (s + w)) (Set.Ioi 0) := fun s hs =>
    integrableOn_Ioi_deriv_of_nonpos (hct _ s) (hd s hs) (fun w hw => by
      have hw : 0 < w := hw
      have := mul_nonneg c0.le (hnn p (s + w) (by linarith))
      linarith) (ht _ s)
  refine ⟨c0, fun s hs => ?_, fun s hs => ?_⟩
  · refine (hi s hs).neg.congr (Eventually.of_forall fun w => ?_)
    simp
  · have := integral_Ioi_of_hasDerivAt_of_tendsto (hct _ s) (hd s hs) (hi s hs) (ht _ s)
    rw [add_zero] at this
    have e : ∀ w, 1 / (2 * (2 * (p : ℝ) + 1)) * sq p (s + w) = -(-(1 / (2 * (2 * (p : ℝ) + 1))) * sq p (s + w)) := fun w => by
      ring
    simp only [e]
    rw [integral_neg, this]
    ring

/-- Matérn profiles of a shifted squared distance. -/
lemma sq_psd (p : ℕ) : ∀ v : ℝ, 0 ≤ v → PSD fun x y : Fin d → ℝ => sq p (dsq x y + v) := by
  induction p with
  | zero =>
    intro v hv
    exact (PSD.expDist hv).congr fun x y => psi_zero_zero _
  | succ p ih =>
    intro v hv
    obtain ⟨c0, hi, hval⟩ := sq_mixture p
    have h1 : PSD fun x y : Fin d → ℝ => ∫ w in Set.Ioi (0 : ℝ), 1 / (2 * (2 * (p : ℝ) + 1)) * sq p (dsq x y + v + w) := by
      refine PSD.integral ((ae_restrict_iff' measurableSet_Ioi).mpr (Eventually.of_forall fun w hw => ?_)) fun x y =>
        hi _ (add_nonneg (dsq_nonneg x y) hv)
      have hw : 0 < w := hw
      refine ((ih (v + w) (by linarith)).smul c0.le).congr fun x y => ?_
      rw [add_assoc]
    exact h1.congr fun x y => hval _ (add_nonneg (dsq_nonneg x y) hv)

lemma matern_eval (m : Par d) (x y : Fin d → ℝ) :
    (MK.matern m).eval x y = sq m.p (dsq (fun i => x i * m.s i) (fun i => y i * m.s i) + 0) := by
  show Matern.pev _ _ * _ = _
  rw [Matern.pev_derivPoly, add_zero]
  unfold Matern.sq Matern.norm dsq Matern.sdiff
  congr 2
  exact Finset.sum_congr rfl fun i _ => by ring

/-- C57: half-integer Matérn kernels of every order, in every dimension and with any scale factors are covariance
functions. -/
theorem matern_psd (m : Par d) : PSD (MK.matern m).eval :=
  (PSD.comp (sq_psd (d := d) m.p 0 le_rfl) fun (x : Fin d → ℝ) i => x i * m.s i).congr fun x y => matern_eval m x y

example : PSD (MK.matern (⟨2, fun i => i.1 + 1⟩ : Par 3)).eval ∧
    (MK.matern (⟨2, fun i => i.1 + 1⟩ : Par 3)).eval 0 0 = 1 := by
  refine ⟨matern_psd _, ?_⟩
  rw [matern_eval]
  simp [dsq, Matern.sq, ← Matern.pev_derivPoly, Matern.pev_eq, Matern.derivPoly, Matern.maternPoly, Matern.maternCoeff,
    Polys.Poly.toPoly, Polys.Poly.ofCoeffs, List.range_succ, Finset.sum_range_succ, Nat.factorial]
  norm_num

/-! ## Derivatives of Matérn kernels -/

lemma neg_dir {g : (Fin d → ℝ) → ℝ} {z u : Fin d → ℝ} {c : ℝ} (h : HasDerivAt (fun t : ℝ => g (z + t • -u)) c 0) :
    HasDerivAt (fun t : ℝ => g (z + t • u)) (-c) 0 := by
  have h1 := HasDerivAt.comp (0 : ℝ) (h₂ := fun t : ℝ => g (z + t • -u)) (by simpa using h) (hasDerivAt_neg (0 : ℝ))
  refine (h1.congr_deriv (by simp)).congr_of_eventuallyEq (Eventually.of_forall fun t => ?_)
  simp [Function.comp]

lemma phi_zero_sq (p : ℕ) (t : ℝ) : phi p 0 t = sq p (t ^ 2) := by
  rw [Matern.phi_zero_abs]
  unfold Matern.sq
  rw [Real.sqrt_sq_eq_abs]

/-- Even derivatives of the profile, with alternating sign. -/
lemma phi_psd (p : ℕ) : ∀ n ≤ p, PSD fun x y : Fin 1 → ℝ => (-1) ^ n * phi p (2 * n) ((x - y) 0) := by
  intro n
  induction n with
  | zero =>
    intro _
    refine (sq_psd (d := 1) p 0 le_rfl).congr fun x y => ?_
    rw [pow_zero, one_mul, mul_zero, phi_zero_sq]
    simp [dsq]
  | succ n ih =>
    intro hn
    have hd : ∀ m, m + 1 ≤ 2 * p → ∀ z : Fin 1 → ℝ,
        HasDerivAt (fun t : ℝ => (-1) ^ n * phi p m ((z + t • (1 : Fin 1 → ℝ)) 0)) ((-1) ^ n * phi p (m + 1) (z 0)) 0 := by
      intro m hm z
      have h1 := (Matern.hasDerivAt_phi p m (z 0) (Or.inl hm)).const_mul ((-1) ^ n)
      have h2 := HasDerivAt.comp_const_add (f := fun y => (-1) ^ n * phi p m y) (z 0) 0 (by simpa using h1)
      exact h2.congr_of_eventuallyEq (Eventually.of_forall fun t => by simp)
    have := PSD.directional (κ := fun z : Fin 1 → ℝ => (-1) ^ n * phi p (2 * n) (z 0))
      (κ2 := fun z : Fin 1 → ℝ => (-1) ^ n * phi p (2 * n + 1 + 1) (z 0)) (u := 1) (ih (by omega))
      ⟨fun z => (-1) ^ n * phi p (2 * n + 1) (z 0), hd _ (by omega), hd _ (by omega)⟩ fun z => by
        have := Matern.continuous_phi p (2 * n + 1 + 1) (by omega)
        fun_prop
    refine this.congr fun x y => ?_
    rw [pow_succ, show 2 * (n + 1) = 2 * n + 1 + 1 by ring]
    ring

lemma matern_stationary (k : MK d) (x y : Fin d → ℝ) : k.eval x y = k.eval (x - y) 0 := by
  have : ∀ s : Fin d → ℝ, Matern.sdiff s x y = Matern.sdiff s (x - y) 0 := fun s => by funext i; simp [Matern.sdiff]
  cases k <;> simp only [MK.eval, this]

lemma continuous_pev (q : Polys.Poly ℚ) : Continuous (Matern.pev q) := by
  have : Matern.pev q = fun r => (q.toPoly.map (algebraMap ℚ ℝ)).eval r := funext fun r => Matern.pev_eq q r
  rw [this]
  exact Polynomial.continuous _

lemma continuous_norm' : Continuous (Matern.norm (d := d)) := by
  unfold Matern.norm
  fun_prop

lemma matern_continuous (k : MK d) : Continuous fun z => k.eval z 0 := by
  have hs : ∀ s : Fin d → ℝ, Continuous fun z => Matern.sdiff s z 0 := fun s => by unfold Matern.sdiff; fun_prop
  have hn : ∀ s : Fin d → ℝ, Continuous fun z => Matern.norm (Matern.sdiff s z 0) := fun s => continuous_norm'.comp (hs s)
  have hp : ∀ q (s : Fin d → ℝ), Continuous fun z => Matern.pev q (Matern.norm (Matern.sdiff s z 0)) := fun q s =>
    (continuous_pev q).comp (hn s)
  have he : ∀ s : Fin d → ℝ, Continuous fun z => Real.exp (-Matern.norm (Matern.sdiff s z 0)) := fun s =>
    Real.continuous_exp.comp (hn s).neg
  have hdot : ∀ a s : Fin d → ℝ, Continuous fun z => Matern.dot a (Matern.sdiff s z 0) := fun a s => by
    unfold Matern.dot Matern.sdiff
    fun_prop
  cases k with
  | matern m => exact (hp _ _).mul (he _)
  | idDD m u r q => exact ((hp _ _).mul (he _)).mul (hdot _ _)
  | ddDD m u0 u1 a b => exact ((continuous_const.mul (hp _ _)).sub (((hdot _ _).mul (hdot _ _)).mul (hp _ _))).mul (he _)
  | uniDDDD m u0 u1 q => exact (continuous_const.mul (hp _ _)).mul (he _)
  | idWL m w r q => exact (continuous_const.mul (he _)).mul (hp _ _)
  | wlWL m w0 w1 q => exact (continuous_const.mul (he _)).mul (hp _ _)
  | ddWL m u w r q => exact ((he _).mul (hp _ _)).mul (hdot _ _)

/-- C57: differentiating both arguments of a Matérn kernel along the same direction gives a covariance function, in
whichever order the arguments are differentiated. -/
theorem matern_directional_psd {m : Par d} {u : Fin d → ℝ} {a : Bool} {k1 k2 : MK d}
    (h1 : Matern.apply (.dd u) a (.matern m) = .ok k1) (h2 : Matern.apply (.dd u) (!a) k1 = .ok k2) : PSD k2.eval := by
  have e1 := Matern.matern_directional Matern.Built.base h1
  have e2 := Matern.matern_directional (Matern.Built.base.step _ _ h1) h2
  have hs : Sec (fun z => (MK.matern m).eval z 0) u (fun z => -k2.eval z 0) := by
    cases a
    · refine ⟨fun z => -k1.eval z 0, fun z => ?_, fun z => ?_⟩
      · refine neg_dir (g := fun z => (MK.matern m).eval z 0) ((e1 z 0).congr_of_eventuallyEq (Eventually.of_forall fun t => ?_))
        simp only [Bool.false_eq_true, if_false]
        rw [matern_stationary _ z]
        congr 1
        module
      · exact ((e2 z 0).neg).congr_of_eventuallyEq (Eventually.of_forall fun t => by simp)
    · refine ⟨fun z => k1.eval z 0, fun z => ?_, fun z => ?_⟩
      · exact (e1 z 0).congr_of_eventuallyEq (Eventually.of_forall fun t => by simp)
      · refine neg_dir (g := fun z => k1.eval z 0) ((e2 z 0).congr_of_eventuallyEq (Eventually.of_forall fun t => ?_))
        simp only [Bool.not_true, Bool.false_eq_true, if_false]
        rw [matern_stationary _ z]
        congr 1
        module
  have := PSD.directional (κ := fun z => (MK.matern m).eval z 0)
    ((matern_psd m).congr fun x y => (matern_stationary _ x y).symm) hs fun z => by
      have := matern_continuous k2
      exact (this.comp (continuous_const.add (continuous_id.smul continuous_const))).neg
  exact this.congr fun x y => by rw [neg_neg, ← matern_stationary]

lemma wl_univariate_psd {m : Par 1} {w : Fin 1 → ℝ} {a : Bool} {k1 k2 : MK 1} (hp : 2 ≤ m.p)
    (h1 : Matern.applyWL w a (.matern m) = .ok k1) (h2 : Matern.applyWL w (!a) k1 = .ok k2) : PSD k2.eval := by
  have e : k2 = .wlWL m w w (Matern.derivPoly m.p 4) := by
    cases a <;> simp [Matern.applyWL, Matern.mkIdWL] at h1 <;> subst h1 <;>
      simp [Matern.applyWL, Matern.mkWLWL] at h2 <;> exact h2.symm
  subst e
  have := ((phi_psd m.p 2 hp).comp fun x : Fin 1 → ℝ => fun _ => m.s 0 * x 0).smul
    (c := w 0 * w 0 * m.s 0 ^ 4) (by nlinarith [mul_nonneg (mul_self_nonneg (w 0)) (sq_nonneg (m.s 0 ^ 2))])
  refine this.congr fun x y => ?_
  rw [Matern.eval_univariate (by exact ⟨rfl, rfl⟩)]
  simp [MK.coef, MK.par, MK.ord, mul_sub]

/-- C57: the same operator applied to both arguments of a Matérn kernel gives a covariance function if the process is
smooth enough (`ν > order`). -/
theorem matern_derivative_psd {m : Par d} {L : DOp d} {a : Bool} {k1 k2 : MK d} (hL : L.order ≤ m.p)
    (h1 : Matern.apply L a (.matern m) = .ok k1) (h2 : Matern.apply L (!a) k1 = .ok k2) : PSD k2.eval := by
  cases L with
  | dd u => exact matern_directional_psd h1 h2
  | wl w =>
    obtain ⟨rfl, -⟩ := Matern.applyWL_inv (show Matern.applyWL w a (.matern m) = .ok k1 from h1)
    exact wl_univariate_psd hL h1 h2
  | pd n =>
    have h2 : Matern.applyPD n (!a) k1 = .ok k2 := h2
    rcases Matern.applyPD_inv (show Matern.applyPD n a (.matern m) = .ok k1 from h1) with ⟨rfl, rfl⟩ | ⟨rfl, hd, e1⟩ | ⟨rfl, hd, e1⟩
    · rcases Matern.applyPD_inv h2 with ⟨-, rfl⟩ | ⟨h, -⟩ | ⟨h, -⟩
      · exact matern_psd m
      · cases h
      · cases h
    · rcases Matern.applyPD_inv h2 with ⟨h, -⟩ | ⟨-, -, e2⟩ | ⟨h, -⟩
      · cases h
      · exact matern_directional_psd (u := fun _ => 1) e1 e2
      · cases h
    · subst hd
      rcases Matern.applyPD_inv h2 with ⟨h, -⟩ | ⟨h, -⟩ | ⟨-, -, e2⟩
      · cases h
      · cases h
      · exact wl_univariate_psd hL e1 e2

/-- Non-vacuity: derivatives of a Matérn-5/2 kernel in three dimensions, second derivatives in one dimension. -/
example (u : Fin 3 → ℝ) (w : Fin 1 → ℝ) :
    (∃ k1 k2, Matern.apply (.dd u) false (.matern ⟨2, fun _ => 2⟩) = .ok k1 ∧ Matern.apply (.dd u) true k1 = .ok k2) ∧
    ∃ k1 k2, Matern.apply (.wl w) false (.matern ⟨2, fun _ => 2⟩) = .ok k1 ∧ Matern.apply (.wl w) true k1 = .ok k2 := by
  constructor
  · obtain ⟨k1, h1⟩ := (Matern.div_one_ok_iff 2).mpr (by norm_num)
    obtain ⟨k2, h2⟩ := (Matern.mkDDDD_ok_iff (⟨2, fun _ => 2⟩ : Par 3) u u).mpr (by norm_num)
    refine ⟨.idDD ⟨2, fun _ => 2⟩ u false k1, k2, ?_, ?_⟩
    · simp [Matern.apply, Matern.applyDD, Matern.mkIdDD, h1]
      rfl
    · simpa [Matern.apply, Matern.applyDD] using h2
  · exact ⟨_, _, rfl, rfl⟩

/-- C57 is violated: the code also returns a closed form for second derivatives in both arguments of a Matérn-3/2 kernel
(which has no fourth derivative); its value on the diagonal is a negative variance. -/
theorem matern_wl_psd_violated (s w : Fin 1 → ℝ) (hs : s 0 ≠ 0) (hw : w 0 ≠ 0) :
    ∃ k1 k2, Matern.apply (.wl w) false (.matern ⟨1, s⟩) = .ok k1 ∧ Matern.apply (.wl w) true k1 = .ok k2 ∧
    (∀ x, k2.eval x x < 0) ∧ ¬PSD k2.eval := by
  refine ⟨_, _, rfl, rfl, ?_⟩
  have key : ∀ x, (MK.wlWL ⟨1, s⟩ w w (Matern.derivPoly 1 4)).eval x x < 0 := by
    intro x
    rw [Matern.eval_univariate (by exact ⟨rfl, rfl⟩)]
    simp only [MK.coef, MK.par, MK.ord, sub_self, mul_zero]
    rw [Matern.phi_of_nonneg le_rfl, ← Matern.pev_derivPoly]
    have : Matern.pev (Matern.derivPoly 1 4) 0 = -3 := by
      have hR : Matern.R 1 0 = 1 + Polynomial.X := by
        simp [Matern.R, Matern.P, Matern.derivPoly, Matern.maternPoly, Matern.maternCoeff, Polys.Poly.toPoly,
          Polys.Poly.ofCoeffs, List.range_succ, Finset.sum_range_succ, Nat.factorial]
      have h := Matern.pev_derivPoly 1 4 0
      rw [neg_zero, Real.exp_zero, mul_one] at h
      rw [h]
      unfold Matern.psi
      rw [Matern.R_succ, Matern.R_succ, Matern.R_succ, Matern.R_succ, hR]
      simp
      norm_num
    rw [this]
    have h1 : 0 < w 0 * w 0 * s 0 ^ 4 := mul_pos (mul_self_pos.mpr hw) (by positivity)
    simp
    linarith
  refine ⟨key, fun h => ?_⟩
  have h1 := h.nonneg 1 (fun _ => 0) (fun _ => 1)
  simp only [Fin.sum_univ_one, one_mul] at h1
  exact absurd h1 (not_le.mpr (key 0))

/-! ## Squared-exponential kernels -/

open LinPDE.ExpQuad (EK)

/-- C57: squared-exponential kernels with any lengthscales are covariance functions. -/
theorem expquad_psd (l : Fin d → ℝ) : PSD (EK.expquad l).eval := by
  refine (PSD.comp (PSD.gauss (d := d) zero_le_one) fun (x : Fin d → ℝ) i => ExpQuad.sf l i * x i).congr fun x y => ?_
  show Real.exp (-ExpQuad.normSq _) = _
  rw [one_mul]
  unfold ExpQuad.normSq dsq
  congr 2
  exact Finset.sum_congr rfl fun i _ => by ring

lemma expquad_stationary (k : EK d) (x y : Fin d → ℝ) : k.eval x y = k.eval (x - y) 0 := by
  cases k <;> simp [EK.eval]

lemma expquad_continuous (k : EK d) : Continuous fun z => k.eval z 0 := by
  cases k <;> simp only [EK.eval, ExpQuad.ek, ExpQuad.evalIdWL, ExpQuad.normSq, Matern.dot] <;> try fun_prop
  split_ifs <;> fun_prop

/-- The second derivative along a direction, from two first derivatives. -/
lemma expquad_sec_dd (l u : Fin d → ℝ) : Sec (fun z => (EK.expquad l).eval z 0) u (fun z => -(EK.ddDD l u u).eval z 0) := by
  have e1 := fun x y => ExpQuad.expquad_derivative (show ExpQuad.apply (.dd u) true (.expquad l) = .ok (.idDD l u true) from rfl) x y
  have e2 := fun x y => ExpQuad.expquad_derivative (show ExpQuad.apply (.dd u) false (.idDD l u true) = .ok (.ddDD l u u) by
    simp [ExpQuad.apply, ExpQuad.applyDD]) x y
  refine ⟨fun z => (EK.idDD l u true).eval z 0, fun z => e1 z 0, fun z => ?_⟩
  have := e2 z 0
  refine neg_dir (g := fun z => (EK.idDD l u true).eval z 0) (HasDerivAt.congr_of_eventuallyEq this (Eventually.of_forall fun t => ?_))
  simp only [Bool.false_eq_true, if_false]
  rw [expquad_stationary _ z]
  congr 1
  module

/-- C57: directional derivatives of both arguments of a squared-exponential kernel, in either order. -/
theorem expquad_directional_psd {l u : Fin d → ℝ} {a : Bool} {k1 k2 : EK d}
    (h1 : ExpQuad.apply (.dd u) a (.expquad l) = .ok k1) (h2 : ExpQuad.apply (.dd u) (!a) k1 = .ok k2) : PSD k2.eval := by
  have e : k2 = .ddDD l u u := by
    cases a <;> simp [ExpQuad.apply, ExpQuad.applyDD] at h1 <;> subst h1 <;>
      simp [ExpQuad.apply, ExpQuad.applyDD] at h2 <;> exact h2.symm
  subst e
  have := PSD.directional (κ := fun z => (EK.expquad l).eval z 0)
    ((expquad_psd l).congr fun x y => (expquad_stationary _ x y).symm) (expquad_sec_dd l u) fun z => by
      exact ((expquad_continuous (EK.ddDD l u u)).comp (continuous_const.add (continuous_id.smul continuous_const))).neg
  exact this.congr fun x y => by rw [neg_neg, ← expquad_stationary]

lemma Sec.neg {g g2 : (Fin d → ℝ) → ℝ} {e : Fin d → ℝ} (h : Sec g (-e) g2) : Sec g e g2 := by
  obtain ⟨g1, h1, h2⟩ := h
  refine ⟨fun z => -g1 z, fun z => neg_dir (h1 z), fun z => ?_⟩
  have := (neg_dir (h2 z)).neg
  rw [neg_neg] at this
  exact this

/-- The second derivative along a coordinate, from a closed form for a Laplacian with one weight. -/
lemma expquad_sec_wl {i : Fin d} {a : Bool} {k k' : EK d} (h : ExpQuad.applyWL (Pi.single i 1) a k = .ok k') :
    Sec (fun z => k.eval z 0) (Pi.single i 1) (fun z => k'.eval z 0) := by
  have hw := fun z => ExpQuad.wl_spec h z 0
  choose D1 D2 h1 h2 h3 using hw
  have e2 : ∀ z, k'.eval z 0 = D2 z i := fun z => by
    rw [h3, Finset.sum_eq_single i]
    · simp
    · intro j _ hj
      simp [hj]
    · simp
  obtain ⟨e, he, hsl⟩ : ∃ e : Fin d → ℝ, (Sec (fun z => k.eval z 0) e (fun z => k'.eval z 0) →
      Sec (fun z => k.eval z 0) (Pi.single i 1) (fun z => k'.eval z 0)) ∧
      ∀ z t, HasDerivAt (fun t : ℝ => k.eval (z + t • e) 0) (D1 z i t) t := by
    cases a
    · refine ⟨-Pi.single i 1, Sec.neg, fun z t => (h1 z i t).congr_of_eventuallyEq (Eventually.of_forall fun s => ?_)⟩
      show k.eval _ _ = k.eval z (0 + s • Pi.single i 1)
      rw [expquad_stationary k z]
      congr 1
      module
    · exact ⟨Pi.single i 1, id, fun z t => h1 z i t⟩
  refine he ⟨fun z => D1 z i 0, fun z => hsl z 0, fun z => ?_⟩
  have e3 : (fun t : ℝ => D1 (z + t • e) i 0) = D1 z i := by
    funext t
    exact (hasDerivAt_shift (g := fun z => k.eval z 0) (g1 := fun z => D1 z i 0) (fun z => hsl z 0) z t).unique (hsl z t)
  rw [e3]
  dsimp only
  rw [e2]
  exact h2 z i

/-- The closed form for two Laplacians is bilinear in the weights. -/
lemma wlWL_bilinear (l w : Fin d → ℝ) (x y : Fin d → ℝ) : (EK.wlWL l w w).eval x y =
    ∑ i, ∑ j, w i * w j * (EK.wlWL l (Pi.single j 1) (Pi.single i 1)).eval x y := by
  let v : Fin d → ℝ := fun i => x i - y i
  let α : Fin d → ℝ := fun i => 4 * ExpQuad.sf l i ^ 4 * v i ^ 2 - 2 * ExpQuad.sf l i ^ 2
  let γ : Fin d → ℝ := fun i => -32 * ExpQuad.sf l i ^ 6 * v i ^ 2 + 8 * ExpQuad.sf l i ^ 4
  have hA : ∀ w : Fin d → ℝ, (∑ i, ExpQuad.sfSq l w i * v i ^ 2) - ExpQuad.trace l w = ∑ i, w i * α i := fun w => by
    unfold ExpQuad.trace
    rw [← Finset.sum_sub_distrib]
    exact Finset.sum_congr rfl fun i _ => by unfold ExpQuad.sfSq ExpQuad.wInv; ring
  have hC : ∀ w0 w1 : Fin d → ℝ, -4 * (∑ i, ExpQuad.sfSq l w0 i * ExpQuad.wInv l w1 i * v i ^ 2) +
      2 * ∑ i, ExpQuad.wInv l w0 i * ExpQuad.wInv l w1 i = ∑ i, w0 i * w1 i * γ i := fun w0 w1 => by
    simp only [Finset.mul_sum]
    rw [← Finset.sum_add_distrib]
    exact Finset.sum_congr rfl fun i _ => by unfold ExpQuad.sfSq ExpQuad.wInv; ring
  have he : ∀ w0 w1 : Fin d → ℝ, (EK.wlWL l w0 w1).eval x y =
      ((∑ i, w0 i * α i) * (∑ i, w1 i * α i) + ∑ i, w0 i * w1 i * γ i) * Real.exp (-ExpQuad.normSq fun i => ExpQuad.sf l i * v i) := by
    intro w0 w1
    rw [← hA, ← hA, ← hC]
    simp only [EK.eval]
    ring
  simp only [he, Pi.single_apply, ite_mul, one_mul, zero_mul, Finset.sum_ite_eq', Finset.mem_univ, if_true]
  rw [Finset.sum_mul_sum, ← Finset.sum_add_distrib, Finset.sum_mul]
  refine Finset.sum_congr rfl fun i _ => ?_
  simp only [add_mul, mul_add, Finset.sum_add_distrib, ite_mul, zero_mul, mul_ite, mul_zero, Finset.sum_ite_eq',
    Finset.mem_univ, if_true]
  rw [Finset.sum_mul]
  congr 1
  · exact Finset.sum_congr rfl fun j _ => by ring
  · ring

/-- C57: the same operator applied to the second and then to the first argument of a squared-exponential kernel. -/
theorem expquad_derivative_psd {l : Fin d → ℝ} {L : DOp d} {k1 k2 : EK d}
    (h1 : ExpQuad.apply L false (.expquad l) = .ok k1) (h2 : ExpQuad.apply L true k1 = .ok k2) : PSD k2.eval := by
  have wl : ∀ w : Fin d → ℝ, ∀ k1 k2, ExpQuad.applyWL w false (.expquad l) = .ok k1 → ExpQuad.applyWL w true k1 = .ok k2 →
      PSD k2.eval := by
    intro w k1 k2 h1 h2
    have e : k2 = .wlWL l w w := by
      simp [ExpQuad.applyWL] at h1
      subst h1
      simp [ExpQuad.applyWL] at h2
      exact h2.symm
    subst e
    have := PSD.laplacian (κ := fun z => (EK.expquad l).eval z 0) (e := fun i => Pi.single i 1)
      (D2 := fun i z => (EK.idWL l (Pi.single i 1) false).eval z 0)
      (D4 := fun i j z => (EK.wlWL l (Pi.single j 1) (Pi.single i 1)).eval z 0) w
      ((expquad_psd l).congr fun x y => (expquad_stationary _ x y).symm)
      (fun i => expquad_sec_wl (a := false) rfl)
      (fun i j => expquad_sec_wl (a := true) (by simp [ExpQuad.applyWL])) fun i j => expquad_continuous _
    refine this.congr fun x y => ?_
    rw [wlWL_bilinear]
    exact Finset.sum_congr rfl fun i _ => Finset.sum_congr rfl fun j _ => by rw [expquad_stationary]
  cases L with
  | dd u => exact expquad_directional_psd (a := false) h1 h2
  | wl w => exact wl w _ _ h1 h2
  | pd n =>
    have h2 : ExpQuad.applyPD n true k1 = .ok k2 := h2
    rcases ExpQuad.applyPD_inv (show ExpQuad.applyPD n false (.expquad l) = .ok k1 from h1) with
      ⟨rfl, rfl⟩ | ⟨rfl, hd, e1⟩ | ⟨rfl, hd, e1⟩
    · rcases ExpQuad.applyPD_inv h2 with ⟨-, rfl⟩ | ⟨h, -⟩ | ⟨h, -⟩
      · exact expquad_psd l
      · cases h
      · cases h
    · rcases ExpQuad.applyPD_inv h2 with ⟨h, -⟩ | ⟨-, -, e2⟩ | ⟨h, -⟩
      · cases h
      · exact expquad_directional_psd (a := false) (u := fun _ => 1) e1 e2
      · cases h
    · rcases ExpQuad.applyPD_inv h2 with ⟨h, -⟩ | ⟨h, -⟩ | ⟨-, -, e2⟩
      · cases h
      · cases h
      · exact wl _ _ _ e1 e2

/-- Non-vacuity: a weighted Laplacian in two dimensions. -/
example : ∃ k1 k2, ExpQuad.apply (.wl ![1, 2]) false (.expquad ![1, 3]) = .ok k1 ∧
    ExpQuad.apply (.wl ![1, 2]) true k1 = .ok k2 ∧ k2 = .wlWL ![1, 3] ![1, 2] ![1, 2] := by
  refine ⟨_, _, rfl, ?_, rfl⟩
  simp [ExpQuad.apply, ExpQuad.applyWL]

/-! ## Tensor products -/

/-- C57: a tensor product of covariance functions is a covariance function. -/
theorem tensor_psd (t : Tensor.TP) (o : List ℕ) (h : ∀ k ∈ t.factors, PSD fun x y => k.ev x y o) :
    PSD fun x y => t.evaluate x (some y) o := by
  have hp : ∀ (n : ℕ) (f : Fin n → List ℝ → List ℝ → ℝ), (∀ i, PSD (f i)) → PSD fun x y => ∏ i, f i x y := by
    intro n
    induction n with
    | zero => exact fun f _ => (PSD.const zero_le_one).congr fun _ _ => by simp
    | succ n ih =>
      intro f hf
      exact ((hf 0).mul (ih (fun i => f i.succ) fun i => hf i.succ)).congr fun x y => by rw [Fin.prod_univ_succ]
  refine (hp t.factors.length (fun i x y => (t.factors.get i).ev (x.getD i 0) (y.getD i 0) o) fun i => ?_).congr
    fun x y => Tensor.evaluate_eq_prod t x y o
  exact PSD.comp (h _ (List.get_mem _ _)) fun x : List ℝ => x.getD i 0

/-- Non-vacuity: a product of two Matérn kernels. -/
example (m m' : Par 1) : PSD fun x y => (⟨⟨[], [], [], fun x y _ => (MK.matern m).eval (fun _ => x) (fun _ => y)⟩,
    [⟨[], [], [], fun x y _ => (MK.matern m').eval (fun _ => x) (fun _ => y)⟩]⟩ : Tensor.TP).evaluate x (some y) [] := by
  refine tensor_psd _ _ fun k hk => ?_
  simp only [Tensor.TP.factors, List.mem_cons, List.not_mem_nil, or_false] at hk
  rcases hk with rfl | rfl
  · exact PSD.comp (matern_psd m) fun x : ℝ => fun _ => x
  · exact PSD.comp (matern_psd m') fun x : ℝ => fun _ => x

end LinPDE.PosDef
