import Verif.Normal.Model
import Verif.Block.CholExists

/-! # Properties of Normal conditioning (C09) -/

namespace LinPDE.Normal
open Matrix

variable {n m : ℕ}

lemma choSolve_eq (chol : Chol) (hc : CholOK chol) {k : ℕ} (G : Matrix (Fin m) (Fin m) ℝ) (hG : G.PosDef)
    (B : Matrix (Fin m) (Fin k) ℝ) : choSolve (chol G) B = G⁻¹ * B := by
  unfold choSolve
  conv_rhs => rw [← hc G hG, Matrix.mul_inv_rev]
  rw [Matrix.mul_assoc]

lemma posDef_symm {G : Matrix (Fin m) (Fin m) ℝ} (h : G.PosDef) : Gᵀ = G := by
  have := h.isHermitian
  rwa [Matrix.IsHermitian, conjTranspose_eq_transpose_of_trivial] at this

lemma posDef_det {G : Matrix (Fin m) (Fin m) ℝ} (h : G.PosDef) : IsUnit G.det :=
  (Matrix.isUnit_iff_isUnit_det _).mp h.isUnit

lemma inv_symm {G : Matrix (Fin m) (Fin m) ℝ} (h : Gᵀ = G) : G⁻¹ᵀ = G⁻¹ := by
  rw [Matrix.transpose_nonsing_inv, h]

lemma update_eq (chol : Chol) (hc : CholOK chol) (prior : Gauss n) (pred : Gauss m)
    (C : Matrix (Fin m) (Fin n) ℝ) (y : Fin m → ℝ) (hG : pred.cov.PosDef) :
    update chol prior pred C y = { mean := prior.mean + (Cᵀ * pred.cov⁻¹) *ᵥ (y - pred.mean),
                                   cov := prior.cov - Cᵀ * (pred.cov⁻¹ * C) } := by
  unfold update
  simp only [choSolve_eq chol hc _ hG, Matrix.transpose_mul, inv_symm (posDef_symm hG), Matrix.transpose_transpose]

lemma conditionMatrix_eq (chol : Chol) (hc : CholOK chol) (prior : Gauss n) (hs : prior.covᵀ = prior.cov)
    (A : Matrix (Fin m) (Fin n) ℝ) (y : Fin m → ℝ) (noise : Option (Gauss m))
    (hG : (A * prior.cov * Aᵀ + noise.elim 0 Gauss.cov).PosDef) :
    conditionMatrix chol prior A y noise =
      { mean := prior.mean + (prior.cov * Aᵀ * (A * prior.cov * Aᵀ + noise.elim 0 Gauss.cov)⁻¹) *ᵥ
          (y - A *ᵥ prior.mean - noise.elim 0 Gauss.mean),
        cov := prior.cov - prior.cov * Aᵀ * (A * prior.cov * Aᵀ + noise.elim 0 Gauss.cov)⁻¹ * A * prior.cov } := by
  unfold conditionMatrix
  have hp : (addNoise (⟨A *ᵥ prior.mean, (A * prior.cov) * Aᵀ⟩ : Gauss m) noise) =
      ⟨A *ᵥ prior.mean + noise.elim 0 Gauss.mean, A * prior.cov * Aᵀ + noise.elim 0 Gauss.cov⟩ := by
    cases noise <;> simp [addNoise]
  simp only
  rw [hp, update_eq chol hc _ _ _ _ hG]
  simp only [Matrix.transpose_mul, hs, Matrix.mul_assoc, sub_add_eq_sub_sub]

/-- C09: the code computes gain, mean and covariance of the Gaussian posterior. -/
theorem condition_eq (chol : Chol) (hc : CholOK chol) (prior : Gauss n) (hs : prior.covᵀ = prior.cov)
    (c : Call n) (hsup : c.Supported) (hG : (c.obs.G prior).PosDef) :
    condition chol prior c = .ok
      { mean := prior.mean + (prior.cov * c.obs.Aᵀ * (c.obs.G prior)⁻¹) *ᵥ (c.obs.y - c.obs.A *ᵥ prior.mean - c.obs.b),
        cov := prior.cov - prior.cov * c.obs.Aᵀ * (c.obs.G prior)⁻¹ * c.obs.A * prior.cov } := by
  cases c with
  | noTransform y noise =>
    have e : update chol prior (addNoise prior noise) prior.cov y = conditionMatrix chol prior 1 y noise := by
      simp [conditionMatrix]
    exact congrArg Except.ok (e.trans (conditionMatrix_eq chol hc prior hs 1 y noise hG))
  | vector a y noise =>
    cases noise with
    | none => exact hsup.elim
    | some v =>
      obtain ⟨b, v⟩ := v
      exact congrArg Except.ok (conditionMatrix_eq chol hc prior hs (Matrix.of fun (_ : Fin 1) j => a j) (fun _ => y)
        (some ⟨fun _ => b, Matrix.of fun _ _ => v⟩) hG)
  | matrix m A y noise =>
    exact congrArg Except.ok (conditionMatrix_eq chol hc prior hs A y noise hG)

/-- C09: a transform vector without noise is refused. -/
theorem condition_vector_no_noise (chol : Chol) (prior : Gauss n) (a : Fin n → ℝ) (y : ℝ) :
    condition chol prior (.vector a y none) = .error .typeError := rfl

/-! ### Bayes' rule -/

/-- Bayes' rule data for one observation: prior precision, noise precision. -/
structure Setup (p : Gauss n) (o : Obs n) : Prop where
  prior : p.cov.PosDef
  noise : o.Λ.PosDef

section
variable {p : Gauss n} {o : Obs n}

/-- Posterior precision. -/
noncomputable def prec (p : Gauss n) (o : Obs n) : Matrix (Fin n) (Fin n) ℝ := p.cov⁻¹ + o.Aᵀ * o.Λ⁻¹ * o.A

lemma Setup.G_posDef (h : Setup p o) : (o.G p).PosDef := by
  have h1 : (o.A * p.cov * o.Aᵀ).PosSemidef := by
    have := h.prior.posSemidef.mul_mul_conjTranspose_same o.A
    rwa [conjTranspose_eq_transpose_of_trivial] at this
  exact h.noise.posSemidef_add h1

lemma Setup.prec_posDef (h : Setup p o) : (prec p o).PosDef := by
  have h1 : (o.Aᵀ * o.Λ⁻¹ * o.A).PosSemidef := by
    have := h.noise.inv.posSemidef.conjTranspose_mul_mul_same o.A
    rwa [conjTranspose_eq_transpose_of_trivial] at this
  exact h.prior.inv.add_posSemidef h1

lemma unit_of_posDef {k : ℕ} {M : Matrix (Fin k) (Fin k) ℝ} (h : M.PosDef) : IsUnit M := h.isUnit

lemma Setup.cov_eq (h : Setup p o) :
    p.cov - p.cov * o.Aᵀ * (o.G p)⁻¹ * o.A * p.cov = (prec p o)⁻¹ := by
  have hw := Matrix.add_mul_mul_inv_eq_sub p.cov⁻¹ o.Aᵀ o.Λ⁻¹ o.A h.prior.inv.isUnit h.noise.inv.isUnit (by
    rw [Matrix.nonsing_inv_nonsing_inv _ (posDef_det h.noise), Matrix.nonsing_inv_nonsing_inv _ (posDef_det h.prior),
      add_comm]
    exact h.G_posDef.isUnit)
  rw [Matrix.nonsing_inv_nonsing_inv _ (posDef_det h.noise), Matrix.nonsing_inv_nonsing_inv _ (posDef_det h.prior)] at hw
  rw [prec, hw, Obs.G, add_comm (o.A * p.cov * o.Aᵀ)]

lemma Setup.gain_eq (h : Setup p o) : p.cov * o.Aᵀ * (o.G p)⁻¹ = (prec p o)⁻¹ * (o.Aᵀ * o.Λ⁻¹) := by
  have h1 : prec p o * (p.cov * o.Aᵀ) = o.Aᵀ * o.Λ⁻¹ * o.G p := by
    rw [prec, Obs.G, Matrix.add_mul, Matrix.mul_add, ← Matrix.mul_assoc p.cov⁻¹,
      Matrix.nonsing_inv_mul _ (posDef_det h.prior), Matrix.one_mul,
      Matrix.mul_assoc o.Aᵀ o.Λ⁻¹ o.Λ, Matrix.nonsing_inv_mul _ (posDef_det h.noise), Matrix.mul_one, add_comm]
    simp only [Matrix.mul_assoc]
  have h2 : p.cov * o.Aᵀ = (prec p o)⁻¹ * (o.Aᵀ * o.Λ⁻¹ * o.G p) := by
    rw [← h1, ← Matrix.mul_assoc, Matrix.nonsing_inv_mul _ (posDef_det h.prec_posDef), Matrix.one_mul]
  rw [h2, Matrix.mul_assoc, Matrix.mul_assoc, Matrix.mul_nonsing_inv _ (posDef_det h.G_posDef), Matrix.mul_one]

end

/-- C09, information form: posterior precision is prior precision plus `Aᵀ Λ⁻¹ A`, and
`precision * mean = prior precision * prior mean + Aᵀ Λ⁻¹ (y - b)`. -/
theorem information_form (chol : Chol) (hc : CholOK chol) (p : Gauss n) (c : Call n) (hsup : c.Supported)
    (h : Setup p c.obs) :
    ∃ q, condition chol p c = .ok q ∧ q.cov.PosDef ∧
      q.cov⁻¹ = p.cov⁻¹ + c.obs.Aᵀ * c.obs.Λ⁻¹ * c.obs.A ∧
      q.cov⁻¹ *ᵥ q.mean = p.cov⁻¹ *ᵥ p.mean + (c.obs.Aᵀ * c.obs.Λ⁻¹) *ᵥ (c.obs.y - c.obs.b) := by
  refine ⟨_, condition_eq chol hc p (posDef_symm h.prior) c hsup h.G_posDef, ?_, ?_, ?_⟩
  · simp only [h.cov_eq]; exact h.prec_posDef.inv
  · simp only [h.cov_eq]; exact Matrix.nonsing_inv_nonsing_inv _ (posDef_det h.prec_posDef)
  · simp only [h.cov_eq]
    rw [h.gain_eq, Matrix.nonsing_inv_nonsing_inv _ (posDef_det h.prec_posDef), Matrix.mulVec_add, Matrix.mulVec_mulVec,
      ← Matrix.mul_assoc, Matrix.mul_nonsing_inv _ (posDef_det h.prec_posDef), Matrix.one_mul]
    have : prec p c.obs *ᵥ p.mean = p.cov⁻¹ *ᵥ p.mean + (c.obs.Aᵀ * c.obs.Λ⁻¹) *ᵥ (c.obs.A *ᵥ p.mean) := by
      rw [prec, Matrix.add_mulVec, Matrix.mulVec_mulVec]
    rw [this, add_assoc, ← Matrix.mulVec_add]
    congr 2
    abel

/-- Quadratic form `vᵀ M v`. -/
def quad {k : ℕ} (M : Matrix (Fin k) (Fin k) ℝ) (v : Fin k → ℝ) : ℝ := v ⬝ᵥ (M *ᵥ v)

lemma dot_symm' {k : ℕ} (G : Matrix (Fin k) (Fin k) ℝ) (h : Gᵀ = G) (a b : Fin k → ℝ) :
    a ⬝ᵥ (G *ᵥ b) = b ⬝ᵥ (G *ᵥ a) := by
  rw [Matrix.dotProduct_mulVec, ← Matrix.mulVec_transpose, h, dotProduct_comm]

lemma quad_sub {k : ℕ} (M : Matrix (Fin k) (Fin k) ℝ) (h : Mᵀ = M) (u v : Fin k → ℝ) :
    quad M (u - v) = quad M u - 2 * (u ⬝ᵥ (M *ᵥ v)) + quad M v := by
  unfold quad
  rw [Matrix.mulVec_sub, sub_dotProduct, dotProduct_sub, dotProduct_sub, dot_symm' M h v u]
  ring

lemma quad_mulVec {k j : ℕ} (M : Matrix (Fin k) (Fin k) ℝ) (A : Matrix (Fin k) (Fin j) ℝ) (x : Fin j → ℝ) :
    quad M (A *ᵥ x) = quad (Aᵀ * M * A) x := by
  unfold quad
  rw [← Matrix.mulVec_mulVec, ← Matrix.mulVec_mulVec, dotProduct_comm, Matrix.dotProduct_mulVec,
    ← Matrix.mulVec_transpose, dotProduct_comm]

/-- Negative twice the log of the joint density of `x` and `y`, up to the normalising constant. -/
noncomputable def energy (p : Gauss n) (o : Obs n) (x : Fin n → ℝ) : ℝ :=
  quad p.cov⁻¹ (x - p.mean) + quad o.Λ⁻¹ (o.y - o.b - o.A *ᵥ x)

/-- Completing the square. -/
lemma complete_square (p : Gauss n) (o : Obs n) (h : Setup p o) (μ : Fin n → ℝ)
    (hμ : prec p o *ᵥ μ = p.cov⁻¹ *ᵥ p.mean + (o.Aᵀ * o.Λ⁻¹) *ᵥ (o.y - o.b)) (x : Fin n → ℝ) :
    energy p o x = quad (prec p o) (x - μ) + (quad p.cov⁻¹ p.mean + quad o.Λ⁻¹ (o.y - o.b) - quad (prec p o) μ) := by
  have s1 := inv_symm (posDef_symm h.prior)
  have s2 := inv_symm (posDef_symm h.noise)
  have s3 := posDef_symm h.prec_posDef
  unfold energy
  rw [quad_sub _ s1, quad_sub _ s2, quad_sub _ s3, hμ, dotProduct_add, quad_mulVec]
  have e1 : quad (prec p o) x = quad p.cov⁻¹ x + quad (o.Aᵀ * o.Λ⁻¹ * o.A) x := by
    unfold quad prec; rw [Matrix.add_mulVec, dotProduct_add]
  have e2 : (o.y - o.b) ⬝ᵥ (o.Λ⁻¹ *ᵥ (o.A *ᵥ x)) = x ⬝ᵥ ((o.Aᵀ * o.Λ⁻¹) *ᵥ (o.y - o.b)) := by
    rw [dot_symm' _ s2, ← Matrix.mulVec_mulVec, Matrix.dotProduct_mulVec x, Matrix.vecMul_transpose]
  rw [e1, e2]
  ring

/-- C09, Bayes' rule for the densities: prior times likelihood equals posterior times evidence — for
the exponents and for the normalising determinants. -/
theorem bayes_rule (chol : Chol) (hc : CholOK chol) (p : Gauss n) (c : Call n) (hsup : c.Supported)
    (h : Setup p c.obs) :
    ∃ q, condition chol p c = .ok q ∧
      (∀ x, quad p.cov⁻¹ (x - p.mean) + quad c.obs.Λ⁻¹ (c.obs.y - c.obs.b - c.obs.A *ᵥ x) =
        quad q.cov⁻¹ (x - q.mean) + quad (c.obs.G p)⁻¹ (c.obs.y - c.obs.b - c.obs.A *ᵥ p.mean)) ∧
      p.cov.det * c.obs.Λ.det = q.cov.det * (c.obs.G p).det := by
  obtain ⟨q, hq, hpd, h1, h2⟩ := information_form chol hc p c hsup h
  have hqe := condition_eq chol hc p (posDef_symm h.prior) c hsup h.G_posDef
  rw [hq] at hqe
  have hq' := Except.ok.inj hqe
  generalize c.obs = o at *
  have hprec : q.cov⁻¹ = prec p o := h1
  have hqm : prec p o *ᵥ q.mean = p.cov⁻¹ *ᵥ p.mean + (o.Aᵀ * o.Λ⁻¹) *ᵥ (o.y - o.b) := by rw [← hprec]; exact h2
  have hcs := complete_square p o h q.mean hqm
  refine ⟨q, hq, fun x => ?_, ?_⟩
  · -- evaluate the constant at the prior mean
    have hx := hcs x
    have hm := hcs p.mean
    have hdiff : q.mean - p.mean = (prec p o)⁻¹ *ᵥ ((o.Aᵀ * o.Λ⁻¹) *ᵥ (o.y - o.b - o.A *ᵥ p.mean)) := by
      rw [hq', h.gain_eq]
      simp only [add_sub_cancel_left]
      rw [← Matrix.mulVec_mulVec, sub_right_comm]
    have hw := Matrix.add_mul_mul_inv_eq_sub o.Λ o.A p.cov o.Aᵀ h.noise.isUnit h.prior.isUnit h.prec_posDef.isUnit
    have hG : (o.G p)⁻¹ = o.Λ⁻¹ - o.Λ⁻¹ * o.A * (prec p o)⁻¹ * o.Aᵀ * o.Λ⁻¹ := by
      rw [Obs.G, add_comm, hw, prec]
    have hc0 : quad (prec p o) (p.mean - q.mean) =
        quad (o.Λ⁻¹ * o.A * (prec p o)⁻¹ * o.Aᵀ * o.Λ⁻¹) (o.y - o.b - o.A *ᵥ p.mean) := by
      have e0 : quad (prec p o) (p.mean - q.mean) = quad (prec p o) (q.mean - p.mean) := by
        unfold quad
        rw [← neg_sub q.mean p.mean, Matrix.mulVec_neg, dotProduct_neg, neg_dotProduct, neg_neg]
      rw [e0, hdiff, Matrix.mulVec_mulVec, quad_mulVec]
      congr 1
      have s2 := inv_symm (posDef_symm h.noise)
      have s3 := inv_symm (posDef_symm h.prec_posDef)
      rw [Matrix.transpose_mul, Matrix.transpose_mul, s2, s3, Matrix.transpose_transpose]
      rw [Matrix.mul_assoc _ (prec p o)⁻¹ (prec p o), Matrix.nonsing_inv_mul _ (posDef_det h.prec_posDef), Matrix.mul_one]
      simp only [Matrix.mul_assoc]
    have hquadG : quad (o.G p)⁻¹ (o.y - o.b - o.A *ᵥ p.mean) = quad o.Λ⁻¹ (o.y - o.b - o.A *ᵥ p.mean) -
        quad (o.Λ⁻¹ * o.A * (prec p o)⁻¹ * o.Aᵀ * o.Λ⁻¹) (o.y - o.b - o.A *ᵥ p.mean) := by
      rw [hG]; unfold quad; rw [Matrix.sub_mulVec, dotProduct_sub]
    have hz : quad p.cov⁻¹ (p.mean - p.mean) = 0 := by unfold quad; simp
    rw [hc0] at hm
    unfold energy at hx hm
    rw [hz, zero_add] at hm
    rw [hx, hprec, hquadG]
    linarith
  · have e1 : (o.G p).det = o.Λ.det * (1 + o.Aᵀ * o.Λ⁻¹ * (o.A * p.cov)).det := by
      rw [Obs.G, add_comm, Matrix.det_add_mul _ _ (posDef_det h.noise)]
    have e2 : (1 + o.Aᵀ * o.Λ⁻¹ * (o.A * p.cov)) = prec p o * p.cov := by
      rw [prec, Matrix.add_mul, Matrix.nonsing_inv_mul _ (posDef_det h.prior)]
      simp only [Matrix.mul_assoc]
    have e3 : q.cov.det * (prec p o).det = 1 := by
      rw [← hprec, ← Matrix.det_mul, Matrix.mul_nonsing_inv _ (posDef_det hpd), Matrix.det_one]
    rw [e1, e2, Matrix.det_mul]
    calc p.cov.det * o.Λ.det = p.cov.det * o.Λ.det * (q.cov.det * (prec p o).det) := by rw [e3, mul_one]
      _ = _ := by ring

/-- C09: the posterior mean is the unique minimiser of the regularised least-squares loss. -/
theorem mean_minimises (chol : Chol) (hc : CholOK chol) (p : Gauss n) (c : Call n) (hsup : c.Supported)
    (h : Setup p c.obs) :
    ∃ q, condition chol p c = .ok q ∧ ∀ x, x ≠ q.mean →
      energy p c.obs q.mean < energy p c.obs x := by
  obtain ⟨q, hq, hpd, -, -⟩ := information_form chol hc p c hsup h
  obtain ⟨q', hq', hb, -⟩ := bayes_rule chol hc p c hsup h
  obtain rfl : q = q' := by rw [hq] at hq'; exact Except.ok.inj hq'
  refine ⟨q, hq, fun x hx => ?_⟩
  unfold energy
  rw [hb, hb]
  have h0 : quad q.cov⁻¹ (q.mean - q.mean) = 0 := by unfold quad; simp
  have h1 : 0 < quad q.cov⁻¹ (x - q.mean) := by
    have := hpd.inv.dotProduct_mulVec_pos (sub_ne_zero.mpr hx)
    simpa [quad] using this
  linarith

/-- C09: without noise the observed combinations are reproduced exactly: `A mean = y` and `A cov = 0`. -/
theorem noise_free (chol : Chol) (hc : CholOK chol) (p : Gauss n) (hs : p.covᵀ = p.cov) (A : Matrix (Fin m) (Fin n) ℝ)
    (y : Fin m → ℝ) (hG : (A * p.cov * Aᵀ).PosDef) :
    ∃ q, condition chol p (.matrix m A y none) = .ok q ∧ A *ᵥ q.mean = y ∧ A * q.cov = 0 := by
  have e := conditionMatrix_eq chol hc p hs A y none (by simpa using hG)
  simp only [Option.elim, add_zero, sub_zero] at e
  refine ⟨_, congrArg Except.ok e, ?_, ?_⟩
  · show A *ᵥ (_ + _) = _
    rw [Matrix.mulVec_add, Matrix.mulVec_mulVec, ← Matrix.mul_assoc, ← Matrix.mul_assoc,
      Matrix.mul_nonsing_inv _ (posDef_det hG), Matrix.one_mulVec]
    abel
  · show A * (_ - _) = _
    rw [Matrix.mul_sub, ← Matrix.mul_assoc, ← Matrix.mul_assoc, ← Matrix.mul_assoc, ← Matrix.mul_assoc,
      Matrix.mul_nonsing_inv _ (posDef_det hG), Matrix.one_mul, sub_self]

/-- C09: conditioning on two independent observations does not depend on the order. -/
theorem condition_comm (chol : Chol) (hc : CholOK chol) (p : Gauss n) (c d : Call n) (hcs : c.Supported)
    (hds : d.Supported) (hp : p.cov.PosDef) (h1 : c.obs.Λ.PosDef) (h2 : d.obs.Λ.PosDef) :
    ∃ q, (condition chol p c >>= fun r => condition chol r d) = .ok q ∧
      (condition chol p d >>= fun r => condition chol r c) = .ok q := by
  obtain ⟨q1, e1, p1, i1, m1⟩ := information_form chol hc p c hcs ⟨hp, h1⟩
  obtain ⟨q2, e2, p2, i2, m2⟩ := information_form chol hc p d hds ⟨hp, h2⟩
  obtain ⟨q12, e12, p12, i12, m12⟩ := information_form chol hc q1 d hds ⟨p1, h2⟩
  obtain ⟨q21, e21, p21, i21, m21⟩ := information_form chol hc q2 c hcs ⟨p2, h1⟩
  refine ⟨q12, by rw [e1]; exact e12, ?_⟩
  have hcov : q21.cov = q12.cov := by
    have : q21.cov⁻¹ = q12.cov⁻¹ := by rw [i21, i12, i1, i2]; abel
    rw [← Matrix.nonsing_inv_nonsing_inv _ (posDef_det p21), this, Matrix.nonsing_inv_nonsing_inv _ (posDef_det p12)]
  have hmean : q21.mean = q12.mean := by
    have : q12.cov⁻¹ *ᵥ q21.mean = q12.cov⁻¹ *ᵥ q12.mean := by
      rw [m12, ← hcov, m21, m1, m2]; abel
    have h3 := congrArg (fun v => q12.cov *ᵥ v) this
    simp only [Matrix.mulVec_mulVec, Matrix.mul_nonsing_inv _ (posDef_det p12), Matrix.one_mulVec] at h3
    exact h3
  have : q21 = q12 := by cases q21; cases q12; simp_all
  rw [e2, ← this]
  exact e21

/-- Non-vacuity: a factorisation as assumed exists. -/
theorem exists_chol : ∃ chol : Chol, CholOK chol := by
  classical
  refine ⟨fun {m} M => if h : M.PosDef then (Block.exists_chol_fin M h).choose else 0, ?_⟩
  intro m M hM
  simp only [hM, dif_pos]
  exact (Block.exists_chol_fin M hM).choose_spec.1

/-- Non-vacuity: two-dimensional prior, one noisy observation of a combination. -/
example : Setup (n := 2) ⟨0, 1⟩ (Call.vector ![1, 2] 3 (some (1, 4))).obs :=
  ⟨Matrix.PosDef.one, by
    have : (Call.vector ![1, 2] 3 (some (1, 4))).obs.Λ = (4 : ℝ) • (1 : Matrix (Fin 1) (Fin 1) ℝ) := by
      ext i j; fin_cases i; fin_cases j; simp [Call.obs]
    rw [this]; exact Matrix.PosDef.one.smul (by norm_num)⟩

end LinPDE.Normal
