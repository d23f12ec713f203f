import Verif.Galerkin.Props

/-!
# Covariances of two different projections
-/

namespace LinPDE.Galerkin
open LinPDE.Fem MeasureTheory
open scoped InnerProductSpace
variable {P Q : Proj} {k : ℝ → ℝ → ℝ}

/-- The matrix of the quadrature: rows for the first argument of the kernel. -/
lemma projectionCov_coef (hP : Good P) (hQ : Good Q) (F : Feature k) :
    ∃ M, projectionCov P.basis Q.basis P.normalized Q.normalized k = .ok M ∧
      ∀ i j, M i j = coef P (fun s => coef Q (k s) j) i := by
  obtain ⟨g, zb, hg, hm⟩ := hP
  obtain ⟨g', zb', hg', hm'⟩ := hQ
  have hP : Good P := ⟨g, zb, hg, hm⟩
  have hQ : Good Q := ⟨g', zb', hg', hm'⟩
  refine ⟨_, projectionCov_eq hg hm hg' hm' k P.normalized Q.normalized, fun i j => ?_⟩
  have hlb : ∀ c : Fin Q.basis.len, LB fun s => ∫ t, Q.basis.phi c t * k s t := by
    intro c
    have : (fun s => ∫ t, Q.basis.phi c t * k s t) = fun s => ⟪F.ψ s, ∫ t, Q.basis.phi c t • F.ψ t⟫_ℝ := by
      funext s
      rw [real_inner_comm, ← (phi_weight hQ c.2).integral_inner F.lb]
      simp only [F.eq, F.symm s]
    rw [this]
    exact F.lb.inner_const _
  rw [(projectFunction_eq hP _).2]
  simp only [(projectFunction_eq hQ (k _)).2]
  have hint : ∀ a : Fin P.basis.len, ∫ x, P.basis.phi a x * ∑ c, normalizer Q.basis Q.normalized j c * ∫ t, Q.basis.phi c t * k x t =
      ∑ c, normalizer Q.basis Q.normalized j c * ∫ x, P.basis.phi a x * ∫ t, Q.basis.phi c t * k x t := by
    intro a
    have e : ∀ x, P.basis.phi a x * ∑ c, normalizer Q.basis Q.normalized j c * ∫ t, Q.basis.phi c t * k x t =
        ∑ c, normalizer Q.basis Q.normalized j c * (P.basis.phi a x * ∫ t, Q.basis.phi c t * k x t) := fun x => by
      rw [Finset.mul_sum]
      exact Finset.sum_congr rfl fun c _ => by ring
    simp only [e]
    rw [integral_finsetSum _ fun c _ => (((phi_weight hP a.2).integrable_mul (hlb c)).const_mul _)]
    exact Finset.sum_congr rfl fun c _ => integral_const_mul _ _
  simp only [hint]
  rw [Matrix.mul_assoc]
  simp only [Matrix.mul_apply, Matrix.transpose_apply, Matrix.of_apply]
  refine Finset.sum_congr rfl fun a _ => ?_
  congr 1
  exact Finset.sum_congr rfl fun c _ => by ring

lemma quad_two (hP : Good P) (hQ : Good Q) (F : Feature k) :
    ∃ C, quadCov P Q k false = .ok C ∧ ∀ (i : Fin P.basis.len) (j : Fin Q.basis.len), C i j = coef P (fun s => coef Q (k s) j) i := by
  obtain ⟨M, h1, h2⟩ := projectionCov_coef hP hQ F
  refine ⟨ofMat M, ?_, fun i j => by rw [ofMat_val, h2]⟩
  unfold quadCov
  simp [h1, bind, Except.bind]

lemma quad_two_rev (hP : Good P) (hQ : Good Q) (F : Feature k) :
    ∃ C, quadCov P Q k true = .ok C ∧ ∀ (i : Fin Q.basis.len) (j : Fin P.basis.len), C i j = coef Q (fun s => coef P (k s) j) i := by
  obtain ⟨M, h1, h2⟩ := projectionCov_coef hQ hP F
  refine ⟨ofMat M, ?_, fun i j => by rw [ofMat_val, h2]⟩
  unfold quadCov
  simp [h1, bind, Except.bind]

lemma coef_of_ok (hQ : Good Q) {f : ℝ → ℝ} {v : Fin Q.basis.len → ℝ} (h : projectFunction Q.basis Q.normalized f = .ok v) :
    v = coef Q f := by
  rw [(projectFunction_eq hQ f).1] at h
  exact (Except.ok.inj h).symm

/-- C30: the covariance matrix of two (different) projections of a process with a closed-form covariance function exists; its
rows belong to the projection applied in the first argument of the kernel and its columns to the one applied in the second:
projecting with `Q` in argument 1 first and then with `P` gives the `P`-projection of the `Q`-projections of `k(x, ·)`, and
projecting with `Q` in argument 0 first and then with `P` gives the `Q`-projection of the `P`-projections of `k(x, ·)`. -/
theorem two_projections (hP : Good P) (hQ : Good Q) {K0 : K} (hK : Valid K0) (hb : (∃ f, K0 = .base f) ∨ ∃ l, K0 = .matern32 l)
    {κ : ℝ → ℝ → ℝ} (hκ : ∀ x y, K0.eval x y = .ok (κ x y)) :
    (∃ c C, projK Q K0 true = .ok c ∧ projPV P c = .ok C ∧ ∀ (v : ℝ → Fin Q.basis.len → ℝ) (j : Fin Q.basis.len)
      (w : Fin P.basis.len → ℝ), (∀ x, projectFunction Q.basis Q.normalized (κ x) = .ok (v x)) →
      projectFunction P.basis P.normalized (fun x => v x j) = .ok w → ∀ i : Fin P.basis.len, C i j = w i) ∧
    ∃ c C, projK Q K0 false = .ok c ∧ projPV P c = .ok C ∧ ∀ (v : ℝ → Fin P.basis.len → ℝ) (j : Fin P.basis.len)
      (w : Fin Q.basis.len → ℝ), (∀ x, projectFunction P.basis P.normalized (κ x) = .ok (v x)) →
      projectFunction Q.basis Q.normalized (fun x => v x j) = .ok w → ∀ i : Fin Q.basis.len, C i j = w i := by
  have hden := den_of_eval hK hκ
  obtain ⟨F⟩ := (sound K0 hK).feature
  rw [hden] at F
  obtain ⟨C, h1, h2⟩ := quad_two hP hQ F
  obtain ⟨D, h3, h4⟩ := quad_two_rev hP hQ F
  have key : ∀ r, ∃ c, projK Q K0 (!r) = .ok c ∧ projPV P c = quadCov P Q κ r := by
    intro r
    rcases hb with ⟨f, rfl⟩ | ⟨l, rfl⟩
    · refine ⟨_, rfl, ?_⟩
      rw [projPV, Bool.not_not]
      have e : (fun x t => val ((K.base f).eval x t)) = κ := by funext x t; rw [hκ]; rfl
      rw [e]
    · refine ⟨_, rfl, ?_⟩
      rw [projPV, Bool.not_not]
      have e : matern32K l = κ := by
        funext x t
        have := hκ x t
        rw [K.eval] at this
        exact Except.ok.inj this
      rw [e]
  constructor
  · obtain ⟨c, hc, hp⟩ := key false
    refine ⟨c, C, hc, by rw [hp, h1], fun v j w hv hw i => ?_⟩
    rw [h2, coef_of_ok hP hw]
    simp only [coef_of_ok hQ (hv _)]
  · obtain ⟨c, hc, hp⟩ := key true
    refine ⟨c, D, hc, by rw [hp, h3], fun v j w hv hw i => ?_⟩
    rw [h4, coef_of_ok hQ hw]
    simp only [coef_of_ok hP (hv _)]

/-- Non-vacuity: a normalised and an unnormalised projection of a Matérn-3/2 process. -/
example : Valid (.matern32 1) ∧ Good ⟨0, 0, hat, true⟩ ∧ Good ⟨1, 1, hat, false⟩ := ⟨one_pos, hat_good true, hat_good false⟩

end LinPDE.Galerkin
