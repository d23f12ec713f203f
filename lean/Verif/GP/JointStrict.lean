import Verif.GP.MessageProps
import Verif.GP.JetKernels

/-! # C71: independent outputs, and what correlated right-hand sides change -/

namespace LinPDE.GP
open Matrix LinPDE.Block

variable {X ι : Type} [DecidableEq ι] {P : ι → Prior X}

/-- No functional is known before anything is measured. -/
def Prior.Nondegenerate (Q : Prior X) : Prop := ∀ L : Q.Λ, Q.cov L L = 0 → L = 0

/-- C71: for a nondegenerate process, functionals have a positive definite covariance matrix exactly if they are linearly
independent. -/
theorem nondegenerate_gram_iff {Q : Prior X} (hQ : Q.Regular) (hs : Q.Nondegenerate) {κ : Type} [Fintype κ] (L : κ → Q.Λ) :
    (Matrix.of fun a b => Q.cov (L a) (L b)).PosDef ↔ ∀ g : κ → ℝ, ∑ a, g a • L a = 0 → ∀ a, g a = 0 := by
  have hq : ∀ a : κ → ℝ, star a ⬝ᵥ ((Matrix.of fun i j => Q.cov (L i) (L j)) *ᵥ a) = Q.cov (∑ i, a i • L i) (∑ i, a i • L i) := by
    intro a
    rw [cov_sum]
    simp only [dotProduct, Matrix.mulVec, of_apply, Finset.mul_sum, Pi.star_apply, star_trivial]
    exact Finset.sum_congr rfl fun i _ => Finset.sum_congr rfl fun j _ => by ring
  refine ⟨fun hp a ha i => ?_, fun hl => ?_⟩
  · by_contra hne
    have := hp.dotProduct_mulVec_pos (x := a) fun h0 => hne (congrFun h0 i)
    rw [hq, ha, ← covBil_apply, map_zero] at this
    simp at this
  · refine Matrix.PosDef.of_dotProduct_mulVec_pos ?_ fun a ha => ?_
    · ext i j
      simp only [conjTranspose_apply, of_apply, star_trivial]
      rw [hQ.symm]
    · rw [hq]
      refine lt_of_le_of_ne (hQ.nonneg _) fun h0 => ha ?_
      funext i
      exact hl a (hs _ h0.symm) i

/-- C71: the process of independent outputs is regular and nondegenerate exactly if all outputs are. -/
theorem indep_nondegenerate_iff [Fintype ι] (h : ∀ i, (P i).Regular) : (indep P).Nondegenerate ↔ ∀ i, (P i).Nondegenerate := by
  refine ⟨fun hs i L h0 => ?_, indep_strict h⟩
  have := hs (onComp P i L) (by rw [cov_onComp, h0])
  rw [← partOf_onComp_same i L, this]
  rfl

/-- C71: independent outputs with nondegenerate kernels can be conditioned on every sequence of batches of linearly independent
functionals of any outputs, with any noise: the conditioned process is the posterior. -/
theorem joint_conditioning [Fintype ι] (h : ∀ i, (P i).Regular) (hs : ∀ i, (P i).Nondegenerate) (e : Env) (he : e.CholOK)
    (b : Batch (indep P)) (l : List (Batch (indep P))) (hl : ∀ g : Idx (b :: l) → ℝ, ∑ a, g a • jL (b :: l) a = 0 → ∀ a, g a = 0) (hN : NoisePSD (b :: l)) :
    ∃ c, run e b l = .ok c ∧ (∀ p, c.mean p = postMean (b :: l) p) ∧ ∀ p q, c.covfunc e p q = .ok (postCov (b :: l) p q) :=
  run_posterior e he (indep_regular h) b l
    (jG_posDef_of_cov _ ((nondegenerate_gram_iff (indep_regular h) ((indep_nondegenerate_iff h).mpr hs) _).mpr hl) hN)

lemma jet_nondegenerate {d : ℕ} {I : Set (Ix d)} {K : Ix d → Pt d → Ix d → Pt d → ℝ} (h : JetKernel I K) (hs : Strict I K) (m : jetF I) :
    (h.prior m).Nondegenerate := by
  intro L h0
  obtain ⟨c, rfl⟩ := lin_surjective h m L
  rw [lin_var h hs m h0, map_zero]

/-! ### Correlated right-hand sides -/

/-- The measurement `u(p) - f(q) = y` of the two white processes. -/
noncomputable def uMinusF (p q : ℕ) (y : ℝ) : Meas twoWhite true false :=
  .equation (n := 1) (fun _ => (white_regular ℕ).ev p) (fun _ => (white_regular ℕ).ev q) fun _ => y

lemma joint_ev_cov (p q p' q' : ℕ) :
    (indep twoWhite).cov (onComp twoWhite true ((white_regular ℕ).ev p) - onComp twoWhite false ((white_regular ℕ).ev q))
      (onComp twoWhite true ((white_regular ℕ).ev p') - onComp twoWhite false ((white_regular ℕ).ev q')) =
    (if p = p' then 1 else 0) + if q = q' then 1 else 0 := by
  rw [cov_equation (P := twoWhite) (by decide), white_ev_cov, white_ev_cov]

/-- One measurement of one number. -/
def one {Y : Type} {Q : Prior Y} (L : Q.Λ) (z : Option ((Fin 1 → ℝ) × Matrix (Fin 1) (Fin 1) ℝ)) (y : ℝ) : Batch Q := ⟨1, fun _ => L, z, fun _ => y⟩

section
variable {Y : Type} {Q : Prior Y} (L L' : Q.Λ) (z z' : Option ((Fin 1 → ℝ) × Matrix (Fin 1) (Fin 1) ℝ)) (y y' : ℝ)

/-- The two indices. -/
def ix0 : Idx [one L z y, one L' z' y'] := ⟨0, (0 : Fin 1)⟩
def ix1 : Idx [one L z y, one L' z' y'] := ⟨1, (0 : Fin 1)⟩

lemma pair_sum (f : Idx [one L z y, one L' z' y'] → ℝ) : ∑ a, f a = f (ix0 L L' z z' y y') + f (ix1 L L' z z' y y') := by
  rw [Fintype.sum_sigma]
  refine (Fin.sum_univ_two (fun x : Fin 2 => ∑ y, f ⟨x, y⟩)).trans ?_
  exact congrArg₂ (· + ·) (Fin.sum_univ_one _) (Fin.sum_univ_one _)

lemma pair_cases (a : Idx [one L z y, one L' z' y']) : a = ix0 L L' z z' y y' ∨ a = ix1 L L' z z' y y' := by
  obtain ⟨⟨p, hp⟩, ⟨r, hr⟩⟩ := a
  have hp' : p < 2 := hp
  interval_cases p
  · have : r < 1 := hr
    interval_cases r
    exact Or.inl rfl
  · have : r < 1 := hr
    interval_cases r
    exact Or.inr rfl

lemma pair00 : jG [one L z y, one L' z' y'] (ix0 L L' z z' y y') (ix0 L L' z z' y y') = Q.cov L L + (one L z y).noiseCov (0 : Fin 1) (0 : Fin 1) := by
  simp [jG, jN, ix0]
  rfl
lemma pair01 : jG [one L z y, one L' z' y'] (ix0 L L' z z' y y') (ix1 L L' z z' y y') = Q.cov L L' := by
  simp [jG, jN, ix0, ix1]
  rfl
lemma pair10 : jG [one L z y, one L' z' y'] (ix1 L L' z z' y y') (ix0 L L' z z' y y') = Q.cov L' L := by
  simp [jG, jN, ix0, ix1]
  rfl
lemma pair11 : jG [one L z y, one L' z' y'] (ix1 L L' z z' y y') (ix1 L L' z z' y y') = Q.cov L' L' + (one L' z' y').noiseCov (0 : Fin 1) (0 : Fin 1) := by
  simp [jG, jN, ix1]
  rfl

/-- Two measurements of one number each: the Gram matrix and the solution of the linear system. -/
lemma pair_post (hs : Q.cov L' L = Q.cov L L') {g₁ g₂ w w' : ℝ} (h1 : Q.cov L L + (one L z y).noiseCov (0 : Fin 1) (0 : Fin 1) = g₁)
    (h2 : Q.cov L' L' + (one L' z' y').noiseCov (0 : Fin 1) (0 : Fin 1) = g₂) (hg : 0 < g₁) (hd : 0 < g₁ * g₂ - Q.cov L L' ^ 2)
    (e1 : g₁ * w + Q.cov L L' * w' = y - L.1 Q.m - (one L z y).bMean (0 : Fin 1))
    (e2 : Q.cov L L' * w + g₂ * w' = y' - L'.1 Q.m - (one L' z' y').bMean (0 : Fin 1)) :
    (jG [one L z y, one L' z' y']).PosDef ∧
    ∀ x, postMean [one L z y, one L' z' y'] x = Q.m.1 x + ((Q.cross L).1 x * w + (Q.cross L').1 x * w') := by
  have hG : (jG [one L z y, one L' z' y']).PosDef := by
    refine Matrix.PosDef.of_dotProduct_mulVec_pos ?_ fun v hv => ?_
    · ext a b
      rw [conjTranspose_apply, star_trivial]
      rcases pair_cases L L' z z' y y' a with rfl | rfl <;> rcases pair_cases L L' z z' y y' b with rfl | rfl <;>
        simp only [pair01, pair10, hs]
    · rw [dotProduct, pair_sum]
      simp only [Pi.star_apply, star_trivial, Matrix.mulVec, dotProduct]
      rw [pair_sum, pair_sum, pair00, pair01, pair10, pair11, h1, h2, hs]
      set p := v (ix0 L L' z z' y y')
      set q := v (ix1 L L' z z' y y')
      have hpq : p ≠ 0 ∨ q ≠ 0 := by
        by_contra hh
        push Not at hh
        refine hv (funext fun a => ?_)
        rcases pair_cases L L' z z' y y' a with rfl | rfl
        · exact hh.1
        · exact hh.2
      have e : g₁ * (p * (g₁ * p + Q.cov L L' * q) + q * (Q.cov L L' * p + g₂ * q)) =
          (g₁ * p + Q.cov L L' * q) ^ 2 + (g₁ * g₂ - Q.cov L L' ^ 2) * q ^ 2 := by ring
      have : 0 < (g₁ * p + Q.cov L L' * q) ^ 2 + (g₁ * g₂ - Q.cov L L' ^ 2) * q ^ 2 := by
        by_cases hq : q = 0
        · rw [hq]
          have hp : p ≠ 0 := hpq.resolve_right (by simpa using hq)
          have : 0 < (g₁ * p) ^ 2 := by positivity
          linarith
        · have : 0 < q ^ 2 := by positivity
          have := mul_pos hd this
          positivity
      rw [← e] at this
      exact (mul_pos_iff_of_pos_left hg).mp this
  refine ⟨hG, fun x => ?_⟩
  set u : Idx [one L z y, one L' z' y'] → ℝ := fun a => if a = ix0 L L' z z' y y' then w else w' with hu
  have hne : ix1 L L' z z' y y' ≠ ix0 L L' z z' y y' := fun h => absurd (congrArg (fun a => a.1.1) h) (by simp [ix0, ix1])
  have hs' : jG [one L z y, one L' z' y'] *ᵥ u = jR [one L z y, one L' z' y'] := by
    funext a
    rw [Matrix.mulVec, dotProduct, pair_sum]
    simp only [hu, if_true, hne, if_false]
    rcases pair_cases L L' z z' y y' a with rfl | rfl
    · rw [pair00, pair01, h1, e1]
      rfl
    · rw [pair10, pair11, h2, hs, e2]
      rfl
  unfold postMean
  rw [← hs', mulVec_mulVec, nonsing_inv_mul _ (jG_unit hG), one_mulVec, pair_sum]
  simp only [hu, if_true, hne, if_false]
  rfl

end

lemma white_cross (p x : ℕ) : ((white ℕ).cross ((white_regular ℕ).ev p)).1 x = if x = p then 1 else 0 := by
  show (if x = p then (1 : ℝ) else 0) = _
  rfl

/-- C71: the right-hand sides of different steps must be uncorrelated.  With `u(0) - f(0) = 1` and `u(1) - f(0) = 1`, the mean of
`u(0)` is `1/3` under the joint process, but `1/2` if `f(0)` enters both steps as separate noise. -/
theorem uncertain_rhs_correlated (e : Env) (he : e.CholOK) :
    ∃ c c', run e (uMinusF 0 0 1).joint [(uMinusF 1 0 1).joint] = .ok c ∧ run e (uMinusF 0 0 1).alone [(uMinusF 1 0 1).alone] = .ok c' ∧
      c.mean (true, 0) = 1 / 3 ∧ c'.mean 0 = 1 / 2 := by
  have hne : true ≠ false := by decide
  have hR := indep_regular twoWhite_regular
  let A (p q : ℕ) : (indep twoWhite).Λ := onComp twoWhite true ((white_regular ℕ).ev p) - onComp twoWhite false ((white_regular ℕ).ev q)
  have h1 := pair_post (A 0 0) (A 1 0) none none 1 1 (hR.symm _ _) (g₁ := 2) (g₂ := 2) (w := 1 / 3) (w' := 1 / 3)
    ((congrArg (· + (0 : ℝ)) (joint_ev_cov 0 0 0 0)).trans (by norm_num)) ((congrArg (· + (0 : ℝ)) (joint_ev_cov 1 0 1 0)).trans (by norm_num))
    (by norm_num) (by rw [joint_ev_cov]; norm_num)
    (by
      rw [joint_ev_cov]
      show _ = (1 : ℝ) - (0 - 0) - 0
      norm_num)
    (by
      rw [joint_ev_cov]
      show _ = (1 : ℝ) - (0 - 0) - 0
      norm_num)
  have h2 := pair_post ((white_regular ℕ).ev 0) ((white_regular ℕ).ev 1) (noiseBatch (Q := white ℕ) (R := white ℕ)
    (fun _ : Fin 1 => (white_regular ℕ).ev 0) (fun _ => (white_regular ℕ).ev 0) fun _ => 1).noise
    (noiseBatch (Q := white ℕ) (R := white ℕ) (fun _ : Fin 1 => (white_regular ℕ).ev 1) (fun _ => (white_regular ℕ).ev 0) fun _ => 1).noise
    1 1 ((white_regular ℕ).symm _ _) (g₁ := 2) (g₂ := 2) (w := 1 / 2) (w' := 1 / 2)
    (by
      show (white ℕ).cov ((white_regular ℕ).ev 0) ((white_regular ℕ).ev 0) + (white ℕ).cov ((white_regular ℕ).ev 0) ((white_regular ℕ).ev 0) = 2
      rw [white_ev_cov]
      norm_num)
    (by
      show (white ℕ).cov ((white_regular ℕ).ev 1) ((white_regular ℕ).ev 1) + (white ℕ).cov ((white_regular ℕ).ev 0) ((white_regular ℕ).ev 0) = 2
      rw [white_ev_cov, white_ev_cov]
      norm_num)
    (by norm_num) (by rw [white_ev_cov]; norm_num)
    (by
      rw [white_ev_cov]
      show _ = (1 : ℝ) - 0 - -0
      norm_num)
    (by
      rw [white_ev_cov]
      show _ = (1 : ℝ) - 0 - -0
      norm_num)
  obtain ⟨c, hc, hc1, -⟩ := run_posterior e he hR (uMinusF 0 0 1).joint [(uMinusF 1 0 1).joint] h1.1
  obtain ⟨c', hc', hc1', -⟩ := run_posterior e he (white_regular ℕ) (uMinusF 0 0 1).alone [(uMinusF 1 0 1).alone] h2.1
  refine ⟨c, c', hc, hc', ?_, ?_⟩
  · rw [hc1]
    refine (h1.2 (true, 0)).trans ?_
    have k1 : ((indep twoWhite).cross (A 0 0)).1 (true, 0) = 1 := by
      refine (congrArg (fun f => f.1 0) (sel_cross_equation (P := twoWhite) hne ((white_regular ℕ).ev 0) ((white_regular ℕ).ev 0))).trans ?_
      rw [white_cross]
      rfl
    have k2 : ((indep twoWhite).cross (A 1 0)).1 (true, 0) = 0 := by
      refine (congrArg (fun f => f.1 0) (sel_cross_equation (P := twoWhite) hne ((white_regular ℕ).ev 1) ((white_regular ℕ).ev 0))).trans ?_
      rw [white_cross]
      rfl
    rw [k1, k2]
    show (0 : ℝ) + _ = _
    norm_num
  · rw [hc1']
    refine (h2.2 0).trans ?_
    rw [white_cross, white_cross]
    show (0 : ℝ) + _ = _
    norm_num

/-- Non-vacuity of `uncertain_rhs`: a measurement of `u`, then equations with different right-hand sides. -/
example (e : Env) := uncertain_rhs (P := twoWhite) (i := true) (j := false) (by decide) e (.own (exact1 3 5)) [uMinusF 0 0 1, uMinusF 1 4 1] (by
  have k : (white ℕ).cov ((white_regular ℕ).ev 4) ((white_regular ℕ).ev 0) = 0 := by rw [white_ev_cov]; norm_num
  simp only [List.pairwise_cons, List.mem_cons, List.not_mem_nil, or_false, forall_eq_or_imp, forall_eq]
  refine ⟨⟨fun M _ M' h => h.elim, fun M _ M' h => h.elim⟩, ?_, ?_⟩
  · rintro M ⟨-, rfl⟩ M' ⟨-, rfl⟩
    exact k
  · simp)

/-- Non-vacuity of `joint_conditioning`: two exponentiated quadratic kernels with derivatives. -/
example : (indep fun b : Bool => (expquad_jet (l := fun _ : Fin 1 => if b then 1 / 2 else 1 / 4) fun _ => by split_ifs <;> norm_num).prior 0).Nondegenerate :=
  (indep_nondegenerate_iff fun _ => jet_regular _ _).mpr fun _ => jet_nondegenerate _ (expquad_strict fun _ => by split_ifs <;> norm_num) 0

end LinPDE.GP
