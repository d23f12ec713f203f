import Verif.GP.Optimal

/-!
# C77: many noisy measurements determine the solution

Consistency (C74) for measurements with independent noise of a fixed variance: the posterior uses at least the average of the
measurements near a point.
-/

namespace LinPDE.GP
open Matrix LinPDE.Block

variable {X : Type} {P : Prior X}

/-- Combinations of the measurements of one batch. -/
lemma batch_weights {l : List (Batch P)} {d : Batch P} (hd : d ∈ l) (w : Fin d.n → ℝ) :
    ∃ a : Idx l → ℝ, ∑ i, a i • jL l i = ∑ j, w j • d.L j ∧ a ⬝ᵥ (jN l *ᵥ a) = w ⬝ᵥ (d.noiseCov *ᵥ w) := by
  obtain ⟨n, rfl⟩ := List.get_of_mem hd
  set a : Idx l → ℝ := fun p => if h : p.1 = n then w (Fin.cast (by rw [h]) p.2) else 0 with ha
  have ha1 : ∀ i : Fin (l.get n).n, a ⟨n, i⟩ = w i := fun i => by simp [ha]
  have ha0 : ∀ q (i : Fin (l.get q).n), q ≠ n → a ⟨q, i⟩ = 0 := fun q i hq => by simp [ha, hq]
  refine ⟨a, ?_, ?_⟩
  · rw [Fintype.sum_sigma, Fintype.sum_eq_single n]
    · exact Finset.sum_congr rfl fun i _ => by rw [ha1]; rfl
    · intro q hq
      exact Finset.sum_eq_zero fun i _ => by rw [ha0 q i hq, zero_smul]
  · have hrow : ∀ i : Fin (l.get n).n, (jN l *ᵥ a) ⟨n, i⟩ = ((l.get n).noiseCov *ᵥ w) i := by
      intro i
      simp only [Matrix.mulVec, dotProduct]
      rw [Fintype.sum_sigma, Fintype.sum_eq_single n]
      · refine Finset.sum_congr rfl fun j _ => ?_
        rw [ha1]
        congr 1
        simp [jN]
      · intro q hq
        exact Finset.sum_eq_zero fun j _ => by rw [ha0 q j hq, mul_zero]
    simp only [dotProduct]
    rw [Fintype.sum_sigma, Fintype.sum_eq_single n]
    · exact Finset.sum_congr rfl fun i _ => by rw [ha1, hrow]
    · intro q hq
      exact Finset.sum_eq_zero fun j _ => by rw [ha0 q j hq, zero_mul]

/-- The variance of an average is at most the largest variance. -/
lemma avg_var (hP : P.Regular) {n : ℕ} {M : Fin n → P.Λ} {w : Fin n → ℝ} (hw : ∀ i, 0 ≤ w i) (h1 : ∑ i, w i = 1) {s : ℝ}
    (hs : ∀ i, w i ≠ 0 → P.cov (M i) (M i) ≤ s) : P.cov (∑ i, w i • M i) (∑ i, w i • M i) ≤ s := by
  have h0 : 0 ≤ s := by
    by_contra hneg
    have : ∀ i, w i = 0 := fun i => by
      by_contra hi
      exact hneg ((hP.nonneg _).trans (hs i hi))
    simp [this] at h1
  rw [cov_sum]
  calc _ ≤ ∑ i, ∑ j, w i * w j * s := by
        refine Finset.sum_le_sum fun i _ => Finset.sum_le_sum fun j _ => ?_
        by_cases hi : w i = 0
        · simp [hi]
        by_cases hj : w j = 0
        · simp [hj]
        refine mul_le_mul_of_nonneg_left ?_ (mul_nonneg (hw i) (hw j))
        refine le_of_sq_le_sq (le_trans (cov_cs hP _ _) ?_) h0
        rw [pow_two]
        exact mul_le_mul (hs i hi) (hs j hj) (hP.nonneg _) h0
    _ = s := by
        have : ∀ i, ∑ j, w i * w j * s = w i * s := fun i => by
          rw [← Finset.sum_mul, ← Finset.mul_sum, h1, mul_one]
        simp only [this]
        rw [← Finset.sum_mul, h1, one_mul]

/-- C77: the variance left for a functional is at most the largest prior variance of its difference from `k` measurements of one batch
with independent noise of variance `v`, plus `v / k`. -/
theorem nearest_average (e : Env) (he : e.CholOK) (hP : P.Regular) (b : Batch P) (l : List (Batch P)) (hG : (jG (b :: l)).PosDef)
    (c : Cond P) (hc : run e b l = .ok c) (d : Batch P) (hd : d ∈ b :: l) {v : ℝ} (hv : d.noiseCov = v • 1) (T : Finset (Fin d.n)) (hT : T.Nonempty)
    (L : P.Λ) {s : ℝ} (hs : ∀ i ∈ T, P.cov L L - 2 * P.cov L (d.L i) + P.cov (d.L i) (d.L i) ≤ s) :
    ∃ V, c.functlCov e (fun _ : Fin 1 => L) = .ok !![V] ∧ V ≤ s + v / T.card := by
  classical
  refine ⟨_, (functl_one e he hP hG hc L).2, ?_⟩
  have hk : (0 : ℝ) < T.card := by exact_mod_cast hT.card_pos
  set w : Fin d.n → ℝ := fun i => if i ∈ T then 1 / (T.card : ℝ) else 0 with hw
  have hw1 : ∑ i, w i = 1 := by
    simp only [hw, Finset.sum_ite_mem, Finset.univ_inter, Finset.sum_const, nsmul_eq_mul]
    field_simp
  obtain ⟨a, ha, hN⟩ := batch_weights hd w
  refine (risk_ge hG L a).trans ?_
  rw [risk_eq_cov hP, ha, hN]
  have e1 : L - ∑ j, w j • d.L j = ∑ j, w j • (L - d.L j) := by
    have h2 : ∑ j, w j • (L - d.L j) = ∑ j, w j • L - ∑ j, w j • d.L j := by
      refine Subtype.ext ?_
      simp [smul_sub, Finset.sum_sub_distrib]
    rw [h2, ← Finset.sum_smul, hw1, one_smul]
  have e2 : w ⬝ᵥ (d.noiseCov *ᵥ w) = v / T.card := by
    rw [hv, Matrix.smul_mulVec, Matrix.one_mulVec, dotProduct_smul, smul_eq_mul]
    have : w ⬝ᵥ w = 1 / T.card := by
      have h2 : ∀ i, w i * w i = if i ∈ T then 1 / (T.card : ℝ) * (1 / T.card) else 0 := fun i => by
        simp only [hw]
        split_ifs
        · rfl
        · simp
      simp only [dotProduct, h2, Finset.sum_ite_mem, Finset.univ_inter, Finset.sum_const, nsmul_eq_mul]
      field_simp
    rw [this]
    ring
  rw [e1, e2]
  gcongr
  refine avg_var hP (fun i => ?_) hw1 fun i hi => ?_
  · simp only [hw]
    split_ifs
    · positivity
    · exact le_rfl
  · have hi : i ∈ T := by
      by_contra h
      exact hi (by simp [hw, h])
    refine le_trans (le_of_eq ?_) (hs i hi)
    have hc : P.cross (L - d.L i) = P.cross L - P.cross (d.L i) := rfl
    have hd : ∀ f, (L - d.L i).1 f = L.1 f - (d.L i).1 f := fun f => rfl
    have hs : (d.L i).1 (P.cross L) = L.1 (P.cross (d.L i)) := hP.symm _ _
    simp only [Prior.cov]
    rw [hc, hd, map_sub, map_sub, hs]
    ring

/-- C77: consistency with noise. For every tolerance there are a distance and a ratio `γ`, uniform on compact sets, such that, whatever
else is measured, with whatever noise, measurements of `D z` within that distance of `x`, with independent noise of variance at most
`γ` times their number, determine `D x f` up to the tolerance. -/
theorem consistent_noise (hP : P.Regular) {Z : Type} [PseudoMetricSpace Z] (D : Z → P.Λ) (hD : Continuous fun p : Z × Z => P.cov (D p.1) (D p.2))
    {S : Set Z} (hS : IsCompact S) {f : P.F} {B C : ℝ} (hB : 0 ≤ B) (hC : 0 ≤ C) (hf : Within P f B) {τ : ℝ} (hτ : 0 < τ) :
    ∃ η > 0, ∃ γ : ℝ, 0 < γ ∧ ∀ (e : Env), e.CholOK → ∀ (b : Batch P) (l : List (Batch P)), (jG (b :: l)).PosDef → NoisePSD (b :: l) →
      ∀ ε, NoiseWithin (b :: l) ε C → DataOf (b :: l) f ε → ∃ c, run e b l = .ok c ∧
      ∀ x ∈ S, (∃ d ∈ b :: l, ∃ v : ℝ, d.noiseCov = v • 1 ∧ ∃ T : Finset (Fin d.n), T.Nonempty ∧ v ≤ γ * T.card ∧
          ∀ i ∈ T, ∃ z, dist z x < η ∧ d.L i = D z) →
        |(D x).1 f - c.functlMean (fun _ : Fin 1 => D x) 0| < τ := by
  set V : Z × Z → ℝ := fun p => P.cov (D p.1) (D p.1) - 2 * P.cov (D p.1) (D p.2) + P.cov (D p.2) (D p.2) with hV
  set κ : ℝ := τ ^ 2 / (4 * (B + C + 1)) with hκ
  have hBC : 0 < B + C + 1 := by linarith
  have hκ0 : 0 < κ := by positivity
  have hcont : Continuous V := by
    have h1 : Continuous fun p : Z × Z => P.cov (D p.1) (D p.1) := hD.comp (Continuous.prodMk continuous_fst continuous_fst)
    have h2 : Continuous fun p : Z × Z => P.cov (D p.2) (D p.2) := hD.comp (Continuous.prodMk continuous_snd continuous_snd)
    exact (h1.sub (continuous_const.mul hD)).add h2
  have hdiag : (fun x : Z => (x, x)) '' S ⊆ V ⁻¹' Set.Iio κ := by
    rintro _ ⟨x, -, rfl⟩
    show V (x, x) < κ
    have : V (x, x) = 0 := by simp only [hV]; ring
    rwa [this]
  obtain ⟨η, hη, hsub⟩ := (hS.image (continuous_id.prodMk continuous_id)).exists_thickening_subset_open (isOpen_Iio.preimage hcont) hdiag
  refine ⟨η, hη, κ, hκ0, fun e he b l hG hN ε hε hY => ?_⟩
  obtain ⟨c, hc, -⟩ := run_posterior e he hP b l hG
  refine ⟨c, hc, fun x hxS => ?_⟩
  rintro ⟨d, hd, v, hv, T, hT, hvT, hz⟩
  obtain ⟨V1, hV1, h1⟩ := (worst_case_error e he hP b l hG hN c hc hB hC hf hε hY).1 (D x)
  obtain ⟨V2, hV2, h2⟩ := nearest_average e he hP b l hG c hc d hd hv T hT (D x) (s := κ) (fun i hi => by
    obtain ⟨z, hz, hL⟩ := hz i hi
    rw [hL]
    have : (x, z) ∈ V ⁻¹' Set.Iio κ := by
      refine hsub (Metric.mem_thickening_iff.mpr ⟨(x, x), ⟨x, hxS, rfl⟩, ?_⟩)
      rw [Prod.dist_eq, dist_self]
      exact max_lt hη hz
    exact (Set.mem_Iio.mp this).le)
  have hvv : V1 = V2 := by
    have := Except.ok.inj (hV1.symm.trans hV2)
    exact congrFun (congrFun this 0) 0
  have hk : (0 : ℝ) < T.card := by exact_mod_cast hT.card_pos
  have h3 : V1 ≤ 2 * κ := by
    have := (div_le_iff₀ hk).mpr hvT
    rw [hvv]
    linarith
  have h4 : ((D x).1 f - c.functlMean (fun _ : Fin 1 => D x) 0) ^ 2 < τ ^ 2 := by
    calc _ ≤ (B + C) * V1 := h1
      _ ≤ (B + C) * (2 * κ) := mul_le_mul_of_nonneg_left h3 (by linarith)
      _ ≤ (B + C + 1) * (2 * κ) := by nlinarith
      _ = τ ^ 2 / 2 := by rw [hκ]; field_simp; norm_num
      _ < τ ^ 2 := by have : 0 < τ ^ 2 := by positivity
                      linarith
  exact abs_lt_of_sq_lt_sq h4 hτ.le

/-! ### Non-vacuity -/

/-- A noisy measurement at the point `1`, next to an exact one at `0`: the variance at `1` is at most `0 + 1 / 1`. -/
example (e : Env) (he : e.CholOK) : ∃ c V, run e (exact1 0 3) [noisy1 1 5] = .ok c ∧
    c.functlCov e (fun _ : Fin 1 => (white_regular ℕ).ev 1) = .ok !![V] ∧ V ≤ 1 := by
  have hP := white_regular ℕ
  obtain ⟨c, hc, -⟩ := run_posterior e he hP (exact1 0 3) [noisy1 1 5] ex_posDef.1
  obtain ⟨V, h1, h2⟩ := nearest_average e he hP _ _ ex_posDef.1 c hc (noisy1 1 5) (by simp) (v := 1) (one_smul ℝ (1 : Matrix (Fin 1) (Fin 1) ℝ)).symm
    ({0} : Finset (Fin 1)) (Finset.singleton_nonempty _) (hP.ev 1) (s := 0) (fun i _ => by
      show (white ℕ).cov (hP.ev 1) (hP.ev 1) - 2 * (white ℕ).cov (hP.ev 1) (hP.ev 1) + (white ℕ).cov (hP.ev 1) (hP.ev 1) ≤ 0
      linarith)
  exact ⟨c, V, hc, h1, h2.trans (by show (0 : ℝ) + 1 / (({0} : Finset (Fin 1)).card : ℝ) ≤ 1; simp)⟩

end LinPDE.GP
