import Verif.GP.JointStrict
import Verif.GP.ExactRows
import Mathlib.Topology.MetricSpace.Thickening

/-!
# C74: what the posterior variance bounds

`Within f B`: `f` is at distance at most `√B` from the prior mean in the reproducing kernel space of the prior (in dual form, no
completion of the space is needed).  The noise of the measurements is any vector, bounded relative to its covariance.
-/

namespace LinPDE.GP
open Matrix LinPDE.Block

variable {X : Type} {P : Prior X}

/-- `‖f - m‖² ≤ B` in the norm of the prior: no functional of `f - m` exceeds its prior standard deviation by more than `√B`. -/
def Within (P : Prior X) (f : P.F) (B : ℝ) : Prop := ∀ L : P.Λ, (L.1 f - L.1 P.m) ^ 2 ≤ B * P.cov L L

/-- The measured values are `L f + E[b] + ε`. -/
def DataOf (l : List (Batch P)) (f : P.F) (ε : Idx l → ℝ) : Prop :=
  ∀ i : Idx l, (l.get i.1).Y i.2 = ((l.get i.1).L i.2).1 f + (l.get i.1).bMean i.2 + ε i

/-- `εᵀ N⁻¹ ε ≤ C`, in a form that makes sense for singular noise covariances. -/
def NoiseWithin (l : List (Batch P)) (ε : Idx l → ℝ) (C : ℝ) : Prop := ∀ a : Idx l → ℝ, (a ⬝ᵥ ε) ^ 2 ≤ C * (a ⬝ᵥ (jN l *ᵥ a))

/-- The functional measured by a linear combination of the measurements. -/
def combo (l : List (Batch P)) (a : Idx l → ℝ) : P.Λ := ∑ i, a i • jL l i

/-! ### Lemmas -/

lemma combo_apply (l : List (Batch P)) (a : Idx l → ℝ) (f : P.F) : (combo l a).1 f = ∑ i, a i * (jL l i).1 f := by
  have : (combo l a).1 = ∑ i, a i • (jL l i).1 := by simp [combo]
  rw [this, LinearMap.sum_apply]
  rfl

lemma sub_apply' (L L' : P.Λ) (f : P.F) : (L - L').1 f = L.1 f - L'.1 f := rfl

lemma dataOf_resid {l : List (Batch P)} {f : P.F} {ε : Idx l → ℝ} (h : DataOf l f ε) (i : Idx l) :
    jR l i = (jL l i).1 f - (jL l i).1 P.m + ε i := by
  unfold jR
  rw [h i]
  show (jL l i).1 f + _ + ε i - (jL l i).1 P.m - _ = _
  ring

/-- Cauchy–Schwarz for two bounds. -/
lemma sq_add_le {x y B C s t : ℝ} (hB : 0 ≤ B) (hC : 0 ≤ C) (hs : 0 ≤ s) (ht : 0 ≤ t) (hx : x ^ 2 ≤ B * s) (hy : y ^ 2 ≤ C * t) :
    (x + y) ^ 2 ≤ (B + C) * (s + t) := by
  have h1 : 0 ≤ B * t := mul_nonneg hB ht
  have h2 : 0 ≤ C * s := mul_nonneg hC hs
  have h3 : (x * y) ^ 2 ≤ (B * t) * (C * s) := by
    calc (x * y) ^ 2 = x ^ 2 * y ^ 2 := mul_pow _ _ _
      _ ≤ (B * s) * (C * t) := mul_le_mul hx hy (sq_nonneg _) (mul_nonneg hB hs)
      _ = _ := by ring
  have h4 : 2 * (x * y) ≤ B * t + C * s := by
    refine le_of_sq_le_sq ?_ (by linarith)
    nlinarith [sq_nonneg (B * t - C * s)]
  nlinarith

lemma cov_cs (hP : P.Regular) (L L' : P.Λ) : P.cov L L' ^ 2 ≤ P.cov L L * P.cov L' L' := by
  have key : ∀ t : ℝ, 0 ≤ P.cov L' L' * (t * t) + (-2 * P.cov L L') * t + P.cov L L := by
    intro t
    have h0 := hP.nonneg (L - t • L')
    have h1 : P.cov (L - t • L') (L - t • L') = P.cov L' L' * (t * t) + (-2 * P.cov L L') * t + P.cov L L := by
      have hc : P.cross (L - t • L') = P.cross L - t • P.cross L' := rfl
      have hd : ∀ f, (L - t • L').1 f = L.1 f - t * L'.1 f := fun f => rfl
      have hs : L'.1 (P.cross L) = L.1 (P.cross L') := hP.symm L' L
      simp only [Prior.cov]
      rw [hc, hd, map_sub, map_sub, map_smul, map_smul, hs, smul_eq_mul, smul_eq_mul]
      ring
    rwa [h1] at h0
  have := discrim_le_zero key
  rw [discrim] at this
  nlinarith

lemma post_mean_gain (l : List (Batch P)) (hG : (jG l).PosDef) (L : P.Λ) :
    L.1 (posterior P l).m = L.1 P.m + ((jG l)⁻¹ *ᵥ uvec l L) ⬝ᵥ jR l := by
  have h1 : L.1 (posterior P l).m = L.1 P.m + uvec l L ⬝ᵥ ((jG l)⁻¹ *ᵥ jR l) := by
    show L.1 (postMeanF l) = _
    simp only [postMeanF, map_add, map_sum, map_smul, smul_eq_mul, dotProduct, uvec]
    congr 1
    exact Finset.sum_congr rfl fun i _ => mul_comm _ _
  rw [h1, dot_symm _ (by rw [Matrix.transpose_nonsing_inv, jG_symm hG]), dotProduct_comm]

lemma post_cov_gain (hP : P.Regular) {l : List (Batch P)} (hG : (jG l).PosDef) (L : P.Λ) :
    (posterior P l).cov L L = P.cov (L - combo l ((jG l)⁻¹ *ᵥ uvec l L)) (L - combo l ((jG l)⁻¹ *ᵥ uvec l L)) +
      ((jG l)⁻¹ *ᵥ uvec l L) ⬝ᵥ (jN l *ᵥ ((jG l)⁻¹ *ᵥ uvec l L)) := by
  rw [← risk_opt hG L, risk_eq_cov hP]
  rfl

lemma worst_case (hP : P.Regular) {l : List (Batch P)} (hG : (jG l).PosDef) (hN : NoisePSD l) {f : P.F} {ε : Idx l → ℝ} {B C : ℝ}
    (hB : 0 ≤ B) (hC : 0 ≤ C) (hf : Within P f B) (hε : NoiseWithin l ε C) (hY : DataOf l f ε) (L : P.Λ) :
    (L.1 f - L.1 (posterior P l).m) ^ 2 ≤ (B + C) * (posterior P l).cov L L := by
  set a := (jG l)⁻¹ *ᵥ uvec l L with ha
  have h1 : L.1 f - L.1 (posterior P l).m = ((L - combo l a).1 f - (L - combo l a).1 P.m) + (-(a ⬝ᵥ ε)) := by
    rw [post_mean_gain l hG, ← ha, sub_apply', sub_apply', combo_apply, combo_apply]
    have : a ⬝ᵥ jR l = ∑ i, a i * (jL l i).1 f - ∑ i, a i * (jL l i).1 P.m + a ⬝ᵥ ε := by
      simp only [dotProduct, dataOf_resid hY, ← Finset.sum_sub_distrib, ← Finset.sum_add_distrib]
      exact Finset.sum_congr rfl fun i _ => by ring
    rw [this]
    ring
  rw [h1, post_cov_gain hP hG, ← ha]
  exact sq_add_le hB hC (hP.nonneg _) (jN_psd hN _) (hf _) (by rw [neg_sq]; exact hε a)

lemma cross_combo (l : List (Batch P)) (a : Idx l → ℝ) : P.cross (combo l a) = ∑ i, a i • P.cross (jL l i) := by
  apply Subtype.ext
  funext x
  show (combo l a).1 _ = _
  rw [combo_apply]
  simp only [Submodule.coe_sum, Submodule.coe_smul, Finset.sum_apply, Pi.smul_apply, smul_eq_mul]
  rfl

lemma combo_cov (hP : P.Regular) (l : List (Batch P)) (a : Idx l → ℝ) :
    P.cov (combo l a) (combo l a) + a ⬝ᵥ (jN l *ᵥ a) = a ⬝ᵥ (jG l *ᵥ a) := by
  have h1 : P.cov (combo l a) (combo l a) = a ⬝ᵥ ((Matrix.of fun i j => P.cov (jL l i) (jL l j)) *ᵥ a) := by
    unfold combo
    rw [cov_sum]
    simp only [dotProduct, Matrix.mulVec, of_apply, Finset.mul_sum]
    exact Finset.sum_congr rfl fun i _ => Finset.sum_congr rfl fun j _ => by ring
  rw [h1, jG, Matrix.add_mulVec, dotProduct_add]

lemma minimal (hP : P.Regular) {l : List (Batch P)} (hG : (jG l).PosDef) (hN : NoisePSD l) {f : P.F} {ε : Idx l → ℝ} {B C : ℝ}
    (hB : 0 ≤ B) (hC : 0 ≤ C) (hf : Within P f B) (hε : NoiseWithin l ε C) (hY : DataOf l f ε) :
    Within P (posterior P l).m (B + C) := by
  intro L
  set α := (jG l)⁻¹ *ᵥ jR l with hα
  have e1 : L.1 (posterior P l).m - L.1 P.m = P.cov L (combo l α) := by
    show L.1 (postMeanF l) - _ = L.1 (P.cross (combo l α))
    rw [cross_combo, postMeanF, map_add, ← hα]
    ring
  have hGα : jG l *ᵥ α = jR l := by
    rw [hα, Matrix.mulVec_mulVec, Matrix.mul_nonsing_inv _ (jG_unit hG), Matrix.one_mulVec]
  have e2 : α ⬝ᵥ (jG l *ᵥ α) = ((combo l α).1 f - (combo l α).1 P.m) + α ⬝ᵥ ε := by
    rw [hGα, combo_apply, combo_apply]
    simp only [dotProduct, dataOf_resid hY, ← Finset.sum_sub_distrib, ← Finset.sum_add_distrib]
    exact Finset.sum_congr rfl fun i _ => by ring
  have hq : 0 ≤ α ⬝ᵥ (jG l *ᵥ α) := quad_nonneg hG.posSemidef α
  have e3 : (α ⬝ᵥ (jG l *ᵥ α)) ^ 2 ≤ (B + C) * (α ⬝ᵥ (jG l *ᵥ α)) := by
    rw [show (α ⬝ᵥ (jG l *ᵥ α)) ^ 2 = _ from by rw [e2], ← combo_cov hP]
    exact sq_add_le hB hC (hP.nonneg _) (jN_psd hN _) (hf _) (hε α)
  have e4 : α ⬝ᵥ (jG l *ᵥ α) ≤ B + C := by
    rcases hq.eq_or_lt with h | h
    · rw [← h]; exact add_nonneg hB hC
    · rw [pow_two] at e3
      exact le_of_mul_le_mul_right e3 h
  have e5 : P.cov (combo l α) (combo l α) ≤ B + C := by
    have := combo_cov hP l α
    linarith [jN_psd hN α]
  rw [e1]
  calc _ ≤ P.cov L L * P.cov (combo l α) (combo l α) := cov_cs hP _ _
    _ ≤ P.cov L L * (B + C) := mul_le_mul_of_nonneg_left e5 (hP.nonneg L)
    _ = _ := mul_comm _ _

/-- The variance of a functional under the conditioned process. -/
lemma functl_one (e : Env) (he : e.CholOK) (hP : P.Regular) {b : Batch P} {l : List (Batch P)}
    (hG : (jG (b :: l)).PosDef) {c : Cond P} (hc : run e b l = .ok c) (L : P.Λ) :
    c.functlMean (fun _ : Fin 1 => L) 0 = L.1 (posterior P (b :: l)).m ∧
      c.functlCov e (fun _ : Fin 1 => L) = .ok !![(posterior P (b :: l)).cov L L] := by
  obtain ⟨h1, h2⟩ := functl_posterior e he hP b l hG c hc fun _ : Fin 1 => L
  refine ⟨h1 0, h2.trans ?_⟩
  congr 1
  ext i j
  fin_cases i; fin_cases j
  rfl

/-! ### Theorems -/

/-- C74: whatever function `f` within distance `√B` of the prior mean produced the data, whatever the errors of the measurements
(within `√C` of the noise model), the squared error of the posterior mean is, for every functional, at most `B + C` times the
posterior variance that the conditioned process reports; for exact data `C = 0`. -/
theorem worst_case_error (e : Env) (he : e.CholOK) (hP : P.Regular) (b : Batch P) (l : List (Batch P)) (hG : (jG (b :: l)).PosDef)
    (hN : NoisePSD (b :: l)) (c : Cond P) (hc : run e b l = .ok c) {f : P.F} {ε : Idx (b :: l) → ℝ} {B C : ℝ} (hB : 0 ≤ B) (hC : 0 ≤ C)
    (hf : Within P f B) (hε : NoiseWithin (b :: l) ε C) (hY : DataOf (b :: l) f ε) :
    (∀ L : P.Λ, ∃ v, c.functlCov e (fun _ : Fin 1 => L) = .ok !![v] ∧ (L.1 f - c.functlMean (fun _ : Fin 1 => L) 0) ^ 2 ≤ (B + C) * v) ∧
    ∀ x, ∃ v, c.covfunc e x x = .ok v ∧ (f.1 x - c.mean x) ^ 2 ≤ (B + C) * v := by
  have key := worst_case hP hG hN hB hC hf hε hY
  refine ⟨fun L => ?_, fun x => ?_⟩
  · obtain ⟨h1, h2⟩ := functl_one e he hP hG hc L
    exact ⟨_, h2, by rw [h1]; exact key L⟩
  · obtain ⟨c', hc', h1, h2⟩ := run_posterior e he hP b l hG
    obtain rfl : c = c' := Except.ok.inj (hc.symm.trans hc')
    refine ⟨_, h2 x x, ?_⟩
    have h3 := key (hP.ev x)
    rw [posterior_ev, (functl_ev hP (b :: l) x x).2] at h3
    rw [h1]
    exact h3

/-- C74: the posterior mean is not further from the prior mean than any function that produced the data. -/
theorem mean_minimal (e : Env) (he : e.CholOK) (hP : P.Regular) (b : Batch P) (l : List (Batch P)) (hG : (jG (b :: l)).PosDef)
    (hN : NoisePSD (b :: l)) (c : Cond P) (hc : run e b l = .ok c) {f : P.F} {ε : Idx (b :: l) → ℝ} {B C : ℝ} (hB : 0 ≤ B) (hC : 0 ≤ C)
    (hf : Within P f B) (hε : NoiseWithin (b :: l) ε C) (hY : DataOf (b :: l) f ε) (L : P.Λ) :
    (c.functlMean (fun _ : Fin 1 => L) 0 - L.1 P.m) ^ 2 ≤ (B + C) * P.cov L L := by
  rw [(functl_one e he hP hG hc L).1]
  exact minimal hP hG hN hB hC hf hε hY L

/-- C74: the bound is sharp. For exact data and every functional `L` with posterior variance `v` there is a function that produces the
same data, has distance `√v` from the posterior mean, and for which the squared error of the posterior mean is `v * v`. -/
theorem worst_case_sharp (e : Env) (he : e.CholOK) (hP : P.Regular) (b : Batch P) (l : List (Batch P)) (hG : (jG (b :: l)).PosDef)
    (hN : ∀ d ∈ b :: l, d.noiseCov = 0) (c : Cond P) (hc : run e b l = .ok c) (L : P.Λ) :
    ∃ (v : ℝ) (f : P.F), c.functlCov e (fun _ : Fin 1 => L) = .ok !![v] ∧ DataOf (b :: l) f 0 ∧
      (∀ L' : P.Λ, (L'.1 f - c.functlMean (fun _ : Fin 1 => L') 0) ^ 2 ≤ v * P.cov L' L') ∧
      (L.1 f - c.functlMean (fun _ : Fin 1 => L) 0) ^ 2 = v * v := by
  obtain ⟨h1, h2⟩ := functl_one e he hP hG hc L
  have hrow : ∀ i : Idx (b :: l), (jL (b :: l) i).1 (postMeanF (b :: l)) = ((b :: l).get i.1).Y i.2 - ((b :: l).get i.1).bMean i.2 ∧
      ∀ L' : P.Λ, (posterior P (b :: l)).cov (jL (P := P) (b :: l) i) L' = 0 := fun i =>
    deterministic_row hP hG (List.get_mem (b :: l) i.1) i.2 fun j => by rw [hN _ (List.get_mem (b :: l) i.1)]; rfl
  have hd : ∀ L' : P.Λ, L'.1 ((posterior P (b :: l)).m + (posterior P (b :: l)).cross L) =
      L'.1 (posterior P (b :: l)).m + (posterior P (b :: l)).cov L' L := fun L' => map_add L'.1 _ _
  have hPSD : NoisePSD (b :: l) := fun d hd => by rw [hN d hd]; exact Matrix.PosSemidef.zero
  refine ⟨(posterior P (b :: l)).cov L L, (posterior P (b :: l)).m + (posterior P (b :: l)).cross L, h2, fun i => ?_, fun L' => ?_, ?_⟩
  · have := hd (jL (b :: l) i)
    rw [(hrow i).2, add_zero] at this
    rw [show (((b :: l).get i.1).L i.2).1 _ = _ from this.trans (hrow i).1]
    simp
  · rw [hd, (functl_one e he hP hG hc L').1, add_sub_cancel_left]
    have hR : (posterior P (b :: l)).Regular := ⟨hP.ev_mem, posterior_symm hP hG, posterior_nonneg hP hG hPSD⟩
    calc _ ≤ (posterior P (b :: l)).cov L' L' * (posterior P (b :: l)).cov L L := cov_cs hR L' L
      _ ≤ P.cov L' L' * (posterior P (b :: l)).cov L L := by
        refine mul_le_mul_of_nonneg_right ?_ (posterior_nonneg hP hG hPSD L)
        have h3 := risk_ge hG L' (0 : Idx (b :: l) → ℝ)
        simpa [risk] using h3
      _ = _ := mul_comm _ _
  · rw [hd, h1, add_sub_cancel_left, pow_two]

/-- C74: exactly the linear combinations of noiseless measurements are left without uncertainty by a strictly positive definite prior. -/
theorem determined_iff (e : Env) (he : e.CholOK) (hP : P.Regular) (hs : P.Nondegenerate) (b : Batch P) (l : List (Batch P))
    (hG : (jG (b :: l)).PosDef) (hN : NoisePSD (b :: l)) (c : Cond P) (hc : run e b l = .ok c) (L : P.Λ) :
    c.functlCov e (fun _ : Fin 1 => L) = .ok 0 ↔ ∃ a : Idx (b :: l) → ℝ, L = ∑ i, a i • jL (b :: l) i ∧ a ⬝ᵥ (jN (b :: l) *ᵥ a) = 0 := by
  obtain ⟨h1, h2⟩ := functl_one e he hP hG hc L
  have h0 : (c.functlCov e (fun _ : Fin 1 => L) = .ok 0) ↔ (posterior P (b :: l)).cov L L = 0 := by
    rw [h2]
    constructor
    · intro h
      exact congrFun (congrFun (Except.ok.inj h) 0) 0
    · intro h
      congr 1
      ext i j
      fin_cases i; fin_cases j
      exact h
  rw [h0]
  constructor
  · intro h
    rw [post_cov_gain hP hG] at h
    have n1 := hP.nonneg (L - combo (b :: l) ((jG (b :: l))⁻¹ *ᵥ uvec (b :: l) L))
    have n2 := jN_psd hN ((jG (b :: l))⁻¹ *ᵥ uvec (b :: l) L)
    refine ⟨(jG (b :: l))⁻¹ *ᵥ uvec (b :: l) L, ?_, by linarith⟩
    have h5 : P.cov (L - combo (b :: l) ((jG (b :: l))⁻¹ *ᵥ uvec (b :: l) L)) (L - combo (b :: l) ((jG (b :: l))⁻¹ *ᵥ uvec (b :: l) L)) = 0 := by
      linarith
    exact sub_eq_zero.mp (hs _ h5)
  · rintro ⟨a, ha, hq⟩
    have h3 := risk_ge hG L a
    rw [risk_eq_cov hP, ← ha, hq, add_zero] at h3
    have h4 : P.cov (L - L) (L - L) = 0 := by
      have : L - L = 0 := sub_self L
      rw [this, ← covBil_apply]
      simp
    rw [h4] at h3
    exact le_antisymm h3 (posterior_nonneg hP hG hN L)

/-- C74: the variance left for a functional is at most the prior variance of its difference from any noiseless measurement. -/
theorem nearest_measurement (e : Env) (he : e.CholOK) (hP : P.Regular) (b : Batch P) (l : List (Batch P)) (hG : (jG (b :: l)).PosDef)
    (c : Cond P) (hc : run e b l = .ok c) (d : Batch P) (hd : d ∈ b :: l) (i : Fin d.n) (hn : ∀ j, d.noiseCov i j = 0) (L : P.Λ) :
    ∃ v, c.functlCov e (fun _ : Fin 1 => L) = .ok !![v] ∧ v ≤ P.cov L L - 2 * P.cov L (d.L i) + P.cov (d.L i) (d.L i) := by
  refine ⟨_, (functl_one e he hP hG hc L).2, ?_⟩
  classical
  obtain ⟨p, h1, -, h3⟩ := mem_index_row hd i
  have h4 := risk_ge hG L (Pi.single p 1)
  refine h4.trans (le_of_eq ?_)
  rw [risk]
  have e1 : Pi.single p (1 : ℝ) ⬝ᵥ uvec (b :: l) L = P.cov L (d.L i) := by
    rw [single_dotProduct, one_mul, ← h1]
    rfl
  have e2 : Pi.single p (1 : ℝ) ⬝ᵥ (jG (b :: l) *ᵥ Pi.single p 1) = P.cov (d.L i) (d.L i) := by
    rw [single_dotProduct, one_mul, mulVec_single_one, Matrix.col_apply, jG, Matrix.add_apply, of_apply, h3 hn, add_zero, h1]
  rw [e1, e2]

/-- C74: consistency. Let `D z` be functionals whose covariance depends continuously on `z` (values, derivatives, residuals of a
differential equation at `z`). For every tolerance there is a distance, uniform on compact sets, such that, whatever else is measured,
with whatever noise, one noiseless measurement of `D z` within that distance of `x` determines `D x f` up to the tolerance. -/
theorem consistent (hP : P.Regular) {Z : Type} [PseudoMetricSpace Z] (D : Z → P.Λ) (hD : Continuous fun p : Z × Z => P.cov (D p.1) (D p.2))
    {S : Set Z} (hS : IsCompact S) {f : P.F} {B C : ℝ} (hB : 0 ≤ B) (hC : 0 ≤ C) (hf : Within P f B) {τ : ℝ} (hτ : 0 < τ) :
    ∃ η > 0, ∀ (e : Env), e.CholOK → ∀ (b : Batch P) (l : List (Batch P)), (jG (b :: l)).PosDef → NoisePSD (b :: l) →
      ∀ ε, NoiseWithin (b :: l) ε C → DataOf (b :: l) f ε → ∃ c, run e b l = .ok c ∧
      ∀ x ∈ S, (∃ z, dist z x < η ∧ ∃ d ∈ b :: l, ∃ i : Fin d.n, d.L i = D z ∧ ∀ j, d.noiseCov i j = 0) →
        |(D x).1 f - c.functlMean (fun _ : Fin 1 => D x) 0| < τ := by
  set V : Z × Z → ℝ := fun p => (B + C) * (P.cov (D p.1) (D p.1) - 2 * P.cov (D p.1) (D p.2) + P.cov (D p.2) (D p.2)) with hV
  have hcont : Continuous V := by
    have h1 : Continuous fun p : Z × Z => P.cov (D p.1) (D p.1) := hD.comp (Continuous.prodMk continuous_fst continuous_fst)
    have h2 : Continuous fun p : Z × Z => P.cov (D p.2) (D p.2) := hD.comp (Continuous.prodMk continuous_snd continuous_snd)
    exact continuous_const.mul ((h1.sub (continuous_const.mul hD)).add h2)
  have hdiag : (fun x : Z => (x, x)) '' S ⊆ V ⁻¹' Set.Iio (τ ^ 2) := by
    rintro _ ⟨x, -, rfl⟩
    show V (x, x) < τ ^ 2
    have : V (x, x) = 0 := by simp only [hV]; ring
    rw [this]
    positivity
  obtain ⟨η, hη, hsub⟩ := (hS.image (continuous_id.prodMk continuous_id)).exists_thickening_subset_open (isOpen_Iio.preimage hcont) hdiag
  refine ⟨η, hη, fun e he b l hG hN ε hε hY => ?_⟩
  obtain ⟨c, hc, -⟩ := run_posterior e he hP b l hG
  refine ⟨c, hc, fun x hxS => ?_⟩
  rintro ⟨z, hz, d, hd, i, hi, hn⟩
  have hz : V (x, z) < τ ^ 2 := by
    refine hsub (Metric.mem_thickening_iff.mpr ⟨(x, x), ⟨x, hxS, rfl⟩, ?_⟩)
    rw [Prod.dist_eq, dist_self]
    exact max_lt hη hz
  obtain ⟨v, hv, h1⟩ := (worst_case_error e he hP b l hG hN c hc hB hC hf hε hY).1 (D x)
  obtain ⟨v', hv', h2⟩ := nearest_measurement e he hP b l hG c hc d hd i hn (D x)
  have hvv : v = v' := by
    have := Except.ok.inj (hv.symm.trans hv')
    exact congrFun (congrFun this 0) 0
  rw [hi] at h2
  have h3 : ((D x).1 f - c.functlMean (fun _ : Fin 1 => D x) 0) ^ 2 < τ ^ 2 := by
    refine lt_of_le_of_lt (h1.trans ?_) hz
    rw [hvv]
    exact mul_le_mul_of_nonneg_left h2 (add_nonneg hB hC)
  exact abs_lt_of_sq_lt_sq h3 hτ.le

/-! ### Non-vacuity -/

/-- Functions at a known distance from the prior mean. -/
lemma within_cross (hP : P.Regular) (L : P.Λ) : Within P (P.m + P.cross L) (P.cov L L) := by
  intro L'
  have : L'.1 (P.m + P.cross L) - L'.1 P.m = P.cov L' L := by
    rw [map_add, add_sub_cancel_left]
    rfl
  rw [this, mul_comm]
  exact cov_cs hP L' L

/-- An exact measurement and one with noise of mean `1`, of the function `3` at `0` and `0` elsewhere; the second measurement is off
by `4`. -/
example (e : Env) (he : e.CholOK) : ∃ (c : Cond (white ℕ)) (f : (white ℕ).F) (ε : Idx [exact1 0 3, noisy1 1 5] → ℝ),
    run e (exact1 0 3) [noisy1 1 5] = .ok c ∧ Within (white ℕ) f 9 ∧ NoiseWithin [exact1 0 3, noisy1 1 5] ε 16 ∧
    DataOf [exact1 0 3, noisy1 1 5] f ε ∧ (∀ x, ∃ v, c.covfunc e x x = .ok v ∧ (f.1 x - c.mean x) ^ 2 ≤ (9 + 16) * v) ∧
    c.functlCov e (fun _ : Fin 1 => (white_regular ℕ).ev 0) = .ok 0 := by
  have hP := white_regular ℕ
  obtain ⟨c, hc, -⟩ := run_posterior e he hP (exact1 0 3) [noisy1 1 5] ex_posDef.1
  have hsum : ∀ g : Idx [exact1 0 3, noisy1 1 5] → ℝ, ∑ i, g i = g ⟨0, (0 : Fin 1)⟩ + g ⟨1, (0 : Fin 1)⟩ :=
    pair_sum (hP.ev 0) (hP.ev 1) none (some (fun _ => 1, 1)) 3 5
  have hcase : ∀ i : Idx [exact1 0 3, noisy1 1 5], i = ⟨0, (0 : Fin 1)⟩ ∨ i = ⟨1, (0 : Fin 1)⟩ :=
    pair_cases (hP.ev 0) (hP.ev 1) none (some (fun _ => 1, 1)) 3 5
  have hf : Within (white ℕ) ((white ℕ).m + (white ℕ).cross ((3 : ℝ) • hP.ev 0)) 9 := by
    have h1 := within_cross hP ((3 : ℝ) • hP.ev 0)
    have h2 : (white ℕ).cov ((3 : ℝ) • hP.ev 0) ((3 : ℝ) • hP.ev 0) = 9 := by
      have : (white ℕ).cov ((3 : ℝ) • hP.ev 0) ((3 : ℝ) • hP.ev 0) = 3 * (3 * (white ℕ).k 0 0) := rfl
      rw [this]
      simp [white, ofKernel]
      norm_num
    rwa [h2] at h1
  have hval : ∀ x, ((white ℕ).m + (white ℕ).cross ((3 : ℝ) • hP.ev 0)).1 x = if x = 0 then 3 else 0 := by
    intro x
    show (white ℕ).m.1 x + 3 * (white ℕ).k x 0 = _
    simp only [white, ofKernel]
    split_ifs <;> simp
  set ε : Idx [exact1 0 3, noisy1 1 5] → ℝ := fun i => if i.1 = 0 then 0 else 4 with hε
  have hN : NoiseWithin [exact1 0 3, noisy1 1 5] ε 16 := by
    intro a
    have e1 : a ⬝ᵥ ε = a ⟨1, (0 : Fin 1)⟩ * 4 := by
      simp only [dotProduct, hsum, hε]
      simp
    have e2 : a ⬝ᵥ (jN [exact1 0 3, noisy1 1 5] *ᵥ a) = a ⟨1, (0 : Fin 1)⟩ * a ⟨1, (0 : Fin 1)⟩ := by
      simp only [dotProduct, Matrix.mulVec, hsum]
      have n00 : jN [exact1 0 3, noisy1 1 5] ⟨0, (0 : Fin 1)⟩ ⟨0, (0 : Fin 1)⟩ = 0 := rfl
      have n01 : jN [exact1 0 3, noisy1 1 5] ⟨0, (0 : Fin 1)⟩ ⟨1, (0 : Fin 1)⟩ = 0 := rfl
      have n10 : jN [exact1 0 3, noisy1 1 5] ⟨1, (0 : Fin 1)⟩ ⟨0, (0 : Fin 1)⟩ = 0 := rfl
      have n11 : jN [exact1 0 3, noisy1 1 5] ⟨1, (0 : Fin 1)⟩ ⟨1, (0 : Fin 1)⟩ = 1 := by
        show (1 : Matrix (Fin 1) (Fin 1) ℝ) 0 0 = 1
        simp
      rw [n00, n01, n10, n11]
      ring
    rw [e1, e2]
    exact le_of_eq (by ring)
  have hY : DataOf [exact1 0 3, noisy1 1 5] ((white ℕ).m + (white ℕ).cross ((3 : ℝ) • hP.ev 0)) ε := by
    intro i
    rcases hcase i with rfl | rfl
    · show (3 : ℝ) = ((white ℕ).m + (white ℕ).cross ((3 : ℝ) • hP.ev 0)).1 0 + 0 + _
      rw [hval]
      simp [hε]
    · show (5 : ℝ) = ((white ℕ).m + (white ℕ).cross ((3 : ℝ) • hP.ev 0)).1 1 + 1 + _
      rw [hval]
      simp [hε]
      norm_num
  refine ⟨c, _, ε, hc, hf, hN, hY,
    (worst_case_error e he hP _ _ ex_posDef.1 ex_posDef.2 c hc (by norm_num) (by norm_num) hf hN hY).2, ?_⟩
  exact (deterministic_reproduced e he hP _ _ ex_posDef.1 c hc (exact1 0 3) List.mem_cons_self (0 : Fin 1) fun _ => rfl).2

end LinPDE.GP
