import Verif.GP.Props
import Verif.PosDef.StrictProps

/-!
# C65: conditioning on point evaluations always succeeds at distinct points

The theorems on conditioning (C01–C06) assume a positive definite joint Gram matrix. Here that hypothesis is discharged:
for strictly positive definite kernels and evaluations at distinct points, for all functionals if the noise is
nondegenerate.
-/

namespace LinPDE.GP
open Matrix LinPDE.Block LinPDE.PosDef

variable {X : Type}

lemma of_psd {k : X → X → ℝ} (h : PSD k) (m : X → ℝ) : (ofKernel m k).Regular := by
  refine ofKernel_regular m k ⟨?_, fun c => ?_⟩
  · ext x y
    simp [h.symm]
  · have := h.fintype (ι := c.support) (fun x => x.1) (fun x => c x)
    refine this.trans (le_of_eq ?_)
    simp only [Finsupp.sum, star_trivial, of_apply]
    rw [← Finset.sum_coe_sort c.support]
    refine Finset.sum_congr rfl fun x _ => ?_
    rw [← Finset.sum_coe_sort c.support]
    exact Finset.sum_congr rfl fun y _ => by ring

/-- Covariance matrix of all measurements. -/
lemma jCov_psd {P : Prior X} (hP : P.Regular) (l : List (Batch P)) :
    (Matrix.of fun i j => P.cov (jL l i) (jL l j)).PosSemidef := by
  refine Matrix.PosSemidef.of_dotProduct_mulVec_nonneg ?_ fun a => ?_
  · ext i j
    simp only [conjTranspose_apply, of_apply, star_trivial]
    rw [hP.symm]
  · have := hP.nonneg (∑ i, a i • jL l i)
    rw [cov_sum] at this
    refine this.trans (le_of_eq ?_)
    simp only [dotProduct, Matrix.mulVec, of_apply, Finset.mul_sum, Pi.star_apply, star_trivial]
    exact Finset.sum_congr rfl fun i _ => Finset.sum_congr rfl fun j _ => by ring

lemma jN_pd {P : Prior X} {l : List (Batch P)} (h : ∀ b ∈ l, b.noiseCov.PosDef) : (jN l).PosDef := by
  refine Matrix.PosDef.of_dotProduct_mulVec_pos ?_ fun a ha => ?_
  · ext i j
    simp only [conjTranspose_apply, star_trivial, jN, of_apply]
    by_cases hij : i.1 = j.1
    · obtain ⟨p, r⟩ := i
      obtain ⟨q, s⟩ := j
      dsimp only at hij
      subst hij
      have := congrFun (congrFun (h _ (List.get_mem l p)).isHermitian r) s
      simpa using this
    · rw [dif_neg hij, dif_neg (fun h => hij h.symm)]
  · have h1 : a ⬝ᵥ (jN l *ᵥ a) = ∑ p : Fin l.length, (fun r => a ⟨p, r⟩) ⬝ᵥ ((l.get p).noiseCov *ᵥ fun r => a ⟨p, r⟩) := by
      simp only [dotProduct, Matrix.mulVec, Fintype.sum_sigma]
      refine Finset.sum_congr rfl fun p _ => Finset.sum_congr rfl fun r _ => ?_
      congr 1
      rw [Finset.sum_eq_single p]
      · refine Finset.sum_congr rfl fun s _ => ?_
        simp [jN]
      · intro q _ hq
        refine Finset.sum_eq_zero fun s _ => ?_
        simp only [jN, of_apply]
        rw [dif_neg (fun hh => hq hh.symm), zero_mul]
      · simp
    rw [star_trivial, h1]
    obtain ⟨⟨p, r⟩, hpr⟩ := Function.ne_iff.mp ha
    refine Finset.sum_pos' (fun p _ => quad_nonneg (h _ (List.get_mem l p)).posSemidef _) ⟨p, Finset.mem_univ _, ?_⟩
    have := (h _ (List.get_mem l p)).dotProduct_mulVec_pos (x := fun r => a ⟨p, r⟩) fun h0 => hpr (congrFun h0 r)
    simpa using this

/-- C65: with nondegenerate noise on every batch, conditioning on any functionals (repeated ones too) succeeds with the
posterior. -/
theorem noisy_succeeds {P : Prior X} (e : Env) (he : e.CholOK) (hP : P.Regular) (b : Batch P) (l : List (Batch P))
    (hN : ∀ d ∈ b :: l, d.noiseCov.PosDef) :
    (jG (b :: l)).PosDef ∧ ∃ c, run e b l = .ok c ∧ (∀ x, c.mean x = postMean (b :: l) x) ∧
      ∀ x y, c.covfunc e x y = .ok (postCov (b :: l) x y) := by
  have hG : (jG (b :: l)).PosDef := Matrix.PosDef.posSemidef_add (jCov_psd hP _) (jN_pd hN)
  exact ⟨hG, run_posterior e he hP b l hG⟩

lemma evTop_mem (x : X) : evTop x ∈ Submodule.span ℝ (Set.range (evTop (X := X))) := Submodule.subset_span ⟨x, rfl⟩

/-- The measured functionals are evaluations at the points `pt`. -/
def At {m : X → ℝ} {k : X → X → ℝ} (l : List (Batch (ofKernel m k))) (pt : Idx l → X) : Prop :=
  ∀ i, (jL l i).1 = evTop (pt i)

lemma at_cov {m : X → ℝ} {k : X → X → ℝ} {l : List (Batch (ofKernel m k))} {pt : Idx l → X} (h : At l pt) (i j : Idx l) :
    (ofKernel m k).cov (jL l i) (jL l j) = k (pt i) (pt j) := by
  have h1 : jL l i = ⟨evTop (pt i), evTop_mem _⟩ := Subtype.ext (h i)
  have h2 : jL l j = ⟨evTop (pt j), evTop_mem _⟩ := Subtype.ext (h j)
  rw [h1, h2]
  rfl

/-- C65: for a strictly positive definite kernel and exact observations, the joint Gram matrix is positive definite
exactly if no point is observed twice. -/
theorem gram_posDef_iff {k : X → X → ℝ} (hk : SPD k) (m : X → ℝ) (l : List (Batch (ofKernel m k))) (pt : Idx l → X)
    (hL : At l pt) (hN : ∀ b ∈ l, b.noise = none) : (jG l).PosDef ↔ Function.Injective pt := by
  have hz : jN l = 0 := by
    ext i j
    simp only [jN, of_apply, Matrix.zero_apply]
    split_ifs with hij
    · have : ∀ b : Batch (ofKernel m k), b.noise = none → b.noiseCov = 0 := fun b hb => by
        unfold Batch.noiseCov
        rw [hb]
      rw [this _ (hN _ (List.get_mem l i.1))]
      rfl
    · rfl
  have e : jG l = Matrix.of fun i j => k (pt i) (pt j) := by
    unfold jG
    rw [hz, add_zero]
    ext i j
    exact at_cov hL i j
  rw [e]
  refine ⟨fun h i j hij => ?_, fun h => hk.posDef h⟩
  by_contra hne
  have := h.dotProduct_mulVec_pos (x := Pi.single i 1 - Pi.single j 1) fun h0 => by
    have := congrFun h0 i
    simp [hne] at this
  have hz : (Matrix.of fun i j => k (pt i) (pt j)) *ᵥ (Pi.single i 1 - Pi.single j 1) = 0 := by
    rw [Matrix.mulVec_sub]
    ext r
    simp [hij]
  rw [hz] at this
  simp at this

/-- C65: a process with strictly positive definite kernel can be conditioned, batch by batch, on evaluations at any
pairwise distinct points, exact or with any noise; exact observations are interpolated with zero variance. -/
theorem interpolation {k : X → X → ℝ} (hk : SPD k) (m : X → ℝ) (e : Env) (he : e.CholOK) (b : Batch (ofKernel m k))
    (l : List (Batch (ofKernel m k))) (pt : Idx (b :: l) → X) (hL : At (b :: l) pt) (hpt : Function.Injective pt)
    (hN : NoisePSD (b :: l)) :
    ∃ c, run e b l = .ok c ∧ (∀ x, c.mean x = postMean (b :: l) x) ∧
      (∀ x y, c.covfunc e x y = .ok (postCov (b :: l) x y)) ∧
      ∀ i : Idx (b :: l), ((b :: l).get i.1).noise = none →
        c.mean (pt i) = ((b :: l).get i.1).Y i.2 ∧ ∀ y, c.covfunc e (pt i) y = .ok 0 := by
  have hP := of_psd hk.toPSD m
  have hG : (jG (b :: l)).PosDef := by
    refine jG_posDef_of_cov _ ?_ hN
    have e1 : (Matrix.of fun i j => (ofKernel m k).cov (jL (b :: l) i) (jL (b :: l) j)) =
        Matrix.of fun i j => k (pt i) (pt j) := by
      ext i j
      exact at_cov hL i j
    rw [e1]
    exact hk.posDef hpt
  obtain ⟨c, hc, h1, h2⟩ := run_posterior e he hP b l hG
  refine ⟨c, hc, h1, h2, fun i hi => ?_⟩
  have hev : ((b :: l).get i.1).L i.2 = hP.ev (pt i) := Subtype.ext (hL i)
  obtain ⟨r1, r2⟩ := exact_row hP hG (List.get_mem (b :: l) i.1) hi i.2
  rw [hev] at r1 r2
  refine ⟨?_, fun y => ?_⟩
  · rw [h1, ← r1]
    exact (postMeanF_apply _ _).symm
  · rw [h2, ← posterior_ev hP, r2]

/-- C65: Matérn, squared-exponential and Wendland processes interpolate at distinct points. -/
theorem closed_form_interpolation {d : ℕ} {k : (Fin d → ℝ) → (Fin d → ℝ) → ℝ}
    (hk : (∃ m : Matern.Par d, (∀ i, m.s i ≠ 0) ∧ k = (Matern.MK.matern m).eval) ∨
      (∃ l : Fin d → ℝ, (∀ i, l i ≠ 0) ∧ k = (ExpQuad.EK.expquad l).eval) ∨
      ∃ (s : ℕ) (l : Fin d → ℝ) (K : Wendland.WendlandCov d), (∀ i, l i ≠ 0) ∧ Wendland.mkWendland d s l = .ok K ∧ k = K.eval)
    (m : (Fin d → ℝ) → ℝ) (e : Env) (he : e.CholOK) (b : Batch (ofKernel m k)) (pt : Fin b.n → Fin d → ℝ)
    (hL : ∀ i, (b.L i).1 = evTop (pt i)) (hpt : Function.Injective pt) (hn : b.noise = none) :
    ∃ c, run e b [] = .ok c ∧ ∀ i, c.mean (pt i) = b.Y i ∧ ∀ y, c.covfunc e (pt i) y = .ok 0 := by
  have hS : SPD k := by
    rcases hk with ⟨m, h, rfl⟩ | ⟨l, h, rfl⟩ | ⟨s, l, K, h, hK, rfl⟩
    · exact (matern_spd_iff m).mpr h
    · exact expquad_spd h
    · exact wendland_spd h hK
  have hz : ∀ i : Idx [b], i.1 = 0 := fun i => Fin.ext (by
    have h : i.1.1 < 1 := i.1.2
    exact Nat.lt_one_iff.mp h)
  have key := interpolation hS m e he b [] (fun i => pt (Fin.cast (by rw [hz i]; rfl) i.2)) ?_ ?_ ?_
  · obtain ⟨c, hc, -, -, h⟩ := key
    exact ⟨c, hc, fun i => h ⟨0, i⟩ hn⟩
  · rintro ⟨p, i⟩
    obtain rfl : p = 0 := hz ⟨p, i⟩
    exact hL i
  · rintro ⟨p, i⟩ ⟨q, j⟩ hij
    obtain rfl : p = 0 := hz ⟨p, i⟩
    obtain rfl : q = 0 := hz ⟨q, j⟩
    have := hpt hij
    have : i = j := Fin.ext (congrArg Fin.val this)
    rw [this]
  · intro d hd
    obtain rfl : d = b := by simpa using hd
    unfold Batch.noiseCov
    rw [hn]
    exact Matrix.PosSemidef.zero

/-- Three exact observations of a Matérn-5/2 process in two dimensions. -/
example : ∃ (b : Batch (ofKernel 0 (Matern.MK.matern (⟨2, fun _ => 3⟩ : Matern.Par 2)).eval)) (pt : Fin b.n → Fin 2 → ℝ),
    b.n = 3 ∧ (∀ i, (b.L i).1 = evTop (pt i)) ∧ Function.Injective pt ∧ b.noise = none := by
  refine ⟨⟨3, fun i => ⟨evTop fun _ => (i : ℝ), evTop_mem _⟩, none, fun i => i⟩, fun i _ => (i : ℝ), rfl,
    fun i => rfl, fun i j h => ?_, rfl⟩
  have h0 : ((i : ℕ) : ℝ) = ((j : ℕ) : ℝ) := congrFun h 0
  exact Fin.ext (Nat.cast_injective h0)

/-- Non-vacuity of `noisy_succeeds`: the same point observed twice. -/
example : ∃ b : Batch (white ℕ), ∃ l, (white ℕ).Regular ∧ l ≠ [] ∧ ∀ d ∈ b :: l, d.noiseCov.PosDef := by
  refine ⟨noisy1 0 1, [noisy1 0 2], white_regular ℕ, by simp, fun d hd => ?_⟩
  have : d.noiseCov.PosDef := by
    rcases List.mem_cons.mp hd with rfl | hd
    · exact Matrix.PosDef.one
    · obtain rfl : d = noisy1 0 2 := by simpa using hd
      exact Matrix.PosDef.one
  exact this

end LinPDE.GP
