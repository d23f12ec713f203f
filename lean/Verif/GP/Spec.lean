import Verif.GP.Model

/-!
# Specification of Gaussian-process regression

The posterior of a Gaussian process given *all* observations at once: the scalar measurements of all
batches are stacked (index: batch, position in the batch), the Gram matrix is the joint covariance
of the measurements plus the block-diagonal noise covariance.
-/

namespace LinPDE.GP
open Matrix

variable {X : Type} {P : Prior X}

/-- What makes `(m, k)` a Gaussian process on the functionals `Λ`: point evaluations are admissible,
covariances are symmetric and variances are nonnegative. -/
structure Prior.Regular (P : Prior X) : Prop where
  ev_mem : ∀ x, ((LinearMap.proj x : (X → ℝ) →ₗ[ℝ] ℝ) ∘ₗ P.F.subtype) ∈ P.Λ
  symm : ∀ L L' : P.Λ, P.cov L L' = P.cov L' L
  nonneg : ∀ L : P.Λ, 0 ≤ P.cov L L

/-- Point evaluation as a functional. -/
def Prior.Regular.ev (h : P.Regular) (x : X) : P.Λ := ⟨_, h.ev_mem x⟩

/-- Noise covariance of a batch (zero if there is no noise). -/
def Batch.noiseCov (b : Batch P) : Matrix (Fin b.n) (Fin b.n) ℝ :=
  match b.noise with
  | none => 0
  | some (_, cov) => cov

/-- Index of a scalar measurement: the batch and the position inside it. -/
abbrev Idx (l : List (Batch P)) : Type := (p : Fin l.length) × Fin (l.get p).n

/-- All measured functionals. -/
def jL (l : List (Batch P)) (i : Idx l) : P.Λ := (l.get i.1).L i.2

/-- Stacked residuals `y - L m - E[b]`. -/
def jR (l : List (Batch P)) (i : Idx l) : ℝ :=
  (l.get i.1).Y i.2 - ((l.get i.1).L i.2).1 P.m - (l.get i.1).bMean i.2

/-- Block-diagonal noise: measurements of different batches have independent noise. -/
def jN (l : List (Batch P)) : Matrix (Idx l) (Idx l) ℝ := Matrix.of fun i j =>
  if h : i.1 = j.1 then (l.get i.1).noiseCov i.2 (Fin.cast (by rw [h]) j.2) else 0

/-- Joint covariance matrix of all (noisy) measurements. -/
def jG (l : List (Batch P)) : Matrix (Idx l) (Idx l) ℝ :=
  (Matrix.of fun i j => P.cov (jL l i) (jL l j)) + jN l

/-- Posterior mean: `m(x) + k(x, L) G⁻¹ (y - L m - E[b])`. -/
noncomputable def postMean (l : List (Batch P)) (x : X) : ℝ :=
  P.m.1 x + ∑ i, (P.cross (jL l i)).1 x * ((jG l)⁻¹ *ᵥ jR l) i

/-- Posterior covariance: `k(x, y) - k(x, L) G⁻¹ k(L, y)`. -/
noncomputable def postCov (l : List (Batch P)) (x y : X) : ℝ :=
  P.k x y - ∑ i, (P.cross (jL l i)).1 x * ((jG l)⁻¹ *ᵥ fun j => (P.cross (jL l j)).1 y) i

/-- The posterior mean as an admissible function: a linear combination of the prior mean and the
cross-covariances. -/
noncomputable def postMeanF (l : List (Batch P)) : P.F :=
  P.m + ∑ i, ((jG l)⁻¹ *ᵥ jR l) i • P.cross (jL l i)

/-- Sections of the posterior covariance as admissible functions. -/
noncomputable def postSecF (l : List (Batch P)) (x : X) : P.F :=
  ⟨P.k x, P.sec_mem x⟩ - ∑ i, (P.cross (jL l i)).1 x • ∑ j, (jG l)⁻¹ i j • P.cross (jL l j)

/-- `x ↦ L(k_post(x, ·))` as an admissible function. -/
noncomputable def postCrossF (l : List (Batch P)) (L : P.Λ) : P.F :=
  P.cross L - ∑ i, ((jG l)⁻¹ *ᵥ fun j => L.1 (P.cross (jL l j))) i • P.cross (jL l i)

lemma postMeanF_apply (l : List (Batch P)) (x : X) : (postMeanF l).1 x = postMean l x := by
  simp [postMeanF, postMean, mul_comm]

lemma postSecF_apply (l : List (Batch P)) (x : X) : (postSecF l x).1 = postCov l x := by
  funext y
  simp [postSecF, postCov, Matrix.mulVec, dotProduct]

lemma postCrossF_apply (l : List (Batch P)) (L : P.Λ) (x : X) :
    (postCrossF l L).1 x = L.1 (postSecF l x) := by
  simp only [postCrossF, postSecF, map_sub, map_sum, map_smul, Matrix.mulVec, dotProduct, Prior.cross,
    Submodule.coe_sub, Pi.sub_apply, Submodule.coe_sum, Finset.sum_apply, Submodule.coe_smul, Pi.smul_apply,
    smul_eq_mul]
  congr 1
  refine Finset.sum_congr rfl fun i _ => ?_
  ring

/-- The posterior process given the observations `l`, as a process on the same function space. -/
noncomputable def posterior (P : Prior X) (l : List (Batch P)) : Prior X where
  F := P.F
  m := postMeanF l
  k := postCov l
  sec_mem x := postSecF_apply l x ▸ (postSecF l x).2
  Λ := P.Λ
  cross_mem L hL := by
    have : (fun x => L ⟨postCov l x, postSecF_apply l x ▸ (postSecF l x).2⟩) = (postCrossF l ⟨L, hL⟩).1 := by
      funext x
      rw [postCrossF_apply]
      show L _ = L _
      congr 1
      exact Subtype.ext (postSecF_apply l x).symm
    rw [this]
    exact (postCrossF l ⟨L, hL⟩).2

/-- Covariance of two functionals under the posterior, spelled out. -/
lemma posterior_cov (l : List (Batch P)) (L L' : P.Λ) :
    (posterior P l).cov L L' = P.cov L L' -
      ∑ i, L.1 (P.cross (jL l i)) * ((jG l)⁻¹ *ᵥ fun j => L'.1 (P.cross (jL l j))) i := by
  have h : (posterior P l).cross L' = postCrossF l L' := by
    apply Subtype.ext
    funext x
    rw [postCrossF_apply]
    show L'.1 _ = L'.1 _
    congr 1
    exact Subtype.ext (postSecF_apply l x).symm
  show L.1 ((posterior P l).cross L') = _
  rw [h]
  simp only [postCrossF, map_sub, map_sum, map_smul, smul_eq_mul, Prior.cov]
  congr 1
  refine Finset.sum_congr rfl fun i _ => mul_comm _ _

end LinPDE.GP
