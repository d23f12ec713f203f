import Mathlib.Analysis.Matrix.Order
import Mathlib.Analysis.SpecialFunctions.Exponential
import Mathlib.Analysis.Complex.Exponential
import Mathlib.Analysis.SpecialFunctions.Pow.Real
import Mathlib.Analysis.SpecialFunctions.ImproperIntegrals
import Mathlib.MeasureTheory.Integral.IntegralEqImproper

/-! # Positive semidefinite functions of two arguments: closure properties -/

namespace LinPDE.PosDef
open MeasureTheory Filter Topology

variable {α β : Type}

/-- A covariance function: symmetric, and every Gram matrix is positive semidefinite. -/
structure PSD (k : α → α → ℝ) : Prop where
  symm : ∀ x y, k x y = k y x
  nonneg : ∀ (N : ℕ) (x : Fin N → α) (a : Fin N → ℝ), 0 ≤ ∑ i, ∑ j, a i * a j * k (x i) (x j)

lemma PSD.congr {k m : α → α → ℝ} (h : PSD k) (e : ∀ x y, m x y = k x y) : PSD m := by
  have : m = k := by funext x y; exact e x y
  exact this ▸ h

/-- The sums may be indexed by any finite type. -/
lemma PSD.fintype {k : α → α → ℝ} (h : PSD k) {ι : Type} [Fintype ι] (x : ι → α) (a : ι → ℝ) :
    0 ≤ ∑ i, ∑ j, a i * a j * k (x i) (x j) := by
  have e := Fintype.equivFin ι
  refine (h.nonneg (Fintype.card ι) (x ∘ e.symm) (a ∘ e.symm)).trans (le_of_eq ?_)
  rw [← Equiv.sum_comp e]
  refine Finset.sum_congr rfl fun i _ => ?_
  rw [← Equiv.sum_comp e]
  simp

lemma PSD.posSemidef {k : α → α → ℝ} (h : PSD k) {N : ℕ} (x : Fin N → α) :
    (Matrix.of fun i j => k (x i) (x j)).PosSemidef := by
  rw [Matrix.posSemidef_iff_dotProduct_mulVec]
  refine ⟨?_, fun a => ?_⟩
  · ext i j
    simp [h.symm]
  · refine (h.nonneg N x a).trans (le_of_eq ?_)
    simp only [dotProduct, Matrix.mulVec, Finset.mul_sum, Matrix.of_apply, Pi.star_apply, star_trivial]
    exact Finset.sum_congr rfl fun i _ => Finset.sum_congr rfl fun j _ => by ring

lemma PSD.of_posSemidef {k : α → α → ℝ} (hs : ∀ x y, k x y = k y x)
    (h : ∀ (N : ℕ) (x : Fin N → α), (Matrix.of fun i j => k (x i) (x j)).PosSemidef) : PSD k := by
  refine ⟨hs, fun N x a => ?_⟩
  have := ((Matrix.posSemidef_iff_dotProduct_mulVec).mp (h N x)).2 a
  refine this.trans (le_of_eq ?_)
  simp only [dotProduct, Matrix.mulVec, Finset.mul_sum, Matrix.of_apply, Pi.star_apply, star_trivial]
  exact Finset.sum_congr rfl fun i _ => Finset.sum_congr rfl fun j _ => by ring

lemma PSD.comp {k : α → α → ℝ} (h : PSD k) (f : β → α) : PSD fun x y => k (f x) (f y) :=
  ⟨fun _ _ => h.symm _ _, fun N x a => h.nonneg N (f ∘ x) a⟩

lemma PSD.rankOne (f : α → ℝ) : PSD fun x y => f x * f y := by
  refine ⟨fun _ _ => mul_comm _ _, fun N x a => ?_⟩
  have : ∑ i, ∑ j, a i * a j * (f (x i) * f (x j)) = (∑ i, a i * f (x i)) ^ 2 := by
    rw [sq, Finset.sum_mul_sum]
    exact Finset.sum_congr rfl fun i _ => Finset.sum_congr rfl fun j _ => by ring
  rw [this]
  positivity

lemma PSD.const {c : ℝ} (hc : 0 ≤ c) : PSD fun _ _ : α => c :=
  (PSD.rankOne fun _ => Real.sqrt c).congr fun _ _ => (Real.mul_self_sqrt hc).symm

lemma PSD.add {k m : α → α → ℝ} (hk : PSD k) (hm : PSD m) : PSD fun x y => k x y + m x y := by
  refine ⟨fun x y => by rw [hk.symm, hm.symm], fun N x a => ?_⟩
  have := add_nonneg (hk.nonneg N x a) (hm.nonneg N x a)
  refine this.trans (le_of_eq ?_)
  rw [← Finset.sum_add_distrib]
  refine Finset.sum_congr rfl fun i _ => ?_
  rw [← Finset.sum_add_distrib]
  exact Finset.sum_congr rfl fun j _ => by ring

lemma PSD.smul {k : α → α → ℝ} (hk : PSD k) {c : ℝ} (hc : 0 ≤ c) : PSD fun x y => c * k x y := by
  refine ⟨fun x y => by rw [hk.symm], fun N x a => ?_⟩
  refine (mul_nonneg hc (hk.nonneg N x a)).trans (le_of_eq ?_)
  simp only [Finset.mul_sum]
  exact Finset.sum_congr rfl fun i _ => Finset.sum_congr rfl fun j _ => by ring

lemma PSD.sum {ι : Type} (s : Finset ι) {k : ι → α → α → ℝ} (h : ∀ i ∈ s, PSD (k i)) : PSD fun x y => ∑ i ∈ s, k i x y := by
  classical
  induction s using Finset.induction_on with
  | empty => exact (PSD.const le_rfl).congr fun _ _ => by simp
  | insert i s hi ih =>
    exact ((h i (by simp)).add (ih fun j hj => h j (by simp [hj]))).congr fun _ _ => by rw [Finset.sum_insert hi]

/-- Schur product theorem. -/
lemma PSD.mul {k m : α → α → ℝ} (hk : PSD k) (hm : PSD m) : PSD fun x y => k x y * m x y :=
  PSD.of_posSemidef (fun x y => by rw [hk.symm, hm.symm]) fun _ x => (hk.posSemidef x).hadamard (hm.posSemidef x)

lemma PSD.pow {k : α → α → ℝ} (hk : PSD k) (n : ℕ) : PSD fun x y => k x y ^ n := by
  induction n with
  | zero => exact (PSD.const zero_le_one).congr fun _ _ => by simp
  | succ n ih => exact (ih.mul hk).congr fun _ _ => by rw [pow_succ]

lemma PSD.limit {ι : Type} {l : Filter ι} [l.NeBot] {k : ι → α → α → ℝ} {m : α → α → ℝ} (h : ∀ᶠ n in l, PSD (k n))
    (ht : ∀ x y, Tendsto (fun n => k n x y) l (𝓝 (m x y))) : PSD m := by
  refine ⟨fun x y => ?_, fun N x a => ?_⟩
  · refine tendsto_nhds_unique ((ht x y).congr' ?_) (ht y x)
    filter_upwards [h] with n hn using hn.symm x y
  · refine ge_of_tendsto (tendsto_finsetSum _ fun i _ => tendsto_finsetSum _ fun j _ => (ht (x i) (x j)).const_mul (a i * a j)) ?_
    filter_upwards [h] with n hn using hn.nonneg N x a

lemma PSD.exp {k : α → α → ℝ} (hk : PSD k) : PSD fun x y => Real.exp (k x y) := by
  refine PSD.limit (l := atTop) (k := fun n x y => ∑ i ∈ Finset.range n, (i.factorial : ℝ)⁻¹ * k x y ^ i)
    (Eventually.of_forall fun n => PSD.sum _ fun i _ => (hk.pow i).smul (by positivity)) fun x y => ?_
  have h := (NormedSpace.exp_series_hasSum_exp' (𝕂 := ℝ) (k x y)).tendsto_sum_nat
  rw [← Real.exp_eq_exp_ℝ] at h
  simpa using h

lemma PSD.integral {k : ℝ → α → α → ℝ} {μ : Measure ℝ} (h : ∀ᵐ v ∂μ, PSD (k v))
    (hi : ∀ x y, Integrable (fun v => k v x y) μ) : PSD fun x y => ∫ v, k v x y ∂μ := by
  refine ⟨fun x y => integral_congr_ae ?_, fun N x a => ?_⟩
  · filter_upwards [h] with v hv using hv.symm x y
  · have : ∑ i, ∑ j, a i * a j * ∫ v, k v (x i) (x j) ∂μ = ∫ v, ∑ i, ∑ j, a i * a j * k v (x i) (x j) ∂μ := by
      rw [integral_finsetSum _ fun i _ => integrable_finsetSum _ fun j _ => (hi _ _).const_mul _]
      refine Finset.sum_congr rfl fun i _ => ?_
      rw [integral_finsetSum _ fun j _ => (hi _ _).const_mul _]
      exact Finset.sum_congr rfl fun j _ => (integral_const_mul _ _).symm
    rw [this]
    refine integral_nonneg_of_ae ?_
    filter_upwards [h] with v hv using hv.nonneg N x a

/-- Centring at a point. -/
lemma PSD.centre {k : α → α → ℝ} (hk : PSD k) (o : α) : PSD fun x y => k x y - k x o - k o y + k o o := by
  refine ⟨fun x y => by rw [hk.symm x y, hk.symm x o, hk.symm o y]; ring, fun N x a => ?_⟩
  refine (hk.fintype (ι := Option (Fin N)) (fun i => i.elim o x) (fun i => i.elim (-∑ j, a j) a)).trans (le_of_eq ?_)
  simp only [Fintype.sum_option, Option.elim, mul_add, mul_sub, Finset.sum_add_distrib, Finset.sum_sub_distrib]
  have e1 : ∀ f : Fin N → ℝ, ∑ i, ∑ j, a i * a j * f i = (∑ j, a j) * ∑ i, a i * f i := fun f => by
    rw [Finset.sum_comm, Finset.sum_mul_sum]
    exact Finset.sum_congr rfl fun i _ => Finset.sum_congr rfl fun j _ => by ring
  have e2 : ∀ f : Fin N → ℝ, ∑ i, ∑ j, a i * a j * f j = (∑ j, a j) * ∑ i, a i * f i := fun f => by
    rw [Finset.sum_mul_sum]
    exact Finset.sum_congr rfl fun i _ => Finset.sum_congr rfl fun j _ => by ring
  rw [e1 fun i => k (x i) o, e2 fun j => k o (x j), e1 fun _ => k o o]
  have e3 : ∀ (S : ℝ) (f : Fin N → ℝ), ∑ j, -S * a j * f j = -(S * ∑ j, a j * f j) := fun S f => by
    rw [Finset.mul_sum, ← Finset.sum_neg_distrib]
    exact Finset.sum_congr rfl fun j _ => by ring
  have e4 : ∀ (S : ℝ) (f : Fin N → ℝ), ∑ j, a j * -S * f j = -(S * ∑ j, a j * f j) := fun S f => by
    rw [Finset.mul_sum, ← Finset.sum_neg_distrib]
    exact Finset.sum_congr rfl fun j _ => by ring
  have e5 : ∑ i, a i * k o o = (∑ i, a i) * k o o := by rw [Finset.sum_mul]
  rw [e3 _ fun j => k o (x j), e4 _ fun j => k (x j) o, e5]
  ring

variable {d : ℕ}

/-- Squared distance. -/
def dsq (x y : Fin d → ℝ) : ℝ := ∑ i, (x i - y i) ^ 2

lemma dsq_nonneg (x y : Fin d → ℝ) : 0 ≤ dsq x y := Finset.sum_nonneg fun _ _ => sq_nonneg _

/-- Gaussian functions of the distance. -/
lemma PSD.gauss {c : ℝ} (hc : 0 ≤ c) : PSD fun x y : Fin d → ℝ => Real.exp (-(c * dsq x y)) := by
  have h1 : PSD fun x y : Fin d → ℝ => ∑ i, x i * y i := PSD.sum _ fun i _ => PSD.rankOne fun x : Fin d → ℝ => x i
  have h2 := ((h1.smul (c := 2 * c) (by positivity)).exp).mul (PSD.rankOne fun x : Fin d → ℝ => Real.exp (-(c * ∑ i, x i ^ 2)))
  refine h2.congr fun x y => ?_
  rw [← Real.exp_add, ← Real.exp_add]
  congr 1
  unfold dsq
  simp only [Finset.mul_sum, ← Finset.sum_neg_distrib, ← Finset.sum_add_distrib]
  exact Finset.sum_congr rfl fun i _ => by ring

/-! ### The exponential of the distance -/

/-- The integrand that represents the square root. -/
noncomputable def rootInt (s u : ℝ) : ℝ := (1 - Real.exp (-(u * s))) * u ^ (-(3 / 2) : ℝ)

lemma rootInt_nonneg {s u : ℝ} (hs : 0 ≤ s) (hu : 0 < u) : 0 ≤ rootInt s u := by
  refine mul_nonneg ?_ (Real.rpow_nonneg hu.le _)
  have : Real.exp (-(u * s)) ≤ 1 := Real.exp_le_one_iff.mpr (by have := mul_nonneg hu.le hs; linarith)
  linarith

lemma rootInt_integrable {s : ℝ} (hs : 0 ≤ s) : IntegrableOn (rootInt s) (Set.Ioi 0) := by
  have hm : ∀ S ⊆ Set.Ioi (0 : ℝ), MeasurableSet S → AEStronglyMeasurable (rootInt s) (volume.restrict S) := by
    intro S _ hS
    refine Measurable.aestronglyMeasurable ?_
    unfold rootInt
    fun_prop
  rw [← Set.Ioc_union_Ioi_eq_Ioi (zero_le_one' ℝ), integrableOn_union]
  constructor
  · have h1 : IntegrableOn (fun u : ℝ => s * u ^ (-(1 / 2) : ℝ)) (Set.Ioc 0 1) := by
      refine Integrable.const_mul ?_ s
      have := (intervalIntegral.intervalIntegrable_rpow' (a := 0) (b := 1) (r := (-(1 / 2) : ℝ)) (by norm_num))
      rwa [intervalIntegrable_iff_integrableOn_Ioc_of_le zero_le_one] at this
    refine h1.mono' (hm _ Set.Ioc_subset_Ioi_self measurableSet_Ioc) ?_
    refine (ae_restrict_iff' measurableSet_Ioc).mpr (Eventually.of_forall fun u hu => ?_)
    rw [Real.norm_of_nonneg (rootInt_nonneg hs hu.1)]
    unfold rootInt
    have h2 : (1 - Real.exp (-(u * s))) ≤ u * s := by
      have := Real.add_one_le_exp (-(u * s))
      linarith
    have h3 : u ^ (-(1 / 2) : ℝ) = u * u ^ (-(3 / 2) : ℝ) := by
      rw [← Real.rpow_one_add' hu.1.le (by norm_num)]
      norm_num
    rw [h3]
    have := mul_le_mul_of_nonneg_right h2 (Real.rpow_nonneg hu.1.le (-(3 / 2) : ℝ))
    linarith
  · have h1 : IntegrableOn (fun u : ℝ => u ^ (-(3 / 2) : ℝ)) (Set.Ioi 1) :=
      integrableOn_Ioi_rpow_of_lt (by norm_num) one_pos
    refine h1.mono' (hm _ (Set.Ioi_subset_Ioi zero_le_one) measurableSet_Ioi) ?_
    refine (ae_restrict_iff' measurableSet_Ioi).mpr (Eventually.of_forall fun u hu => ?_)
    have hu0 : 0 < u := lt_trans one_pos hu
    rw [Real.norm_of_nonneg (rootInt_nonneg hs hu0)]
    unfold rootInt
    have h2 : (1 - Real.exp (-(u * s))) ≤ 1 := by
      have := Real.exp_pos (-(u * s))
      linarith
    have := mul_le_mul_of_nonneg_right h2 (Real.rpow_nonneg hu0.le (-(3 / 2) : ℝ))
    linarith

/-- The normalising constant. -/
noncomputable def rootConst : ℝ := ∫ u in Set.Ioi 0, rootInt 1 u

lemma rootConst_pos : 0 < rootConst := by
  unfold rootConst
  rw [setIntegral_pos_iff_support_of_nonneg_ae]
  · have : Function.support (rootInt 1) ∩ Set.Ioi 0 = Set.Ioi 0 := by
      refine Set.inter_eq_right.mpr fun u hu => ?_
      have hu : 0 < u := hu
      refine mul_ne_zero ?_ (Real.rpow_pos_of_pos hu _).ne'
      have : Real.exp (-(u * 1)) < 1 := Real.exp_lt_one_iff.mpr (by linarith)
      linarith
    rw [this]
    simp
  · exact (ae_restrict_iff' measurableSet_Ioi).mpr (Eventually.of_forall fun u hu => rootInt_nonneg zero_le_one hu)
  · exact rootInt_integrable zero_le_one

/-- The square root is a mixture of `1 - exp (-(u s))`. -/
lemma integral_rootInt {s : ℝ} (hs : 0 ≤ s) : ∫ u in Set.Ioi 0, rootInt s u = rootConst * Real.sqrt s := by
  rcases hs.eq_or_lt with rfl | hs
  · simp [rootInt]
  · have h := integral_comp_mul_left_Ioi (rootInt 1) 0 hs
    rw [mul_zero] at h
    have e : ∀ u ∈ Set.Ioi (0 : ℝ), rootInt s u = s ^ ((3 / 2) : ℝ) * rootInt 1 (s * u) := by
      intro u hu
      unfold rootInt
      rw [Real.mul_rpow hs.le (le_of_lt hu), Real.rpow_neg hs.le]
      have := (Real.rpow_pos_of_pos hs (3 / 2)).ne'
      rw [mul_one, mul_comm s u]
      field_simp
    rw [setIntegral_congr_fun measurableSet_Ioi e, integral_const_mul, h, Real.sqrt_eq_rpow]
    have : s ^ ((3 / 2) : ℝ) * s⁻¹ = s ^ ((1 / 2) : ℝ) := by
      rw [← Real.rpow_neg_one, ← Real.rpow_add hs]
      norm_num
    rw [smul_eq_mul, ← mul_assoc, this, mul_comm]
    rfl

lemma integral_four {μ : Measure ℝ} {f g h l : ℝ → ℝ} (hf : Integrable f μ) (hg : Integrable g μ) (hh : Integrable h μ)
    (hl : Integrable l μ) : ∫ u, (f u + g u - h u - l u) ∂μ = ∫ u, f u ∂μ + ∫ u, g u ∂μ - ∫ u, h u ∂μ - ∫ u, l u ∂μ := by
  have h1 : Integrable (fun u => f u + g u) μ := hf.add hg
  have h2 : Integrable (fun u => f u + g u - h u) μ := h1.sub hh
  rw [integral_sub h2 hl, integral_sub h1 hh, integral_add hf hg]

/-- `exp (-sqrt (|x - y|² + v))`. -/
lemma PSD.expDist {v : ℝ} (hv : 0 ≤ v) : PSD fun x y : Fin d → ℝ => Real.exp (-Real.sqrt (dsq x y + v)) := by
  let q : (Fin d → ℝ) → (Fin d → ℝ) → ℝ := fun x y => Real.sqrt (dsq x y + v)
  let o : Fin d → ℝ := 0
  have h1 : PSD fun x y : Fin d → ℝ => ∫ u in Set.Ioi (0 : ℝ),
      (rootInt (dsq x o + v) u + rootInt (dsq o y + v) u - rootInt (dsq x y + v) u - rootInt (dsq o o + v) u) := by
    refine PSD.integral ((ae_restrict_iff' measurableSet_Ioi).mpr (Eventually.of_forall fun u hu => ?_)) fun x y => ?_
    · have hu : 0 < u := hu
      have := (((PSD.gauss (d := d) hu.le).centre o).smul (c := Real.exp (-(u * v)) * u ^ (-(3 / 2) : ℝ))
        (mul_nonneg (Real.exp_pos _).le (Real.rpow_nonneg hu.le _)))
      refine this.congr fun x y => ?_
      unfold rootInt
      have e : ∀ t, Real.exp (-(u * (t + v))) = Real.exp (-(u * t)) * Real.exp (-(u * v)) := fun t => by
        rw [← Real.exp_add]; congr 1; ring
      simp only [e]
      ring
    · have := fun x y : Fin d → ℝ => rootInt_integrable (s := dsq x y + v) (add_nonneg (dsq_nonneg x y) hv)
      exact (((this x o).add (this o y)).sub (this x y)).sub (this o o)
  have h2 : PSD fun x y : Fin d → ℝ => q x o + q o y - q x y - q o o := by
    refine (h1.smul (c := rootConst⁻¹) (inv_nonneg.mpr rootConst_pos.le)).congr fun x y => ?_
    have hi := fun x y : Fin d → ℝ => rootInt_integrable (s := dsq x y + v) (add_nonneg (dsq_nonneg x y) hv)
    have he := fun x y : Fin d → ℝ => integral_rootInt (s := dsq x y + v) (add_nonneg (dsq_nonneg x y) hv)
    have e1 : ∫ u in Set.Ioi (0 : ℝ),
        (rootInt (dsq x o + v) u + rootInt (dsq o y + v) u - rootInt (dsq x y + v) u - rootInt (dsq o o + v) u) =
        rootConst * q x o + rootConst * q o y - rootConst * q x y - rootConst * q o o := by
      rw [← he, ← he, ← he, ← he]
      exact integral_four (hi x o) (hi o y) (hi x y) (hi o o)
    rw [e1]
    have := rootConst_pos.ne'
    field_simp
  have h3 := (h2.exp.mul (PSD.rankOne fun x => Real.exp (-q x o))).smul (Real.exp_pos (q o o)).le
  refine h3.congr fun x y => ?_
  rw [← Real.exp_add, ← Real.exp_add, ← Real.exp_add]
  congr 1
  have : q o y = q y o := by
    simp only [q, dsq]
    congr 2
    exact Finset.sum_congr rfl fun i _ => by ring
  rw [this]
  simp only [q]
  ring

end LinPDE.PosDef
