import Verif.PosDef.Props
import Mathlib.LinearAlgebra.LinearIndependent.Basic

/-! # Strictly positive definite functions: null vectors, closure properties -/

namespace LinPDE.PosDef
open MeasureTheory Filter Topology

variable {α β : Type}

/-- Strict positive definiteness: a covariance function whose Gram matrices at distinct points have no null vector. -/
structure SPD (k : α → α → ℝ) : Prop extends PSD k where
  definite : ∀ (N : ℕ) (x : Fin N → α), Function.Injective x → ∀ a : Fin N → ℝ,
    ∑ i, ∑ j, a i * a j * k (x i) (x j) = 0 → a = 0

/-- The function represented by a null vector vanishes everywhere. -/
lemma PSD.null {k : α → α → ℝ} (h : PSD k) {ι : Type} [Fintype ι] {x : ι → α} {a : ι → ℝ}
    (h0 : ∑ i, ∑ j, a i * a j * k (x i) (x j) = 0) (z : α) : ∑ i, a i * k z (x i) = 0 := by
  set S := ∑ i, a i * k z (x i) with hS
  have hq : ∀ t : ℝ, 0 ≤ t * t * k z z + 2 * t * S := by
    intro t
    refine (h.fintype (ι := Option ι) (fun i => i.elim z x) (fun i => i.elim t a)).trans (le_of_eq ?_)
    simp only [Fintype.sum_option, Option.elim, Finset.sum_add_distrib]
    rw [h0]
    have e1 : ∑ j, t * a j * k z (x j) = t * S := by
      rw [hS, Finset.mul_sum]
      exact Finset.sum_congr rfl fun i _ => by ring
    have e2 : ∑ j, a j * t * k (x j) z = t * S := by
      rw [hS, Finset.mul_sum]
      exact Finset.sum_congr rfl fun i _ => by rw [h.symm]; ring
    rw [e1, e2]
    ring
  by_contra hne
  have hk : 0 ≤ k z z := by simpa using h.nonneg 1 (fun _ => z) (fun _ => 1)
  have := hq (-S / (k z z + 1))
  have hp : 0 < k z z + 1 := by linarith
  have e : -S / (k z z + 1) * (-S / (k z z + 1)) * k z z + 2 * (-S / (k z z + 1)) * S =
      -(S ^ 2 * (k z z + 2)) / (k z z + 1) ^ 2 := by
    field_simp
    ring
  rw [e] at this
  have h2 : 0 < S ^ 2 * (k z z + 2) / (k z z + 1) ^ 2 := by positivity
  rw [neg_div] at this
  linarith

/-- Strictness: the sections of the kernel at distinct points are linearly independent. -/
lemma SPD.of_sections {k : α → α → ℝ} (h : PSD k)
    (hi : ∀ (s : Finset α) (a : α → ℝ), (∀ z, ∑ x ∈ s, a x * k z x = 0) → ∀ x ∈ s, a x = 0) : SPD k := by
  classical
  refine ⟨h, fun N x hx a h0 => ?_⟩
  have h1 := h.null h0
  funext i
  have h2 := hi (Finset.univ.image x) (fun y => if h : ∃ i, x i = y then a h.choose else 0) (fun z => ?_) (x i) (by simp)
  · have he : ∃ j, x j = x i := ⟨i, rfl⟩
    simp only [dif_pos he] at h2
    rwa [hx he.choose_spec] at h2
  · rw [Finset.sum_image fun i _ j _ h => hx h, ← h1 z]
    refine Finset.sum_congr rfl fun j _ => ?_
    have he : ∃ l, x l = x j := ⟨j, rfl⟩
    rw [dif_pos he, hx he.choose_spec]

lemma SPD.sections {k : α → α → ℝ} (h : SPD k) (s : Finset α) (a : α → ℝ)
    (h0 : ∀ z ∈ s, ∑ x ∈ s, a x * k z x = 0) : ∀ x ∈ s, a x = 0 := by
  have e := s.equivFin
  have h1 := h.definite s.card (fun i => (e.symm i).1) (fun i j hij => e.symm.injective (Subtype.ext hij))
    (fun i => a (e.symm i).1) ?_
  · intro x hx
    have := congrFun h1 (e ⟨x, hx⟩)
    simpa using this
  · refine Finset.sum_eq_zero fun i _ => ?_
    have h2 := h0 (e.symm i).1 (e.symm i).2
    rw [← Finset.sum_coe_sort s, ← Equiv.sum_comp e.symm] at h2
    simp only [mul_assoc]
    rw [← Finset.mul_sum, h2, mul_zero]

/-- The Gram matrix over any finite index type. -/
lemma SPD.posDef {k : α → α → ℝ} (h : SPD k) {ι : Type} [Fintype ι] {x : ι → α} (hx : Function.Injective x) :
    (Matrix.of fun i j => k (x i) (x j)).PosDef := by
  classical
  refine Matrix.PosDef.of_dotProduct_mulVec_pos ?_ fun a ha => ?_
  · ext i j
    simp [h.symm]
  · have e : star a ⬝ᵥ (Matrix.of fun i j => k (x i) (x j)).mulVec a = ∑ i, ∑ j, a i * a j * k (x i) (x j) := by
      simp only [dotProduct, Matrix.mulVec, Finset.mul_sum, Matrix.of_apply, Pi.star_apply, star_trivial]
      exact Finset.sum_congr rfl fun i _ => Finset.sum_congr rfl fun j _ => by ring
    rw [e]
    refine lt_of_le_of_ne (h.toPSD.fintype x a) fun h0 => ha ?_
    have h1 := h.toPSD.null h0.symm
    have h2 := h.sections (Finset.univ.image x) (fun y => if h : ∃ i, x i = y then a h.choose else 0) (fun z _ => ?_)
    · funext i
      have := h2 (x i) (by simp)
      have he : ∃ j, x j = x i := ⟨i, rfl⟩
      simp only [dif_pos he] at this
      rwa [hx he.choose_spec] at this
    · rw [Finset.sum_image fun i _ j _ h => hx h, ← h1 z]
      refine Finset.sum_congr rfl fun j _ => ?_
      have he : ∃ l, x l = x j := ⟨j, rfl⟩
      rw [dif_pos he, hx he.choose_spec]

lemma SPD.congr {k m : α → α → ℝ} (h : SPD k) (e : ∀ x y, m x y = k x y) : SPD m := by
  have : m = k := by funext x y; exact e x y
  exact this ▸ h

lemma SPD.comp {k : α → α → ℝ} (h : SPD k) {f : β → α} (hf : Function.Injective f) : SPD fun x y => k (f x) (f y) :=
  ⟨h.toPSD.comp f, fun N x hx a h0 => h.definite N (f ∘ x) (hf.comp hx) a h0⟩

lemma SPD.smul {k : α → α → ℝ} (h : SPD k) {c : ℝ} (hc : 0 < c) : SPD fun x y => c * k x y := by
  refine ⟨h.toPSD.smul hc.le, fun N x hx a h0 => h.definite N x hx a ?_⟩
  have e : ∑ i, ∑ j, a i * a j * (c * k (x i) (x j)) = c * ∑ i, ∑ j, a i * a j * k (x i) (x j) := by
    simp only [Finset.mul_sum]
    exact Finset.sum_congr rfl fun i _ => Finset.sum_congr rfl fun j _ => by ring
  rw [e] at h0
  exact (mul_eq_zero.mp h0).resolve_left hc.ne'

lemma quad_add {k m : α → α → ℝ} {N : ℕ} (x : Fin N → α) (a : Fin N → ℝ) :
    ∑ i, ∑ j, a i * a j * (k (x i) (x j) + m (x i) (x j)) =
      ∑ i, ∑ j, a i * a j * k (x i) (x j) + ∑ i, ∑ j, a i * a j * m (x i) (x j) := by
  simp only [mul_add, Finset.sum_add_distrib]

lemma SPD.add {k m : α → α → ℝ} (h : SPD k) (hm : PSD m) : SPD fun x y => k x y + m x y := by
  refine ⟨h.toPSD.add hm, fun N x hx a h0 => h.definite N x hx a ?_⟩
  rw [quad_add] at h0
  have h1 := h.nonneg N x a
  have h2 := hm.nonneg N x a
  linarith

/-- Multiplication by a positive function of each argument. -/
lemma SPD.weight {k : α → α → ℝ} (h : SPD k) {f : α → ℝ} (hf : ∀ x, f x ≠ 0) : SPD fun x y => k x y * (f x * f y) := by
  refine ⟨h.toPSD.mul (PSD.rankOne f), fun N x hx a h0 => ?_⟩
  have h1 := h.definite N x hx (fun i => a i * f (x i)) (by
    rw [← h0]
    exact Finset.sum_congr rfl fun i _ => Finset.sum_congr rfl fun j _ => by ring)
  funext i
  exact (mul_eq_zero.mp (congrFun h1 i)).resolve_right (hf _)

/-- Products of strictly positive definite functions of different variables. -/
lemma SPD.prod {k : α → α → ℝ} {m : β → β → ℝ} (hk : SPD k) (hm : SPD m) :
    SPD fun x y : α × β => k x.1 y.1 * m x.2 y.2 := by
  classical
  refine SPD.of_sections ((hk.toPSD.comp Prod.fst).mul (hm.toPSD.comp Prod.snd)) fun s a h0 => ?_
  have h1 : ∀ w, ∀ y ∈ s.image Prod.fst, ∑ x ∈ s with x.1 = y, a x * m w x.2 = 0 := by
    intro w
    refine hk.sections (s.image Prod.fst) (fun y => ∑ x ∈ s with x.1 = y, a x * m w x.2) fun z _ => ?_
    rw [← h0 (z, w), ← Finset.sum_fiberwise_of_maps_to (g := Prod.fst) (t := s.image Prod.fst) fun x hx => Finset.mem_image_of_mem _ hx]
    refine Finset.sum_congr rfl fun y _ => ?_
    rw [Finset.sum_mul]
    refine Finset.sum_congr rfl fun x hx => ?_
    rw [(Finset.mem_filter.mp hx).2.symm]
    ring
  intro x hx
  have h2 := hm.sections ((s.filter fun y => y.1 = x.1).image Prod.snd) (fun v => a (x.1, v)) (fun w _ => ?_) x.2
    (Finset.mem_image.mpr ⟨x, by simp [hx], rfl⟩)
  · exact h2
  · rw [← h1 w x.1 (Finset.mem_image_of_mem _ hx), Finset.sum_image]
    · refine Finset.sum_congr rfl fun y hy => ?_
      rw [← (Finset.mem_filter.mp hy).2]
    · intro y hy z hz h
      exact Prod.ext ((Finset.mem_filter.mp hy).2.trans (Finset.mem_filter.mp hz).2.symm) h

/-- Mixtures. -/
lemma SPD.integral {k : ℝ → α → α → ℝ} {μ : Measure ℝ} (hμ : μ ≠ 0) (h : ∀ᵐ v ∂μ, SPD (k v))
    (hi : ∀ x y, Integrable (fun v => k v x y) μ) : SPD fun x y => ∫ v, k v x y ∂μ := by
  refine ⟨PSD.integral (h.mono fun _ h => h.toPSD) hi, fun N x hx a h0 => ?_⟩
  have e : ∑ i, ∑ j, a i * a j * ∫ v, k v (x i) (x j) ∂μ = ∫ v, ∑ i, ∑ j, a i * a j * k v (x i) (x j) ∂μ := by
    rw [integral_finsetSum _ fun i _ => integrable_finsetSum _ fun j _ => (hi _ _).const_mul _]
    refine Finset.sum_congr rfl fun i _ => ?_
    rw [integral_finsetSum _ fun j _ => (hi _ _).const_mul _]
    exact Finset.sum_congr rfl fun j _ => (integral_const_mul _ _).symm
  rw [e, integral_eq_zero_iff_of_nonneg_ae (h.mono fun v hv => hv.nonneg N x a)
    (integrable_finsetSum _ fun i _ => integrable_finsetSum _ fun j _ => (hi _ _).const_mul _)] at h0
  have : (ae μ).NeBot := ae_neBot.mpr hμ
  obtain ⟨v, hv, h1⟩ := (h.and h0).exists
  exact hv.definite N x hx a h1

lemma PSD.exp_rest {k : α → α → ℝ} (hk : PSD k) : PSD fun x y => Real.exp (k x y) - 1 - k x y := by
  refine PSD.limit (l := atTop) (k := fun n x y => ∑ i ∈ Finset.range n, ((i + 2).factorial : ℝ)⁻¹ * k x y ^ (i + 2))
    (Eventually.of_forall fun n => PSD.sum _ fun i _ => (hk.pow (i + 2)).smul (by positivity)) fun x y => ?_
  have h := (NormedSpace.exp_series_hasSum_exp' (𝕂 := ℝ) (k x y))
  rw [← Real.exp_eq_exp_ℝ] at h
  have h1 := ((hasSum_nat_add_iff' 2).mpr h).tendsto_sum_nat
  have e : Real.exp (k x y) - 1 - k x y = Real.exp (k x y) - ∑ i ∈ Finset.range 2, ((i.factorial : ℝ))⁻¹ • k x y ^ i := by
    simp [Finset.sum_range_succ]
    ring
  rw [e]
  simpa using h1

variable {d : ℕ}

/-- Characters of the additive group. -/
noncomputable def expHom (c : ℝ) (x : Fin d → ℝ) : Multiplicative (Fin d → ℝ) →* ℝ where
  toFun z := Real.exp (c * ∑ i, x i * z.toAdd i)
  map_one' := by simp
  map_mul' z w := by
    rw [← Real.exp_add]
    congr 1
    simp only [toAdd_mul, Pi.add_apply, mul_add, Finset.sum_add_distrib]

lemma expHom_injective {c : ℝ} (hc : c ≠ 0) : Function.Injective (expHom (d := d) c) := by
  intro x y h
  funext i
  have := DFunLike.congr_fun h (Multiplicative.ofAdd (Pi.single i 1))
  have h2 := Real.exp_injective this
  simpa [Pi.single_apply, hc] using h2

/-- Gaussians are strictly positive definite. -/
lemma SPD.gauss {c : ℝ} (hc : 0 < c) : SPD fun x y : Fin d → ℝ => Real.exp (-(c * dsq x y)) := by
  refine SPD.of_sections (PSD.gauss hc.le) fun s a h0 => ?_
  have hl := (linearIndependent_monoidHom (Multiplicative (Fin d → ℝ)) ℝ).comp (expHom (d := d) (2 * c))
    (expHom_injective (by positivity))
  rw [linearIndependent_iff'] at hl
  have h1 := hl s (fun x => a x * Real.exp (-(c * ∑ i, x i ^ 2))) (by
    funext z
    have h2 := h0 z.toAdd
    have h3 : ∀ x : Fin d → ℝ, a x * Real.exp (-(c * dsq z.toAdd x)) =
        (a x * Real.exp (-(c * ∑ i, x i ^ 2)) * Real.exp (2 * c * ∑ i, x i * z.toAdd i)) * Real.exp (-(c * ∑ i, z.toAdd i ^ 2)) := by
      intro x
      rw [mul_assoc, mul_assoc, ← Real.exp_add, ← Real.exp_add]
      congr 2
      unfold dsq
      simp only [Finset.mul_sum, ← Finset.sum_neg_distrib, ← Finset.sum_add_distrib]
      exact Finset.sum_congr rfl fun i _ => by ring
    simp only [h3] at h2
    rw [← Finset.sum_mul] at h2
    have h4 := (mul_eq_zero.mp h2).resolve_right (Real.exp_pos _).ne'
    simpa [expHom] using h4)
  intro x hx
  exact (mul_eq_zero.mp (h1 x hx)).resolve_right (Real.exp_pos _).ne'

end LinPDE.PosDef
