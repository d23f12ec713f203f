import Verif.Galerkin.Model
import Verif.Galerkin.Core
import Verif.Fem.MaternProps

/-! # The Galerkin kernel as an operator expression -/

namespace LinPDE.Galerkin
open MeasureTheory LinPDE.Fem
open scoped InnerProductSpace

/-- The basis of a projection is constructed from a strictly increasing grid. -/
def Good (P : Proj) : Prop := ∃ (grid : List ℝ) (zb : Bool), grid.Pairwise (· < ·) ∧ mkBasis grid zb = .ok P.basis

/-- The vector `P f` (`projections/l2/_fem.py:63-78`). -/
noncomputable def coef (P : Proj) (f : ℝ → ℝ) : Fin P.basis.len → ℝ :=
  match projectFunction P.basis P.normalized f with
  | .ok v => v
  | .error _ => 0

/-- The projected function `Π f = ∑ (P f)_i phi_i`. -/
noncomputable def proj (P : Proj) (f : ℝ → ℝ) (x : ℝ) : ℝ := ∑ i, coef P f i * (P.basis.evaluate x).getD i 0

/-- The remainder `(I - Π) f`. -/
noncomputable def rem (P : Proj) (f : ℝ → ℝ) (x : ℝ) : ℝ := f x - proj P f x

/-- `(A ⊗ B) k`: the operator `B` on the second argument, then `A` on the first. -/
def both (A B : (ℝ → ℝ) → ℝ → ℝ) (k : ℝ → ℝ → ℝ) (x y : ℝ) : ℝ := A (fun s => B (k s) y) x

/-- `Π k Π* + (I - Π) k (I - Π)*`. -/
noncomputable def spec (P : Proj) (k : ℝ → ℝ → ℝ) (x y : ℝ) : ℝ := both (proj P) (proj P) k x y + both (rem P) (rem P) k x y

variable {P : Proj}

lemma Good.good (h : Good P) : P.basis.Good := by
  obtain ⟨g, zb, hg, hm⟩ := h
  exact (mkBasis_good hg hm).1

lemma phi_weight (h : Good P) {i : ℕ} (hi : i < P.basis.len) : Weight (P.basis.phi i) := by
  have hG := h.good
  have hsupp : ∀ x, x ∉ Set.Icc (P.basis.g i) (P.basis.g (i + 2)) → P.basis.phi i x = 0 := by
    intro x hx
    rcases not_and_or.mp hx with hc | hc
    · exact Basis.phi_low hG hi (not_le.mp hc).le
    · exact Basis.phi_high hG hi (not_le.mp hc).le
  refine ⟨?_, _, _, hsupp⟩
  have h1 : IntegrableOn (P.basis.phi i) (Set.Icc (P.basis.g i) (P.basis.g (i + 2))) :=
    (integrableOn_Icc_iff_integrableOn_Ioc).mpr (Basis.phi_integrableOn hG hi _ _).1
  refine (integrableOn_iff_integrable_of_support_subset fun x hx => ?_).mp h1
  by_contra hc
  exact hx (hsupp x hc)

lemma phi_lb (h : Good P) {i : ℕ} (hi : i < P.basis.len) : LB (P.basis.phi i) :=
  ⟨(Basis.phi_measurable hi).stronglyMeasurable, fun _ _ => ⟨1, fun x _ => Basis.phi_norm_le h.good hi x⟩⟩

lemma projectFunction_eq (h : Good P) (f : ℝ → ℝ) : projectFunction P.basis P.normalized f = .ok (coef P f) ∧
    ∀ i, coef P f i = ∑ j, normalizer P.basis P.normalized i j * ∫ x, P.basis.phi j x * f x := by
  obtain ⟨g, zb, hg, hm⟩ := h
  have hq : projectFunction P.basis P.normalized f =
      .ok ((normalizer P.basis P.normalized).mulVec fun i => ∫ x, P.basis.phi i x * f x) := by
    unfold projectFunction
    rw [mapM_ok (f' := fun i => ∫ x, P.basis.phi i x * f x) (fun i hi => quadElem_eq hg hm (by simpa using hi) f)]
    change Except.ok _ = _
    congr 2
    funext i
    exact getD_map_range i.2 _
  have hc : coef P f = (normalizer P.basis P.normalized).mulVec fun i => ∫ x, P.basis.phi i x * f x := by
    unfold coef
    rw [hq]
  exact ⟨by rw [hq, hc], fun i => by rw [hc]; rfl⟩

lemma coef_add (h : Good P) {f g : ℝ → ℝ} (hf : LB f) (hg : LB g) (i) :
    coef P (fun x => f x + g x) i = coef P f i + coef P g i := by
  rw [(projectFunction_eq h _).2, (projectFunction_eq h _).2, (projectFunction_eq h _).2, ← Finset.sum_add_distrib]
  refine Finset.sum_congr rfl fun j _ => ?_
  rw [← mul_add, ← integral_add ((phi_weight h j.2).integrable_mul hf) ((phi_weight h j.2).integrable_mul hg)]
  simp only [mul_add]

lemma coef_smul (h : Good P) (f : ℝ → ℝ) (c : ℝ) (i) : coef P (fun x => c * f x) i = c * coef P f i := by
  rw [(projectFunction_eq h _).2, (projectFunction_eq h _).2, Finset.mul_sum]
  refine Finset.sum_congr rfl fun j _ => ?_
  have : ∀ x, P.basis.phi j x * (c * f x) = c * (P.basis.phi j x * f x) := fun x => by ring
  simp only [this, integral_const_mul]
  ring

lemma coef_sub (h : Good P) {f g : ℝ → ℝ} (hf : LB f) (hg : LB g) (i) :
    coef P (fun x => f x - g x) i = coef P f i - coef P g i := by
  have h1 := coef_add h hf (hg.const_mul (-1)) i
  rw [coef_smul h] at h1
  have h2 : (fun x => f x + -1 * g x) = fun x => f x - g x := funext fun x => by ring
  rw [h2] at h1
  rw [h1]; ring

lemma coef_span (h : Good P) (hn : P.normalized = true) (c : Fin P.basis.len → ℝ) :
    coef P (fun x => ∑ j, c j * P.basis.phi j x) = c := by
  obtain ⟨g, zb, hg, hm⟩ := h
  have := project_span hg hm c
  unfold coef
  rw [hn]
  change (match projectFunction P.basis true (fun x => ∑ j, c j * (P.basis.evaluate x).getD j 0) with
    | .ok v => v | .error _ => 0) = c
  rw [this]

section
variable {H : Type} [NormedAddCommGroup H] [InnerProductSpace ℝ H] [CompleteSpace H]

/-- The projections of the features. -/
noncomputable def qv (P : Proj) (f : ℝ → H) (i : Fin P.basis.len) : H :=
  ∑ j : Fin P.basis.len, normalizer P.basis P.normalized i j • ∫ t, P.basis.phi j t • f t

/-- The projected features. -/
noncomputable def uv (P : Proj) (f : ℝ → H) (x : ℝ) : H := ∑ i : Fin P.basis.len, P.basis.phi i x • qv P f i

lemma coef_inner (h : Good P) {f : ℝ → H} (hf : LB f) (v : H) (i) : coef P (fun s => ⟪f s, v⟫_ℝ) i = ⟪qv P f i, v⟫_ℝ := by
  rw [(projectFunction_eq h _).2, qv, sum_inner]
  refine Finset.sum_congr rfl fun j _ => ?_
  rw [(phi_weight h j.2).integral_inner hf, inner_smul_left]
  rfl

lemma proj_inner (h : Good P) {f : ℝ → H} (hf : LB f) (v : H) (x : ℝ) : proj P (fun s => ⟪f s, v⟫_ℝ) x = ⟪uv P f x, v⟫_ℝ := by
  rw [proj, uv, sum_inner]
  refine Finset.sum_congr rfl fun i _ => ?_
  rw [coef_inner h hf, inner_smul_left, mul_comm]
  rfl

lemma rem_inner (h : Good P) {f : ℝ → H} (hf : LB f) (v : H) (x : ℝ) :
    rem P (fun s => ⟪f s, v⟫_ℝ) x = ⟪f x - uv P f x, v⟫_ℝ := by
  rw [rem, proj_inner h hf, inner_sub_left]

omit [CompleteSpace H] in
lemma uv_lb (h : Good P) (f : ℝ → H) : LB (uv P f) := LB.sum _ fun i _ => (phi_lb h i.2).smul_const _

lemma qv_uv (h : Good P) (hn : P.normalized = true) (f : ℝ → H) (i) : qv P (uv P f) i = qv P f i := by
  refine ext_inner_right ℝ fun v => ?_
  rw [← coef_inner h (uv_lb h f)]
  have : (fun s => ⟪uv P f s, v⟫_ℝ) = fun s => ∑ j, ⟪qv P f j, v⟫_ℝ * P.basis.phi j s := by
    funext s
    rw [uv, sum_inner]
    refine Finset.sum_congr rfl fun j _ => ?_
    rw [inner_smul_left, mul_comm]
    rfl
  rw [this, coef_span h hn]

lemma qv_rem (h : Good P) (hn : P.normalized = true) {f : ℝ → H} (hf : LB f) (i) : qv P (fun x => f x - uv P f x) i = 0 := by
  refine ext_inner_right ℝ fun v => ?_
  rw [← coef_inner h (hf.sub (uv_lb h f))]
  simp only [inner_sub_left]
  rw [coef_sub h (hf.inner_const v) ((uv_lb h f).inner_const v), coef_inner h hf, coef_inner h (uv_lb h f), qv_uv h hn]
  simp

end

variable {k : ℝ → ℝ → ℝ}

lemma coef_kernel (h : Good P) (F : Feature k) (x : ℝ) (i) : coef P (k x) i = ⟪qv P F.ψ i, F.ψ x⟫_ℝ := by
  rw [← coef_inner h F.lb]
  congr 1
  funext s
  rw [F.eq, F.symm]

lemma coef_coef (h : Good P) (F : Feature k) (i j) :
    coef P (fun s => coef P (k s) j) i = ⟪qv P F.ψ i, qv P F.ψ j⟫_ℝ := by
  rw [← coef_inner h F.lb]
  congr 1
  funext s
  rw [coef_kernel h F, real_inner_comm]

lemma coef_lb (h : Good P) (F : Feature k) (j) : LB fun s => coef P (k s) j := by
  simp only [coef_kernel h F]
  have := F.lb.inner_const (qv P F.ψ j)
  simpa only [real_inner_comm] using this

lemma proj_kernel (h : Good P) (F : Feature k) (x y : ℝ) : proj P (k x) y = ⟪uv P F.ψ y, F.ψ x⟫_ℝ := by
  rw [← proj_inner h F.lb]
  congr 1
  funext s
  rw [F.eq, F.symm]

lemma spec_eq (h : Good P) (F : Feature k) (x y : ℝ) :
    spec P k x y = ⟪uv P F.ψ x, uv P F.ψ y⟫_ℝ + ⟪F.ψ x - uv P F.ψ x, F.ψ y - uv P F.ψ y⟫_ℝ := by
  have h1 : ∀ s, rem P (k s) y = ⟪F.ψ s, F.ψ y - uv P F.ψ y⟫_ℝ := by
    intro s
    rw [rem, proj_kernel h F, inner_sub_right, F.eq, real_inner_comm (F.ψ s)]
  have h2 : ∀ s, proj P (k s) y = ⟪F.ψ s, uv P F.ψ y⟫_ℝ := fun s => by rw [proj_kernel h F, real_inner_comm]
  unfold spec both
  simp only [h1, h2]
  rw [proj_inner h F.lb, rem_inner h F.lb]

lemma spec_feature (h : Good P) (F : Feature k) : Nonempty (Feature (spec P k)) :=
  Feature.of_pair (uv_lb h F.ψ) (F.lb.sub (uv_lb h F.ψ)) fun x y => (spec_eq h F x y).symm

/-- The terms of `_galerkin.py:49-58`. -/
lemma spec_terms (h : Good P) (F : Feature k) (x y : ℝ) :
    spec P k x y = both (proj P) (proj P) k x y + k x y - proj P (k x) y - proj P (k y) x + both (proj P) (proj P) k x y := by
  have h2 : ∀ s, proj P (k s) y = ⟪F.ψ s, uv P F.ψ y⟫_ℝ := fun s => by rw [proj_kernel h F, real_inner_comm]
  have h3 : both (proj P) (proj P) k x y = ⟪uv P F.ψ x, uv P F.ψ y⟫_ℝ := by
    unfold both
    simp only [h2]
    rw [proj_inner h F.lb]
  rw [spec_eq h F, h3, proj_kernel h F, proj_kernel h F, inner_sub_left, inner_sub_right, inner_sub_right, F.eq,
    real_inner_comm (F.ψ x) (uv P F.ψ y)]
  ring

lemma both_proj (h : Good P) (F : Feature k) (x y : ℝ) : both (proj P) (proj P) k x y =
    ∑ i : Fin P.basis.len, ∑ j : Fin P.basis.len, P.basis.phi i x * coef P (fun s => coef P (k s) j) i * P.basis.phi j y := by
  have h2 : ∀ s, proj P (k s) y = ⟪F.ψ s, uv P F.ψ y⟫_ℝ := fun s => by rw [proj_kernel h F, real_inner_comm]
  unfold both
  simp only [h2]
  rw [proj_inner h F.lb, uv, sum_inner]
  refine Finset.sum_congr rfl fun i _ => ?_
  rw [uv, inner_sum]
  refine Finset.sum_congr rfl fun j _ => ?_
  rw [inner_smul_left, inner_smul_right, coef_coef h F]
  simp
  ring

/-- Projecting the Galerkin kernel in one argument. -/
lemma coef_spec (h : Good P) (hn : P.normalized = true) (F : Feature k) (x : ℝ) (i) :
    coef P (spec P k x) i = ∑ j : Fin P.basis.len, coef P (fun s => coef P (k s) j) i * P.basis.phi j x := by
  have h1 : spec P k x = fun y => ⟪uv P F.ψ y, uv P F.ψ x⟫_ℝ + ⟪F.ψ y - uv P F.ψ y, F.ψ x - uv P F.ψ x⟫_ℝ := by
    funext y
    rw [spec_eq h F, real_inner_comm, real_inner_comm (F.ψ x - uv P F.ψ x)]
  rw [h1, coef_add h ((uv_lb h F.ψ).inner_const _) ((F.lb.sub (uv_lb h F.ψ)).inner_const _), coef_inner h (uv_lb h F.ψ),
    coef_inner h (F.lb.sub (uv_lb h F.ψ)), qv_uv h hn, qv_rem h hn F.lb, inner_zero_left, add_zero, uv, inner_sum]
  refine Finset.sum_congr rfl fun j _ => ?_
  rw [inner_smul_right, coef_coef h F, mul_comm]

/-- Projecting the Galerkin kernel in both arguments. -/
lemma coef_coef_spec (h : Good P) (hn : P.normalized = true) (F : Feature k) (i j) :
    coef P (fun s => coef P (spec P k s) j) i = coef P (fun s => coef P (k s) j) i := by
  simp only [coef_spec h hn F]
  rw [coef_span h hn (fun l => coef P (fun s => coef P (k s) l) j)]
  beta_reduce
  rw [coef_coef h F, coef_coef h F, real_inner_comm]

/-- The projected part and the remainder under the Galerkin kernel. -/
lemma uncorrelated (h : Good P) (hn : P.normalized = true) (F : Feature k) (x y : ℝ) :
    both (proj P) (rem P) (spec P k) x y = 0 ∧ both (rem P) (proj P) (spec P k) x y = 0 ∧
      both (proj P) (proj P) (spec P k) x y = both (proj P) (proj P) k x y ∧
      both (rem P) (rem P) (spec P k) x y = both (rem P) (rem P) k x y := by
  obtain ⟨G⟩ := spec_feature h F
  have hs : ∀ s y, proj P (spec P k s) y = ⟪uv P F.ψ s, uv P F.ψ y⟫_ℝ := by
    intro s y
    rw [proj, uv, uv, inner_sum]
    refine Finset.sum_congr rfl fun i _ => ?_
    rw [coef_spec h hn F, inner_smul_right, sum_inner, mul_comm]
    change P.basis.phi i y * _ = _
    congr 1
    refine Finset.sum_congr rfl fun j _ => ?_
    rw [inner_smul_left, coef_coef h F, real_inner_comm, mul_comm]
    rfl
  have hr : ∀ s y, rem P (spec P k s) y = ⟪F.ψ s - uv P F.ψ s, F.ψ y - uv P F.ψ y⟫_ℝ := by
    intro s y
    rw [rem, hs, spec_eq h F]
    ring
  have e1 : ∀ v x, proj P (fun s => ⟪uv P F.ψ s, v⟫_ℝ) x = ⟪uv P F.ψ x, v⟫_ℝ := by
    intro v x
    rw [proj_inner h (uv_lb h F.ψ), uv, uv]
    simp only [qv_uv h hn]
  have e2 : ∀ v x, proj P (fun s => ⟪F.ψ s - uv P F.ψ s, v⟫_ℝ) x = 0 := by
    intro v x
    rw [proj_inner h (F.lb.sub (uv_lb h F.ψ)), uv]
    simp only [qv_rem h hn F.lb, smul_zero, Finset.sum_const_zero, inner_zero_left]
  have h2 : ∀ s, proj P (k s) y = ⟪F.ψ s, uv P F.ψ y⟫_ℝ := fun s => by rw [proj_kernel h F, real_inner_comm]
  have h3 : ∀ s, rem P (k s) y = ⟪F.ψ s, F.ψ y - uv P F.ψ y⟫_ℝ := by
    intro s
    rw [rem, proj_kernel h F, inner_sub_right, F.eq, real_inner_comm (F.ψ s)]
  unfold both
  simp only [hs, hr, h2, h3]
  refine ⟨e2 _ _, ?_, ?_, ?_⟩
  · rw [rem, e1, sub_self]
  · rw [e1, proj_inner h F.lb]
  · rw [rem, e2, sub_zero, rem_inner h F.lb]

end LinPDE.Galerkin
