import Verif.Fem.MassLemmas

/-! # L2 projection onto the finite element basis (C42) -/

namespace LinPDE.Fem
open MeasureTheory Set intervalIntegral

/-- C42: the matrix whose inverse normalises the projection consists of the integrals of products of basis functions. -/
theorem mass_matrix {grid : List ℝ} {zb : Bool} {b : Basis} (hg : grid.Pairwise (· < ·)) (h : mkBasis grid zb = .ok b)
    (i j : Fin b.len) : massMatrix b i j = ∫ x, (b.evaluate x).getD i 0 * (b.evaluate x).getD j 0 :=
  massMatrix_eq (mkBasis_good hg h).1 i j

lemma sum_ite_le {ι : Type} (s : Finset ι) (p : ι → Prop) [DecidablePred p] (c : ℝ) (hc : 0 ≤ c)
    (hp : ∀ a b, p a → p b → a = b) : ∑ j ∈ s, (if p j then c else 0) ≤ c := by
  rw [← Finset.sum_filter, Finset.sum_const]
  have : (s.filter p).card ≤ 1 := by
    rw [Finset.card_le_one]
    intro a ha b hb
    exact hp a b (Finset.mem_filter.mp ha).2 (Finset.mem_filter.mp hb).2
  rcases Nat.le_one_iff_eq_zero_or_eq_one.mp this with h | h
  · rw [h]; simpa using hc
  · rw [h]; simp

lemma mass_row {b : Basis} (h : b.Good) (i : Fin b.len) :
    0 < massMatrix b i i ∧ ∑ j ∈ Finset.univ.erase i, ‖massMatrix b i j‖ ≤ massMatrix b i i / 2 := by
  classical
  have hil := Basis.len_lt i.2
  have h1 := h.incr i (by omega)
  have h2 := h.incr (i + 1) hil
  set cl : ℝ := if b.Al i then (b.g (i + 1) - b.g i) / 6 else 0 with hcl
  set cr : ℝ := if b.Be i then (b.g (i + 2) - b.g (i + 1)) / 6 else 0 with hcr
  have hcl0 : 0 ≤ cl := by rw [hcl]; split_ifs <;> linarith
  have hcr0 : 0 ≤ cr := by rw [hcr]; split_ifs <;> linarith
  have hdiag : massMatrix b i i = 2 * (cl + cr) := by
    rw [massMatrix_eq h, inner_phi h i.2 i.2, if_pos rfl, hcl, hcr]
    split_ifs <;> ring
  have hpos : 0 < cl + cr := by
    by_cases hA : b.Al i
    · have : 0 < cl := by rw [hcl, if_pos hA]; linarith
      linarith
    · have hA' := hA
      unfold Basis.Al at hA'
      push Not at hA'
      have h5 := h.size' (by simpa using hA'.1)
      have hB : b.Be i := Or.inr (by rw [hA'.2]; unfold Basis.len; omega)
      have : 0 < cr := by rw [hcr, if_pos hB]; linarith
      linarith
  have hoff : ∑ j ∈ Finset.univ.erase i, ‖massMatrix b i j‖ ≤ cl + cr := by
    calc ∑ j ∈ Finset.univ.erase i, ‖massMatrix b i j‖
        ≤ ∑ j ∈ Finset.univ.erase i, ((if i.val = j.val + 1 then cl else 0) + (if i.val + 1 = j.val then cr else 0)) := by
          refine Finset.sum_le_sum fun j hj => ?_
          have hne : i.val ≠ j.val := fun e => (Finset.mem_erase.mp hj).1 (Fin.ext e.symm)
          rw [massMatrix_eq h, inner_phi h i.2 j.2, if_neg hne]
          by_cases e2 : i.val = j.val + 1
          · have hA : b.Al i := Or.inr (by omega)
            rw [if_pos e2, if_pos e2, if_neg (by omega), add_zero, hcl, if_pos hA, Real.norm_eq_abs, abs_of_pos (by linarith)]
          · rw [if_neg e2, if_neg e2]
            by_cases e3 : i.val + 1 = j.val
            · have hB : b.Be i := Or.inr (by have := j.2; omega)
              rw [if_pos e3, if_pos e3, zero_add, hcr, if_pos hB, Real.norm_eq_abs, abs_of_pos (by linarith)]
            · rw [if_neg e3, if_neg e3]; simp
      _ = ∑ j ∈ Finset.univ.erase i, (if i.val = j.val + 1 then cl else 0) +
          ∑ j ∈ Finset.univ.erase i, (if i.val + 1 = j.val then cr else 0) := Finset.sum_add_distrib
      _ ≤ cl + cr := add_le_add
          (sum_ite_le _ _ _ hcl0 fun a c ha hc => Fin.ext (by omega))
          (sum_ite_le _ _ _ hcr0 fun a c ha hc => Fin.ext (by omega))
  rw [hdiag]
  exact ⟨by linarith, by linarith⟩

lemma mass_det_ne_zero {b : Basis} (h : b.Good) : (massMatrix b).det ≠ 0 := by
  refine det_ne_zero_of_sum_row_lt_diag fun i => ?_
  obtain ⟨h1, h2⟩ := mass_row h i
  rw [Real.norm_eq_abs, abs_of_pos h1]
  linarith

/-- C42: the mass matrix is invertible, so the normaliser is its inverse. -/
theorem normalizer_inverse {grid : List ℝ} {zb : Bool} {b : Basis} (hg : grid.Pairwise (· < ·))
    (h : mkBasis grid zb = .ok b) :
    normalizer b true * massMatrix b = 1 ∧ massMatrix b * normalizer b true = 1 ∧ normalizer b false = 1 := by
  have hd := mass_det_ne_zero (mkBasis_good hg h).1
  have hu : IsUnit (massMatrix b).det := isUnit_iff_ne_zero.mpr hd
  refine ⟨?_, ?_, by simp [normalizer]⟩
  · simp only [normalizer, Bool.not_true, Bool.false_eq_true, if_false]
    exact Matrix.nonsing_inv_mul _ hu
  · simp only [normalizer, Bool.not_true, Bool.false_eq_true, if_false]
    exact Matrix.mul_nonsing_inv _ hu

lemma evalElem_phi {grid : List ℝ} {zb : Bool} {b : Basis} (hg : grid.Pairwise (· < ·)) (h : mkBasis grid zb = .ok b)
    {i : ℕ} (hi : i < b.len) (x : ℝ) : b.evalElem i x = .ok (b.phi i x) := ((basis_eval_elem hg h x).1 i hi).1

lemma quadElem_eq {grid : List ℝ} {zb : Bool} {b : Basis} (hg : grid.Pairwise (· < ·)) (h : mkBasis grid zb = .ok b)
    {i : ℕ} (hi : i < b.len) (f : ℝ → ℝ) : quadElem b f i = .ok (∫ x, b.phi i x * f x) := by
  obtain ⟨lo, hi', h1, _, h3, h4, _⟩ := basis_support hg h i hi
  unfold quadElem
  rw [h1]
  change (b.evalElem i lo >>= fun _ => _ : Except Err ℝ) = _
  rw [evalElem_phi hg h hi]
  change Except.ok _ = _
  congr 1
  simp only [evalElem_phi hg h hi]
  exact Basis.integral_support h3.le h4 f

lemma mapM_ok {α β : Type} {l : List α} {f : α → Except Err β} {f' : α → β} (h : ∀ a ∈ l, f a = .ok (f' a)) :
    l.mapM f = .ok (l.map f') := by
  induction l with
  | nil => rfl
  | cons a l ih =>
    rw [List.mapM_cons, h a (by simp), ih fun x hx => h x (by simp [hx])]
    rfl

lemma getD_map_range {n i : ℕ} (hi : i < n) (f : ℕ → ℝ) : ((List.range n).map f).getD i 0 = f i := by
  simp [List.getD_eq_getElem?_getD, hi]

/-- C42: applying the projection never raises; the result solves the normal equations with the integrals of the function
against the basis functions (over the whole line). -/
theorem project_function {grid : List ℝ} {zb : Bool} {b : Basis} (hg : grid.Pairwise (· < ·)) (h : mkBasis grid zb = .ok b)
    (f : ℝ → ℝ) :
    (∃ v, projectFunction b true f = .ok v ∧
      ∀ i : Fin b.len, (massMatrix b).mulVec v i = ∫ x, (b.evaluate x).getD i 0 * f x) ∧
    projectFunction b false f = .ok fun i => ∫ x, (b.evaluate x).getD i 0 * f x := by
  have hq : ∀ nz, projectFunction b nz f = .ok ((normalizer b nz).mulVec fun i => ∫ x, b.phi i x * f x) := by
    intro nz
    unfold projectFunction
    rw [mapM_ok (f' := fun i => ∫ x, b.phi i x * f x) (fun i hi => quadElem_eq hg h (by simpa using hi) f)]
    change Except.ok _ = _
    congr 2
    funext i
    exact getD_map_range i.2 _
  obtain ⟨h1, h2, h3⟩ := normalizer_inverse hg h
  refine ⟨⟨_, hq true, fun i => ?_⟩, ?_⟩
  · rw [Matrix.mulVec_mulVec, h2, Matrix.one_mulVec]
    rfl
  · rw [hq false, h3, Matrix.one_mulVec]
    rfl

/-- C42: projecting a function in the span returns its coefficients. -/
theorem project_span {grid : List ℝ} {zb : Bool} {b : Basis} (hg : grid.Pairwise (· < ·)) (h : mkBasis grid zb = .ok b)
    (c : Fin b.len → ℝ) : projectFunction b true (fun x => ∑ j, c j * (b.evaluate x).getD j 0) = .ok c := by
  have hG := (mkBasis_good hg h).1
  obtain ⟨⟨v, hv, hM⟩, _⟩ := project_function hg h (fun x => ∑ j, c j * (b.evaluate x).getD j 0)
  rw [hv]
  congr 1
  have hMc : (massMatrix b).mulVec v = (massMatrix b).mulVec c := by
    funext i
    rw [hM i]
    change ∫ x, b.phi i x * ∑ j : Fin b.len, c j * b.phi j x = _
    simp only [Finset.mul_sum]
    rw [MeasureTheory.integral_finsetSum]
    · refine Finset.sum_congr rfl fun j _ => ?_
      beta_reduce
      rw [massMatrix_eq hG, mul_comm, ← MeasureTheory.integral_const_mul]
      refine integral_congr_ae (Filter.Eventually.of_forall fun x => ?_)
      simp only
      ring
    · intro j _
      have h1 : IntegrableOn (fun x => b.phi i x * (c j * b.phi j x)) (Icc (b.g i) (b.g (i + 2))) := by
        refine Basis.phi_mul_integrableOn hG i.2 (Integrable.const_mul ?_ _)
        have := (Basis.phi_integrableOn hG j.2 (b.g i) (b.g (i + 2))).1
        exact (integrableOn_Icc_iff_integrableOn_Ioc).mpr this
      refine (integrableOn_iff_integrable_of_support_subset fun x hx => ?_).mp h1
      have hne : b.phi i x ≠ 0 := fun h0 => hx (by simp only; rw [h0, zero_mul])
      constructor
      · by_contra hc
        exact hne (Basis.phi_low hG i.2 (not_le.mp hc).le)
      · by_contra hc
        exact hne (Basis.phi_high hG i.2 (not_le.mp hc).le)
  have h1 := (normalizer_inverse hg h).1
  have := congrArg (normalizer b true).mulVec hMc
  rwa [Matrix.mulVec_mulVec, Matrix.mulVec_mulVec, h1, Matrix.one_mulVec, Matrix.one_mulVec] at this

/-- C42: the residual of the projection is orthogonal to the span of the basis. -/
theorem project_orthogonal {grid : List ℝ} {zb : Bool} {b : Basis} (hg : grid.Pairwise (· < ·))
    (h : mkBasis grid zb = .ok b) {f : ℝ → ℝ} (hf : LocallyIntegrable f) :
    ∃ v, projectFunction b true f = .ok v ∧
      ∀ i : Fin b.len, ∫ x, (b.evaluate x).getD i 0 * (f x - ∑ j, v j * (b.evaluate x).getD j 0) = 0 := by
  have hG := (mkBasis_good hg h).1
  obtain ⟨⟨v, hv, hM⟩, _⟩ := project_function hg h f
  obtain ⟨⟨w, hw, hN⟩, _⟩ := project_function hg h (fun x => ∑ j, v j * (b.evaluate x).getD j 0)
  rw [project_span hg h v] at hw
  obtain rfl := Except.ok.inj hw
  refine ⟨v, hv, fun i => ?_⟩
  have hI : ∀ u : ℝ → ℝ, LocallyIntegrable u → Integrable (fun x => b.phi i x * u x) := by
    intro u hu
    have h1 : IntegrableOn (fun x => b.phi i x * u x) (Icc (b.g i) (b.g (i + 2))) :=
      Basis.phi_mul_integrableOn hG i.2 (hu.integrableOn_isCompact isCompact_Icc)
    refine (integrableOn_iff_integrable_of_support_subset fun x hx => ?_).mp h1
    have hne : b.phi i x ≠ 0 := fun h0 => hx (by simp only; rw [h0, zero_mul])
    constructor
    · by_contra hc
      exact hne (Basis.phi_low hG i.2 (not_le.mp hc).le)
    · by_contra hc
      exact hne (Basis.phi_high hG i.2 (not_le.mp hc).le)
  have hli : LocallyIntegrable (fun x => ∑ j : Fin b.len, v j * b.phi j x) := by
    have : LocallyIntegrable (∑ j : Fin b.len, fun x => v j * b.phi j x) := by
      refine locallyIntegrable_finsetSum' (μ := volume) (f := fun (j : Fin b.len) x => v j * b.phi j x) Finset.univ fun j _ => ?_
      refine LocallyIntegrable.smul (c := v j) (f := b.phi j) ?_
      rw [locallyIntegrable_iff]
      intro k hk
      have hb := hk.isBounded
      obtain ⟨R, hR⟩ := hb.subset_closedBall (0 : ℝ)
      rw [Real.closedBall_eq_Icc] at hR
      refine IntegrableOn.mono_set ?_ hR
      rw [integrableOn_Icc_iff_integrableOn_Ioc]
      exact (Basis.phi_integrableOn hG j.2 _ _).1
    refine this.congr (Filter.Eventually.of_forall fun x => ?_)
    simp
  change ∫ x, b.phi i x * (f x - ∑ j : Fin b.len, v j * b.phi j x) = 0
  simp only [mul_sub]
  rw [MeasureTheory.integral_sub (hI f hf) (hI _ hli)]
  have e1 := hM i
  have e2 := hN i
  rw [e1] at e2
  exact sub_eq_zero.mpr e2

lemma const_moment {b : Basis} (hG : b.Good) (value : ℝ) {i : ℕ} (hi : i < b.len) :
    ∫ x, b.phi i x * value =
      (if (!b.zeroBoundary) = true then
        ((List.zipWith (fun u v => (value / 2) * (u - v)) b.xip1 b.xim1).set 0 ((value / 2) * (b.xip1.getD 0 0 - b.xi.getD 0 0))).set (b.len - 1)
          ((value / 2) * (b.xi.getD (b.len - 1) 0 - b.xim1.getD (b.len - 1) 0))
      else List.zipWith (fun u v => (value / 2) * (u - v)) b.xip1 b.xim1).getD i 0 := by
  classical
  have hil := Basis.len_lt hi
  have h1 := hG.incr i (by omega)
  have h2 := hG.incr (i + 1) hil
  have hb := boundary_fix hG (l := List.zipWith (fun u v => (value / 2) * (u - v)) b.xip1 b.xim1)
    (L := fun i => (value / 2) * (b.g (i + 1) - b.g i)) (R := fun i => (value / 2) * (b.g (i + 2) - b.g (i + 1)))
    (by simp [Basis.xip1_length, Basis.xim1_length]) (fun i hi => by
      rw [Basis.getD_zipWith' (by rw [Basis.xip1_length]; exact hi) (by rw [Basis.xim1_length]; exact hi), Basis.xip1_getD,
        Basis.xim1_getD hi]
      ring) hi
  rw [Basis.xip1_getD, Basis.xi_getD (by omega), Basis.xi_getD (by omega), Basis.xim1_getD (by omega)]
  refine Eq.trans ?_ hb.symm
  rw [Basis.integral_phi_mul hG hi intervalIntegrable_const]
  congr 1
  · split_ifs
    · rw [intervalIntegral.integral_mul_const, int_rise1 h1]; ring
    · rfl
  · split_ifs
    · rw [intervalIntegral.integral_mul_const, int_fall1 h2]; ring
    · rfl

/-- C42: the closed form for constant functions agrees with the integrals. -/
theorem project_constant {grid : List ℝ} {zb : Bool} {b : Basis} (hg : grid.Pairwise (· < ·)) (h : mkBasis grid zb = .ok b)
    (nz : Bool) (value : ℝ) : projectFunction b nz (fun _ => value) = .ok (projectConstant b nz value) := by
  have hq : projectFunction b nz (fun _ => value) = .ok ((normalizer b nz).mulVec fun i => ∫ x, b.phi i x * value) := by
    unfold projectFunction
    rw [mapM_ok (f' := fun i => ∫ x, b.phi i x * value) (fun i hi => quadElem_eq hg h (by simpa using hi) _)]
    change Except.ok _ = _
    congr 2
    funext i
    exact getD_map_range i.2 _
  rw [hq]
  unfold projectConstant
  congr 2
  funext i
  exact const_moment (mkBasis_good hg h).1 value i.2

/-- C42: the cross-covariance of a process with its projection is the projection of the covariance function. -/
theorem project_crosscov (b : Basis) (nz : Bool) (k : ℝ → ℝ → ℝ) (x : ℝ) :
    crosscovProjection b nz k x = projectFunction b nz (k x) := rfl

lemma kernelVariance_eq {grid0 grid1 : List ℝ} {zb0 zb1 : Bool} {b0 b1 : Basis} (hg0 : grid0.Pairwise (· < ·))
    (h0 : mkBasis grid0 zb0 = .ok b0) (hg1 : grid1.Pairwise (· < ·)) (h1 : mkBasis grid1 zb1 = .ok b1)
    (k : ℝ → ℝ → ℝ) {i j : ℕ} (hi : i < b0.len) (hj : j < b1.len) :
    kernelVariance b0 b1 k i j = .ok (∫ x0, b0.phi i x0 * ∫ x1, b1.phi j x1 * k x0 x1) := by
  obtain ⟨lo, hi', a1, _, a3, a4, _⟩ := basis_support hg0 h0 i hi
  obtain ⟨lo2, hi2, c1, _, c3, c4, _⟩ := basis_support hg1 h1 j hj
  unfold kernelVariance
  rw [a1]
  change (b1.supportBounds j >>= fun _ => _ : Except Err ℝ) = _
  rw [c1]
  change (b0.evalElem i lo >>= fun _ => _ : Except Err ℝ) = _
  rw [evalElem_phi hg0 h0 hi]
  change (b1.evalElem j lo2 >>= fun _ => _ : Except Err ℝ) = _
  rw [evalElem_phi hg1 h1 hj]
  change Except.ok _ = _
  congr 1
  simp only [evalElem_phi hg0 h0 hi, evalElem_phi hg1 h1 hj]
  rw [← Basis.integral_support a3.le a4]
  refine intervalIntegral.integral_congr fun x0 _ => ?_
  beta_reduce
  rw [← Basis.integral_support c3.le c4, ← intervalIntegral.integral_const_mul]
  refine intervalIntegral.integral_congr fun x1 _ => ?_
  beta_reduce
  ring

/-- The covariance matrix of two projections. -/
lemma projectionCov_eq {grid0 grid1 : List ℝ} {zb0 zb1 : Bool} {b0 b1 : Basis} (hg0 : grid0.Pairwise (· < ·))
    (h0 : mkBasis grid0 zb0 = .ok b0) (hg1 : grid1.Pairwise (· < ·)) (h1 : mkBasis grid1 zb1 = .ok b1)
    (k : ℝ → ℝ → ℝ) (n0 n1 : Bool) : projectionCov b0 b1 n0 n1 k = .ok (normalizer b0 n0 *
      (Matrix.of fun (i : Fin b0.len) (j : Fin b1.len) => ∫ x0, b0.phi i x0 * ∫ x1, b1.phi j x1 * k x0 x1) *
      (normalizer b1 n1).transpose) := by
  unfold projectionCov
  rw [mapM_ok (f' := fun i => (List.range b1.len).map fun j => ∫ x0, b0.phi i x0 * ∫ x1, b1.phi j x1 * k x0 x1)
    (fun i hi => mapM_ok fun j hj => kernelVariance_eq hg0 h0 hg1 h1 k (by simpa using hi) (by simpa using hj))]
  change Except.ok _ = _
  congr 1
  funext i j
  rw [Matrix.mul_assoc]
  simp only [Matrix.mulVec, dotProduct, Matrix.mul_apply, Matrix.transpose_apply, Matrix.of_apply]
  refine Finset.sum_congr rfl fun a _ => ?_
  congr 1
  refine Finset.sum_congr rfl fun c _ => ?_
  rw [mul_comm]
  congr 1
  simp [List.getD_eq_getElem?_getD]

/-- C42: the covariance of two projections `P0 k P1*` satisfies `M0 C M1ᵀ = ∬ phi_i(x0) k(x0, x1) psi_j(x1)`. -/
theorem project_cov {grid0 grid1 : List ℝ} {zb0 zb1 : Bool} {b0 b1 : Basis} (hg0 : grid0.Pairwise (· < ·))
    (h0 : mkBasis grid0 zb0 = .ok b0) (hg1 : grid1.Pairwise (· < ·)) (h1 : mkBasis grid1 zb1 = .ok b1)
    (k : ℝ → ℝ → ℝ) :
    (∃ C, projectionCov b0 b1 true true k = .ok C ∧ ∀ i j, (massMatrix b0 * C * (massMatrix b1).transpose) i j =
      ∫ x0, (b0.evaluate x0).getD i 0 * ∫ x1, (b1.evaluate x1).getD j 0 * k x0 x1) ∧
    projectionCov b0 b1 false false k = .ok fun i j =>
      ∫ x0, (b0.evaluate x0).getD i 0 * ∫ x1, (b1.evaluate x1).getD j 0 * k x0 x1 := by
  have hq := projectionCov_eq hg0 h0 hg1 h1 k
  obtain ⟨m1, m2, m3⟩ := normalizer_inverse hg0 h0
  obtain ⟨n1, n2, n3⟩ := normalizer_inverse hg1 h1
  refine ⟨⟨_, hq true true, fun i j => ?_⟩, ?_⟩
  · rw [← Matrix.mul_assoc, ← Matrix.mul_assoc, m2, Matrix.one_mul, Matrix.mul_assoc, ← Matrix.transpose_mul, n2,
      Matrix.transpose_one, Matrix.mul_one]
    rfl
  · rw [hq false false, m3, n3, Matrix.transpose_one, Matrix.mul_one, Matrix.one_mul]
    rfl

/-- Non-vacuity: a locally integrable function outside the span. -/
example : LocallyIntegrable (fun x : ℝ => x ^ 2) := (by fun_prop : Continuous fun x : ℝ => x ^ 2).locallyIntegrable

end LinPDE.Fem
