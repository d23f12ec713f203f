import Verif.GP.Integral
import Verif.GP.Props
import Verif.Galerkin.Sound

/-!
# Observations through projections

Coefficients of an L2 projection and point evaluations as functionals of a process (`linfunctls/projections/l2/_fem.py`,
`linfunctls/_evaluation.py`), and when such observations are linearly independent.
-/

namespace LinPDE.GP
open Matrix MeasureTheory LinPDE.Galerkin
open scoped InnerProductSpace

variable {P : Proj}

/-- Evaluation at a point. -/
def evΛ (x : ℝ) : lbΛ := ⟨evF x, evF_mem x⟩

open Classical in
/-- The `i`-th coefficient of an L2 projection (`projections/l2/_fem.py:63-78`) on an increasing grid. -/
noncomputable def pcΛ (P : Proj) (i : Fin P.basis.len) : lbΛ :=
  if h : Galerkin.Good P then
    ∑ j : Fin P.basis.len, Fem.normalizer P.basis P.normalized i j • ⟨wF ⟨P.basis.phi j, phi_weight h j.2⟩, wF_mem _⟩
  else 0

lemma evΛ_apply (x : ℝ) (f : lbF) : (evΛ x).1 f = f.1 x := rfl

lemma coe_sum_apply {ι : Type} (s : Finset ι) (c : ι → ℝ) (L : ι → lbΛ) (f : lbF) :
    (∑ i ∈ s, c i • L i : lbΛ).1 f = ∑ i ∈ s, c i * (L i).1 f := by
  simp [LinearMap.sum_apply]

lemma pcΛ_apply (hP : Galerkin.Good P) (i : Fin P.basis.len) (f : lbF) : (pcΛ P i).1 f = coef P f.1 i := by
  rw [pcΛ, dif_pos hP, coe_sum_apply, (projectFunction_eq hP f.1).2]
  rfl

/-- The basis functions combine to admissible functions. -/
lemma span_lb (hP : Galerkin.Good P) (c : Fin P.basis.len → ℝ) : LB fun x => ∑ j, c j * P.basis.phi j x := by
  have := LB.sum (f := fun (j : Fin P.basis.len) x => c j * P.basis.phi j x) Finset.univ
    fun j _ => (phi_lb hP j.2).const_mul (c j)
  simpa using this

/-- The finite element function with the given coefficients. -/
noncomputable def feF (hP : Galerkin.Good P) (c : Fin P.basis.len → ℝ) : lbF := ⟨_, span_lb hP c⟩

lemma pc_fe (hP : Galerkin.Good P) (hn : P.normalized = true) (c : Fin P.basis.len → ℝ) (i : Fin P.basis.len) :
    (pcΛ P i).1 (feF hP c) = c i := by
  rw [pcΛ_apply hP]
  exact congrFun (coef_span hP hn c) i

open Classical in
/-- The function that is one at a single point. -/
noncomputable def spike (x : ℝ) : lbF := by
  refine ⟨fun t => if t = x then 1 else 0, ?_, fun A B => ⟨1, fun t _ => ?_⟩⟩
  · exact (Measurable.ite (measurableSet_singleton x) measurable_const measurable_const).stronglyMeasurable
  · beta_reduce
    split_ifs <;> simp

lemma pc_spike (hP : Galerkin.Good P) (i : Fin P.basis.len) (x : ℝ) : (pcΛ P i).1 (spike x) = 0 := by
  rw [pcΛ_apply hP, (projectFunction_eq hP _).2]
  refine Finset.sum_eq_zero fun j _ => ?_
  rw [integral_eq_zero_of_ae, mul_zero]
  have : ∀ᵐ t : ℝ, t ≠ x := by
    rw [ae_iff]
    simp
  filter_upwards [this] with t ht
  show P.basis.phi j t * (if t = x then 1 else 0) = 0
  rw [if_neg ht, mul_zero]

/-- The rows of a matrix are linearly independent. -/
def RowsIndep {ι κ : Type} [Fintype ι] [Fintype κ] (M : ι → κ → ℝ) : Prop :=
  ∀ b : ι → ℝ, ∃ c : κ → ℝ, ∀ i, ∑ j, M i j * c j = b i

/-- Evaluations at distinct points and independent combinations of projection coefficients. -/
lemma indep_points_rows (hP : Galerkin.Good P) (hn : P.normalized = true) {ι κ : Type} [Fintype ι] [Fintype κ]
    {x : ι → ℝ} (hx : Function.Injective x) {M : κ → Fin P.basis.len → ℝ} (hM : RowsIndep M) (g : ι ⊕ κ → ℝ)
    (h0 : ∑ a, g a • Sum.elim (fun i => evΛ (x i)) (fun i => ∑ j, M i j • pcΛ P j) a = 0) (a : ι ⊕ κ) : g a = 0 := by
  classical
  rw [Fintype.sum_sum_type] at h0
  simp only [Sum.elim_inl, Sum.elim_inr] at h0
  have key : ∀ f : lbF, ∑ i, g (.inl i) * f.1 (x i) + ∑ i, g (.inr i) * ∑ j, M i j * (pcΛ P j).1 f = 0 := by
    intro f
    have := congrArg (fun L : lbΛ => L.1 f) h0
    simp only [Submodule.coe_add, LinearMap.add_apply] at this
    rw [coe_sum_apply, coe_sum_apply] at this
    simp only [coe_sum_apply] at this
    exact this
  have hl : ∀ i, g (.inl i) = 0 := by
    intro i
    have := key (spike (x i))
    simp only [pc_spike hP, mul_zero, Finset.sum_const_zero, add_zero] at this
    rw [Finset.sum_eq_single i] at this
    · simpa [spike] using this
    · intro j _ hj
      show g (.inl j) * (if x j = x i then 1 else 0) = 0
      rw [if_neg fun h => hj (hx h), mul_zero]
    · simp
  rcases a with i | i
  · exact hl i
  · obtain ⟨c, hc⟩ := hM fun i => g (.inr i)
    have := key (feF hP c)
    simp only [pc_fe hP hn, hl, zero_mul, Finset.sum_const_zero, zero_add, hc] at this
    exact mul_self_eq_zero.mp ((Finset.sum_eq_zero_iff_of_nonneg fun j _ => mul_self_nonneg _).mp this i (Finset.mem_univ _))

/-! ## Kernels -/

lemma IStrict.congr {k k' : ℝ → ℝ → ℝ} (h : IStrict k) (e : ∀ x y, k x y = k' x y) : IStrict k' := by
  obtain rfl : k = k' := funext fun x => funext (e x)
  exact h

/-- Continuous stationary covariance functions whose spectral density has no zero. -/
lemma istrict_of_spectral {κ : ℝ → ℝ} (hκ : PosDef.Spectral κ) (hc : Galerkin.IsCov fun x y => κ (x - y)) :
    IStrict fun x y => κ (x - y) :=
  istrict_stationary hκ (Feature.of_continuous hc (by
    have := hκ.cont
    show Continuous fun p : ℝ × ℝ => κ (p.1 - p.2)
    fun_prop))

/-- Half-integer Matérn covariance functions in one variable. -/
lemma istrict_phi (p : ℕ) {a : ℝ} (ha : a ≠ 0) : IStrict fun x y => Matern.phi p 0 (a * (x - y)) := by
  refine istrict_of_spectral (κ := fun t => Matern.phi p 0 (a * t)) ((PosDef.phi_spectral p).scale ha) ?_
  have h := (PosDef.phi_psd p 0 (Nat.zero_le _)).comp fun (x : ℝ) (_ : Fin 1) => a * x
  have h' : PosDef.PSD fun x y : ℝ => Matern.phi p 0 (a * (x - y)) := h.congr fun x y => by simp [mul_sub]
  exact ⟨h'.symm, h'.nonneg⟩

/-- The Matérn covariance functions of the model. -/
lemma istrict_matern (m : Matern.Par 1) (hs : m.s 0 ≠ 0) :
    IStrict fun x y => (Matern.MK.matern m).eval (fun _ => x) (fun _ => y) := by
  refine (istrict_phi m.p hs).congr fun x y => ?_
  have e : ∀ t : ℝ, Matern.phi m.p 0 t = Matern.psi m.p 0 |t| := by
    intro t
    rcases le_total 0 t with h | h
    · rw [Matern.phi_of_nonneg h, abs_of_nonneg h]
    · rw [Matern.phi_of_nonpos h (Or.inr (Or.inl ⟨0, rfl⟩)), abs_of_nonpos h, pow_zero, one_mul]
  rw [e, PosDef.matern_eval, add_zero]
  unfold Matern.sq PosDef.dsq
  rw [Fin.sum_univ_one, Real.sqrt_sq_eq_abs]
  congr 2
  ring

/-- The covariance function of the notebooks. -/
lemma istrict_matern32 {l : ℝ} (hl : 0 < l) : IStrict (matern32K l) :=
  istrict_matern ⟨1, fun _ => Real.sqrt 3 / l⟩ (by
    show Real.sqrt 3 / l ≠ 0
    positivity)

/-- Squared exponential covariance functions. -/
lemma istrict_gauss {a : ℝ} (ha : 0 < a) (hc : Galerkin.IsCov fun x y => Real.exp (-a * (x - y) ^ 2)) :
    IStrict fun x y => Real.exp (-a * (x - y) ^ 2) :=
  istrict_of_spectral (PosDef.gauss_spectral ha) hc

/-! ## The posterior mean without noise -/

variable {X : Type} {Q : Prior X}

lemma jN_zero {l : List (Batch Q)} (hn : ∀ b ∈ l, b.noise = none) : jN l = 0 := by
  ext i j
  show (if h : i.1 = j.1 then _ else _) = _
  split_ifs with h
  · unfold Batch.noiseCov
    rw [hn _ (List.get_mem l i.1)]
    rfl
  · rfl

/-- A function that takes the observed values and differs from the prior mean by cross-covariances of observed functionals
is the posterior mean. -/
lemma postMeanF_eq {l : List (Batch Q)} (hG : (jG l).PosDef) (hn : ∀ b ∈ l, b.noise = none) (S : Q.F)
    (hS : S - Q.m ∈ Submodule.span ℝ (Set.range fun i => Q.cross (jL l i)))
    (hY : ∀ i : Idx l, (jL l i).1 S = (l.get i.1).Y i.2) : postMeanF l = S := by
  obtain ⟨w, hw⟩ := (Submodule.mem_span_range_iff_exists_fun ℝ).mp hS
  have hR : jR l = jG l *ᵥ w := by
    funext i
    have hb : (l.get i.1).bMean i.2 = 0 := by
      unfold Batch.bMean
      rw [hn _ (List.get_mem l i.1)]
      rfl
    show _ - (jL l i).1 Q.m - (l.get i.1).bMean i.2 = _
    rw [hb, sub_zero, ← hY, ← map_sub, ← hw, map_sum, jG, jN_zero hn, add_zero]
    refine Finset.sum_congr rfl fun j _ => ?_
    rw [map_smul, smul_eq_mul, mul_comm]
    rfl
  have hu : (jG l)⁻¹ *ᵥ jR l = w := by
    rw [hR, Matrix.mulVec_mulVec, Matrix.nonsing_inv_mul _ (jG_unit hG), Matrix.one_mulVec]
  unfold postMeanF
  rw [hu, hw]
  abel

end LinPDE.GP
