import Verif.Solve.FemSystem

/-! # Posterior means of the finite element notebooks -/

namespace LinPDE.Solve
open LinPDE.Domains LinPDE.Pde LinPDE.GP LinPDE.Block LinPDE.Fem LinPDE.Galerkin Matrix MeasureTheory

variable {S : FemSystem} {l r α : ℝ} {n : ℕ} {g : ℝ → ℝ} {k : ℝ → ℝ → ℝ} {P : Proj}

/-- Coefficients of the projection are independent. -/
lemma pc_indep (hP : Galerkin.Good P) (hn : P.normalized = true) (γ : Fin P.basis.len → ℝ) (h0 : ∑ i, γ i • pcΛ P i = 0) (i) :
    γ i = 0 := by
  have := congrArg (fun L : lbΛ => L.1 (feF hP (Pi.single i 1))) h0
  beta_reduce at this
  rw [coe_sum_apply] at this
  simp only [pc_fe hP hn] at this
  rw [Finset.sum_eq_single i] at this
  · simpa using this
  · intro j _ hj
    rw [Pi.single_eq_of_ne hj, mul_zero]
  · simp

/-- The cross-covariance of a coefficient under the Galerkin covariance function is a finite element function. -/
lemma cross_pc (hk : IStrict k) (hP : Galerkin.Good P) (hn : P.normalized = true) (m : lbF) (i : Fin P.basis.len) :
    (lbPrior (hk.galerkin hP).feature m).cross (pcΛ P i) = feF hP fun j => coef P (fun s => coef P (k s) j) i := by
  obtain ⟨F⟩ := hk.feature
  refine Subtype.ext (funext fun x => ?_)
  show (pcΛ P i).1 ⟨spec P k x, _⟩ = _
  rw [pcΛ_apply hP]
  exact coef_spec hP hn F x i

lemma cov_pc (hF : Nonempty (Feature k)) (hP : Galerkin.Good P) (m : lbF) (i j : Fin P.basis.len) :
    (lbPrior hF m).cov (pcΛ P i) (pcΛ P j) = coef P (fun s => coef P (k s) j) i := by
  show (pcΛ P i).1 ((lbPrior hF m).cross (pcΛ P j)) = _
  rw [pcΛ_apply hP]
  congr 1
  funext x
  show (pcΛ P j).1 ⟨k x, _⟩ = _
  rw [pcΛ_apply hP]

/-- Every finite element function is a combination of the cross-covariances. -/
lemma fe_cross (hk : IStrict k) (hP : Galerkin.Good P) (hn : P.normalized = true) (m : lbF) (c : Fin P.basis.len → ℝ) :
    ∃ w : Fin P.basis.len → ℝ, feF hP c = (lbPrior (hk.galerkin hP).feature m).cross (∑ i, w i • pcΛ P i) := by
  have hC := (lb_gram_iff hk m (pcΛ P)).mpr (pc_indep hP hn)
  set C : Matrix (Fin P.basis.len) (Fin P.basis.len) ℝ := Matrix.of fun i j => (lbPrior hk.feature m).cov (pcΛ P i) (pcΛ P j)
  have hu : IsUnit C.det := by
    rw [isUnit_iff_ne_zero]
    exact hC.det_pos.ne'
  refine ⟨c ᵥ* C⁻¹, ?_⟩
  have e : (lbPrior (hk.galerkin hP).feature m).cross (∑ i, (c ᵥ* C⁻¹) i • pcΛ P i) =
      ∑ i, (c ᵥ* C⁻¹) i • (lbPrior (hk.galerkin hP).feature m).cross (pcΛ P i) := by
    show crossLin (lbPrior (hk.galerkin hP).feature m) _ = _
    rw [map_sum]
    refine Finset.sum_congr rfl fun i _ => ?_
    rw [map_smul]
    rfl
  rw [e]
  have hc : c = (c ᵥ* C⁻¹) ᵥ* C := by
    rw [Matrix.vecMul_vecMul, Matrix.nonsing_inv_mul _ hu, Matrix.vecMul_one]
  refine Subtype.ext (funext fun x => ?_)
  have e2 : (∑ i, (c ᵥ* C⁻¹) i • (lbPrior (hk.galerkin hP).feature m).cross (pcΛ P i) : lbF).1 x =
      ∑ i, (c ᵥ* C⁻¹) i * ∑ j, C i j * P.basis.phi j x := by
    rw [Submodule.coe_sum, Finset.sum_apply]
    refine Finset.sum_congr rfl fun i _ => ?_
    rw [cross_pc hk hP hn]
    show (c ᵥ* C⁻¹) i * ∑ j : Fin P.basis.len, coef P (fun s => coef P (k s) j) i * P.basis.phi j x = _
    congr 1
    refine Finset.sum_congr rfl fun j _ => ?_
    congr 1
    exact (cov_pc hk.feature hP m i j).symm
  refine Eq.trans ?_ e2.symm
  show ∑ j, c j * P.basis.phi j x = _
  simp only [Finset.mul_sum]
  rw [Finset.sum_comm]
  refine Finset.sum_congr rfl fun j _ => ?_
  conv_lhs => rw [hc]
  simp only [Matrix.vecMul, dotProduct, Finset.sum_mul, mul_assoc]

/-- Independent rows in full number span the coefficients. -/
lemma rows_span {ι : Type} [Fintype ι] [DecidableEq ι] {M : ι → Fin P.basis.len → ℝ} (hM : RowsIndep M) (hc : Fintype.card ι = P.basis.len)
    (w : Fin P.basis.len → ℝ) : ∃ v : ι → ℝ, ∑ i, w i • pcΛ P i = ∑ a, v a • ∑ j, M a j • pcΛ P j := by
  choose R hR using fun b : ι => hM (Pi.single b 1)
  let M' : Matrix ι (Fin P.basis.len) ℝ := M
  let R' : Matrix (Fin P.basis.len) ι ℝ := fun j b => R b j
  have h1 : M' * R' = 1 := by
    ext a b
    rw [Matrix.mul_apply, Matrix.one_apply]
    show ∑ j, M a j * R b j = _
    rw [hR b a, Pi.single_apply]
  have h2 : R' * M' = 1 := (Matrix.mul_eq_one_comm_of_card_eq _ _ _ (by simpa using hc)).mp h1
  refine ⟨w ᵥ* R', ?_⟩
  have hw : w = (w ᵥ* R') ᵥ* M' := by rw [Matrix.vecMul_vecMul, h2, Matrix.vecMul_one]
  simp only [Finset.smul_sum, smul_smul]
  rw [Finset.sum_comm]
  refine Finset.sum_congr rfl fun j _ => ?_
  rw [← Finset.sum_smul]
  congr 1
  conv_lhs => rw [hw]
  rfl

/-! ## The finite element function -/

/-- Coefficients that solve the equations of the notebook. -/
structure IsFem (S : FemSystem) (ul ur : ℝ) (c : Fin S.trial.basis.len → ℝ) : Prop where
  left : ∑ j, bcRows S.trial 0 j * c j = ul
  right : ∑ j, bcRows S.trial 1 j * c j = ur
  eqn : ∀ i, ∑ j, S.A i j * c j = S.b i

lemma IsSys.exists_fem (h : IsSys S l r α n g) (hlr : l < r) (hα : α ≠ 0) (ul ur : ℝ) : ∃ c, IsFem S ul ur c := by
  obtain ⟨c, hc⟩ := h.full hlr hα (Sum.elim ![ul, ur] S.b)
  exact ⟨c, hc (.inl 0), hc (.inl 1), fun i => hc (.inr i)⟩

lemma IsSys.fem_unique (h : IsSys S l r α n g) (hlr : l < r) (hα : α ≠ 0) {ul ur : ℝ} {c c'} (hc : IsFem S ul ur c)
    (hc' : IsFem S ul ur c') : c = c' := by
  refine h.unique hlr hα (fun i => ?_) fun i => by rw [hc.eqn, hc'.eqn]
  match i with
  | 0 => rw [hc.left, hc'.left]
  | 1 => rw [hc.right, hc'.right]

lemma IsFem.ends {ul ur : ℝ} {c : Fin S.trial.basis.len → ℝ} (hc : IsFem S ul ur c) (h : IsSys S l r α n g) :
    ext c 0 = ul ∧ ext c (n + 1) = ur := by
  obtain ⟨-, -, h2⟩ := h.lens
  obtain ⟨a, b⟩ := endRows_row h2 (ext c)
  simp only [ext_val] at a b
  exact ⟨a.symm.trans hc.left, b.symm.trans hc.right⟩

lemma linspace_node {c : ℕ} (hc : c < n + 2) : node (linspace l r (n + 2)) false c = l + c * ((r - l) / ((n : ℝ) + 1)) := by
  rw [show node (linspace l r (n + 2)) false c = (linspace l r (n + 2)).getD c 0 from rfl, linspace_getD hc]

lemma fe_eq (hP : Galerkin.Good S.trial) (c : Fin S.trial.basis.len → ℝ) (x : ℝ) :
    (feF hP c).1 x = ∑ i ∈ Finset.range S.trial.basis.len, ext c i * (S.trial.basis.evaluate x).getD i 0 := by
  rw [Finset.sum_range]
  show ∑ j, c j * S.trial.basis.phi j x = _
  exact Finset.sum_congr rfl fun j _ => by rw [ext_val]; rfl

/-- Values between the nodes. -/
lemma IsSys.fe_between (h : IsSys S l r α n g) (hlr : l < r) (c : Fin S.trial.basis.len → ℝ) {j : ℕ} (hj : j ≤ n) {x : ℝ}
    (hx : l + j * ((r - l) / ((n : ℝ) + 1)) ≤ x) (hx' : x ≤ l + (j + 1 : ℕ) * ((r - l) / ((n : ℝ) + 1))) :
    (feF (h.goodTrial hlr) c).1 x = ext c j + (x - (l + j * ((r - l) / ((n : ℝ) + 1)))) / ((r - l) / ((n : ℝ) + 1)) *
      (ext c (j + 1) - ext c j) := by
  obtain ⟨-, -, h2⟩ := h.lens
  have hj1 : node (linspace l r (n + 2)) false j = l + j * ((r - l) / ((n : ℝ) + 1)) := linspace_node (by omega)
  have hj2 : node (linspace l r (n + 2)) false (j + 1) = l + (j + 1 : ℕ) * ((r - l) / ((n : ℝ) + 1)) := linspace_node (by omega)
  rw [fe_eq, basis_interpolates (linspace_pairwise hlr n) h.trial (ext c) (j := j) (by omega) (by rw [hj1]; exact hx)
    (by rw [hj2]; exact hx'), hj1, hj2]
  congr 3
  push_cast
  ring

/-- Values at the nodes. -/
lemma IsSys.fe_node (h : IsSys S l r α n g) (hlr : l < r) (c : Fin S.trial.basis.len → ℝ) {j : ℕ} (hj : j ≤ n + 1) :
    (feF (h.goodTrial hlr) c).1 (l + j * ((r - l) / ((n : ℝ) + 1))) = ext c j := by
  have hs : 0 < (r - l) / ((n : ℝ) + 1) := div_pos (by linarith) (by positivity)
  rcases Nat.lt_or_ge j (n + 1) with h1 | h1
  · rw [h.fe_between hlr c (j := j) (by omega) le_rfl (by push_cast; linarith)]
    ring
  · obtain rfl : j = n + 1 := by omega
    rw [h.fe_between hlr c (j := n) le_rfl (by push_cast; linarith) le_rfl]
    have : (l + ((n + 1 : ℕ) : ℝ) * ((r - l) / ((n : ℝ) + 1)) - (l + n * ((r - l) / ((n : ℝ) + 1)))) / ((r - l) / ((n : ℝ) + 1)) = 1 := by
      rw [div_eq_one_iff_eq hs.ne']
      push_cast
      ring
    rw [this]
    ring

lemma IsSys.fe_left (h : IsSys S l r α n g) (hlr : l < r) {ul ur : ℝ} {c} (hc : IsFem S ul ur c) :
    (feF (h.goodTrial hlr) c).1 l = ul ∧ (feF (h.goodTrial hlr) c).1 r = ur := by
  have h0 := h.fe_node hlr c (j := 0) (by omega)
  have h1 := h.fe_node hlr c (j := n + 1) le_rfl
  have e : l + ((n + 1 : ℕ) : ℝ) * ((r - l) / ((n : ℝ) + 1)) = r := by
    have : (n : ℝ) + 1 ≠ 0 := by positivity
    push_cast
    field_simp
    ring
  rw [e] at h1
  rw [Nat.cast_zero, zero_mul, add_zero] at h0
  obtain ⟨a, b⟩ := hc.ends h
  exact ⟨h0.trans a, h1.trans b⟩

/-- The posterior mean under the Galerkin prior with zero mean. -/
lemma IsSys.fem_mean (h : IsSys S l r α n g) (hlr : l < r) (hα : α ≠ 0) (hk : IStrict k) {ul ur : ℝ} {c} (hc : IsFem S ul ur c) :
    postMeanF ((femObs S [l, r] [[ul], [ur]]).1.batch (hk.galerkin (h.goodTrial hlr)).feature 0 ::
      (femObs S [l, r] [[ul], [ur]]).2.map (FObs.batch (hk.galerkin (h.goodTrial hlr)).feature 0)) = feF (h.goodTrial hlr) c := by
  have hP := h.goodTrial hlr
  have hcard : Fintype.card (Fin 2 ⊕ Fin S.test.basis.len) = S.trial.basis.len := by
    have := h.len2
    simp
    omega
  refine postMeanF_eq (h.fem_gram hlr hα (hk.galerkin (h.goodTrial hlr)) _ _) (by simp [femObs, bcPoints, FemSystem.equation, FObs.batch]) _ ?_ fun i => ?_
  · show feF hP c - 0 ∈ _
    rw [sub_zero]
    obtain ⟨w, hw⟩ := fe_cross hk hP h.tn 0 c
    obtain ⟨v, hv⟩ := rows_span (h.full hlr hα) hcard w
    rw [hw, hv, Fintype.sum_sum_type]
    show crossLin (lbPrior (hk.galerkin hP).feature 0) _ ∈ _
    rw [map_add, map_sum, map_sum]
    refine Submodule.add_mem _ (Submodule.sum_mem _ fun a _ => ?_) (Submodule.sum_mem _ fun a _ => ?_)
    · rw [map_smul]
      exact Submodule.smul_mem _ _ (Submodule.subset_span ⟨⟨1, a⟩, rfl⟩)
    · rw [map_smul]
      exact Submodule.smul_mem _ _ (Submodule.subset_span ⟨⟨2, a⟩, rfl⟩)
  · obtain ⟨p, i⟩ := i
    match p with
    | 0 =>
      have key : ∀ i : Fin 2, (feF hP c).1 ([l, r].get i) = ([[ul], [ur]].flatten).getD i 0 := by
        intro i
        match i with
        | 0 => exact (h.fe_left hlr hc).1
        | 1 => exact (h.fe_left hlr hc).2
      exact key i
    | 1 =>
      have key : ∀ i : Fin 2, ∑ j, bcRows S.trial i j * c j = ([[ul], [ur]].flatten).getD i 0 := by
        intro i
        match i with
        | 0 => exact hc.left
        | 1 => exact hc.right
      refine (coe_sum_apply Finset.univ (fun j => bcRows S.trial i j) (pcΛ S.trial) _).trans ?_
      simp only [pc_fe hP h.tn]
      exact key i
    | 2 =>
      refine (coe_sum_apply Finset.univ (fun j => S.A i j) (pcΛ S.trial) _).trans ?_
      simp only [pc_fe hP h.tn]
      exact hc.eqn i

/-! ## The exact solution -/

/-- `u` solves `-α u'' = g` on the interval with the given boundary values; the second derivative may fail to exist on a
countable set. -/
def IsExact (α l r ul ur : ℝ) (g u : ℝ → ℝ) : Prop :=
  u l = ul ∧ u r = ur ∧ ∃ (u' : ℝ → ℝ) (s : Set ℝ), s.Countable ∧ ContinuousOn u (Set.Icc l r) ∧ ContinuousOn u' (Set.Icc l r) ∧
    (∀ x ∈ Set.Ioo l r, HasDerivAt u (u' x) x) ∧ ∀ x ∈ Set.Ioo l r \ s, HasDerivAt u' (-(g x) / α) x

/-- Nodal values of an exact solution solve the system. -/
lemma IsSys.exact_fem (h : IsSys S l r α n g) (hlr : l < r) (hα : α ≠ 0) (hg : IntervalIntegrable g volume l r) {ul ur : ℝ}
    {u : ℝ → ℝ} (hu : IsExact α l r ul ur g u) :
    IsFem S ul ur fun j => u (l + (j : ℕ) * ((r - l) / ((n : ℝ) + 1))) := by
  obtain ⟨hl, hr, u', s, hs, c0, c1, d0, d1⟩ := hu
  obtain ⟨-, e1, e2⟩ := h.lens
  have hn1 : (0 : ℝ) < (n : ℝ) + 1 := by positivity
  have hst : 0 < (r - l) / ((n : ℝ) + 1) := div_pos (by linarith) hn1
  set st := (r - l) / ((n : ℝ) + 1) with hst'
  have hend : l + ((n + 1 : ℕ) : ℝ) * st = r := by
    rw [hst']
    push_cast
    field_simp
    ring
  have hmono : ∀ i j : ℕ, i ≤ j → l + (i : ℝ) * st ≤ l + (j : ℝ) * st := by
    intro i j hij
    have : (i : ℝ) ≤ j := by exact_mod_cast hij
    nlinarith
  have hlo : ∀ i : ℕ, l ≤ l + (i : ℝ) * st := fun i => by
    have := hmono 0 i (by omega)
    simpa using this
  have hhi : ∀ i : ℕ, i ≤ n + 1 → l + (i : ℝ) * st ≤ r := fun i hi => by
    have := hmono i (n + 1) hi
    rwa [hend] at this
  obtain ⟨b0, b1⟩ := endRows_row e2 fun j : ℕ => u (l + (j : ℝ) * st)
  refine ⟨b0.trans ?_, b1.trans ?_, fun i => ?_⟩
  · simpa using hl
  · rw [hend]
    exact hr
  · obtain ⟨A, hA, hd⟩ := h.diff2 hlr
    have hi : i.val < n := by omega
    have g0 : S.test.basis.g i = l + (i.val : ℝ) * st := h.testNode hlr (by omega)
    have g1 : S.test.basis.g (i + 1) = l + ((i.val + 1 : ℕ) : ℝ) * st := h.testNode hlr (by omega)
    have g2 : S.test.basis.g (i + 2) = l + ((i.val + 2 : ℕ) : ℝ) * st := h.testNode hlr (by omega)
    have hgi : ∀ a b : ℕ, a ≤ b → b ≤ n + 1 → IntervalIntegrable g volume (l + (a : ℝ) * st) (l + (b : ℝ) * st) := by
      intro a b hab hb
      refine hg.mono_set ?_
      rw [Set.uIcc_of_le (hmono a b hab), Set.uIcc_of_le hlr.le]
      exact Set.Icc_subset_Icc (hlo a) (hhi b hb)
    obtain ⟨hG, hz⟩ := mkBasis_good (linspace_pairwise hlr n) h.test
    have hzb : S.test.basis.zeroBoundary = true := by
      obtain ⟨b, hb, hb2, -⟩ := (basis_constructs (linspace l r (n + 2)) true).1 (by rw [linspace_length]; omega)
      rw [Except.ok.inj (h.test.symm.trans hb)]
      exact hb2
    rw [h.b, Basis.integral_phi_mul hG i.2 (by rw [g0, g2]; exact hgi _ _ (by omega) (by omega)),
      if_pos (show S.test.basis.Al i from Or.inl hzb), if_pos (show S.test.basis.Be i from Or.inl hzb), g0, g1, g2]
    have key : ∀ a : ℕ, a ≤ n →
        (∫ x in (l + (a : ℝ) * st)..(l + ((a + 1 : ℕ) : ℝ) * st), (x - (l + (a : ℝ) * st)) /
          (l + ((a + 1 : ℕ) : ℝ) * st - (l + (a : ℝ) * st)) * g x) =
          -α * (u' (l + ((a + 1 : ℕ) : ℝ) * st) - (u (l + ((a + 1 : ℕ) : ℝ) * st) - u (l + (a : ℝ) * st)) / st) ∧
        (∫ x in (l + (a : ℝ) * st)..(l + ((a + 1 : ℕ) : ℝ) * st), (l + ((a + 1 : ℕ) : ℝ) * st - x) /
          (l + ((a + 1 : ℕ) : ℝ) * st - (l + (a : ℝ) * st)) * g x) =
          -α * ((u (l + ((a + 1 : ℕ) : ℝ) * st) - u (l + (a : ℝ) * st)) / st - u' (l + (a : ℝ) * st)) := by
      intro a ha
      have hlt : l + (a : ℝ) * st < l + ((a + 1 : ℕ) : ℝ) * st := by push_cast; nlinarith
      have hsub : Set.Icc (l + (a : ℝ) * st) (l + ((a + 1 : ℕ) : ℝ) * st) ⊆ Set.Icc l r :=
        Set.Icc_subset_Icc (hlo a) (hhi (a + 1) (by omega))
      have hsub' : Set.Ioo (l + (a : ℝ) * st) (l + ((a + 1 : ℕ) : ℝ) * st) ⊆ Set.Ioo l r :=
        Set.Ioo_subset_Ioo (hlo a) (hhi (a + 1) (by omega))
      have hw : IntervalIntegrable (fun x => -(g x) / α) volume (l + (a : ℝ) * st) (l + ((a + 1 : ℕ) : ℝ) * st) :=
        (hgi a (a + 1) (by omega) (by omega)).neg.div_const α
      have hdiff : l + ((a + 1 : ℕ) : ℝ) * st - (l + (a : ℝ) * st) = st := by push_cast; ring
      have r1 := cell_rise hlt hs (c0.mono hsub) (c1.mono hsub) (fun x hx => d0 x (hsub' hx))
        (fun x hx => d1 x ⟨hsub' hx.1, hx.2⟩) hw
      have r2 := cell_fall hlt hs (c0.mono hsub) (c1.mono hsub) (fun x hx => d0 x (hsub' hx))
        (fun x hx => d1 x ⟨hsub' hx.1, hx.2⟩) hw
      rw [hdiff] at r1 r2 ⊢
      constructor
      · rw [← r1, ← intervalIntegral.integral_const_mul]
        congr 1
        funext x
        field_simp
      · rw [← r2, ← intervalIntegral.integral_const_mul]
        congr 1
        funext x
        field_simp
    rw [(key i (by omega)).1, (key (i + 1) (by omega)).2]
    have hrow := hd.row h.len2 (fun j => u (l + (j : ℝ) * st)) i
    rw [hA]
    simp only [Matrix.smul_apply, smul_eq_mul, mul_assoc, ← Finset.mul_sum]
    rw [hrow]
    have : ((n : ℝ) + 1) / (r - l) = 1 / st := by rw [hst', one_div_div]
    simp only [this]
    ring

end LinPDE.Solve
