import Verif.GP.Lemmas

/-! Helper lemmas: quadratic forms, permutations, operators. -/

namespace LinPDE.GP
open Matrix LinPDE.Block

variable {X : Type} {P : Prior X}

/-! ### Bilinearity of the covariance -/

lemma cross_add (L L' : P.Λ) : P.cross (L + L') = P.cross L + P.cross L' := rfl
lemma cross_smul (a : ℝ) (L : P.Λ) : P.cross (a • L) = a • P.cross L := rfl

/-- `cross` as a linear map. -/
def crossLin (P : Prior X) : P.Λ →ₗ[ℝ] P.F where
  toFun := P.cross
  map_add' := cross_add
  map_smul' := cross_smul

/-- The covariance of functionals as a bilinear form. -/
def covBil (P : Prior X) : P.Λ →ₗ[ℝ] P.Λ →ₗ[ℝ] ℝ where
  toFun L := L.1 ∘ₗ crossLin P
  map_add' _ _ := rfl
  map_smul' _ _ := rfl

lemma covBil_apply (L L' : P.Λ) : covBil P L L' = P.cov L L' := rfl

lemma cov_sum {ι : Type} [Fintype ι] (a b : ι → ℝ) (L : ι → P.Λ) :
    P.cov (∑ i, a i • L i) (∑ j, b j • L j) = ∑ i, ∑ j, a i * b j * P.cov (L i) (L j) := by
  rw [← covBil_apply]
  simp only [map_sum, LinearMap.sum_apply, map_smul, LinearMap.smul_apply, smul_eq_mul, covBil_apply]
  simp only [Finset.mul_sum]
  rw [Finset.sum_comm]
  refine Finset.sum_congr rfl fun i _ => Finset.sum_congr rfl fun j _ => by ring

lemma cov_ev (hP : P.Regular) (x y : X) : P.cov (hP.ev x) (hP.ev y) = P.k x y := rfl

lemma posterior_ev (hP : P.Regular) (l : List (Batch P)) (x y : X) :
    (posterior P l).cov (hP.ev x) (hP.ev y) = postCov l x y := posterior_cov l (hP.ev x) (hP.ev y)

/-! ### Best linear prediction -/

/-- Covariances of a functional with the measurements. -/
def uvec (l : List (Batch P)) (L : P.Λ) (i : Idx l) : ℝ := L.1 (P.cross (jL l i))

/-- Mean squared error of predicting `L f` by `Σ a_i z_i`. -/
noncomputable def risk (l : List (Batch P)) (L : P.Λ) (a : Idx l → ℝ) : ℝ :=
  P.cov L L - 2 * (a ⬝ᵥ uvec l L) + a ⬝ᵥ (jG l *ᵥ a)

lemma posterior_cov' (l : List (Batch P)) (L L' : P.Λ) :
    (posterior P l).cov L L' = P.cov L L' - uvec l L ⬝ᵥ ((jG l)⁻¹ *ᵥ uvec l L') := posterior_cov l L L'

lemma jG_symm {l : List (Batch P)} (h : (jG l).PosDef) : (jG l)ᵀ = jG l := by
  have := h.isHermitian
  rwa [Matrix.IsHermitian, conjTranspose_eq_transpose_of_trivial] at this

lemma jG_unit {l : List (Batch P)} (h : (jG l).PosDef) : IsUnit (jG l).det :=
  (Matrix.isUnit_iff_isUnit_det _).mp h.isUnit

lemma dot_symm {ι : Type} [Fintype ι] (G : Matrix ι ι ℝ) (h : Gᵀ = G) (a b : ι → ℝ) :
    a ⬝ᵥ (G *ᵥ b) = b ⬝ᵥ (G *ᵥ a) := by
  rw [Matrix.dotProduct_mulVec, ← Matrix.mulVec_transpose, h, dotProduct_comm]

lemma risk_eq {l : List (Batch P)} (h : (jG l).PosDef) (L : P.Λ) (a : Idx l → ℝ) :
    risk l L a = (posterior P l).cov L L +
      (a - (jG l)⁻¹ *ᵥ uvec l L) ⬝ᵥ (jG l *ᵥ (a - (jG l)⁻¹ *ᵥ uvec l L)) := by
  rw [posterior_cov', risk]
  have h1 : jG l *ᵥ ((jG l)⁻¹ *ᵥ uvec l L) = uvec l L := by
    rw [Matrix.mulVec_mulVec, Matrix.mul_nonsing_inv _ (jG_unit h), Matrix.one_mulVec]
  rw [Matrix.mulVec_sub, h1]
  simp only [sub_dotProduct, dotProduct_sub]
  rw [dot_symm _ (jG_symm h) ((jG l)⁻¹ *ᵥ uvec l L) a, h1, dotProduct_comm ((jG l)⁻¹ *ᵥ uvec l L)]
  ring

lemma quad_nonneg {ι : Type} [Fintype ι] {G : Matrix ι ι ℝ} (h : G.PosSemidef) (a : ι → ℝ) :
    0 ≤ a ⬝ᵥ (G *ᵥ a) := by
  classical
  have := h.dotProduct_mulVec_nonneg a
  simpa using this

lemma risk_ge {l : List (Batch P)} (h : (jG l).PosDef) (L : P.Λ) (a : Idx l → ℝ) :
    (posterior P l).cov L L ≤ risk l L a := by
  rw [risk_eq h]
  linarith [quad_nonneg h.posSemidef (a - (jG l)⁻¹ *ᵥ uvec l L)]

lemma risk_opt {l : List (Batch P)} (h : (jG l).PosDef) (L : P.Λ) :
    risk l L ((jG l)⁻¹ *ᵥ uvec l L) = (posterior P l).cov L L := by
  rw [risk_eq h]; simp

/-- All noise covariances are positive semidefinite. -/
def NoisePSD (l : List (Batch P)) : Prop := ∀ b ∈ l, b.noiseCov.PosSemidef

lemma jN_psd {l : List (Batch P)} (h : NoisePSD l) (a : Idx l → ℝ) : 0 ≤ a ⬝ᵥ (jN l *ᵥ a) := by
  have h1 : a ⬝ᵥ (jN l *ᵥ a) = ∑ p : Fin l.length, (fun r => a ⟨p, r⟩) ⬝ᵥ ((l.get p).noiseCov *ᵥ fun r => a ⟨p, r⟩) := by
    simp only [dotProduct, Matrix.mulVec, Fintype.sum_sigma]
    refine Finset.sum_congr rfl fun p _ => Finset.sum_congr rfl fun r _ => ?_
    congr 1
    rw [Finset.sum_eq_single p]
    · refine Finset.sum_congr rfl fun s _ => ?_
      simp [jN]
    · intro q _ hq
      refine Finset.sum_eq_zero fun s _ => ?_
      simp only [jN, of_apply]
      rw [dif_neg (fun hh => hq hh.symm), zero_mul]
    · simp
  rw [h1]
  refine Finset.sum_nonneg fun p _ => quad_nonneg (h _ (List.get_mem l p)) _

lemma risk_eq_cov (hP : P.Regular) (l : List (Batch P)) (L : P.Λ) (a : Idx l → ℝ) :
    risk l L a = P.cov (L - ∑ i, a i • jL l i) (L - ∑ i, a i • jL l i) + a ⬝ᵥ (jN l *ᵥ a) := by
  have h1 : P.cov (∑ i, a i • jL l i) (∑ i, a i • jL l i) =
      a ⬝ᵥ ((Matrix.of fun i j => P.cov (jL l i) (jL l j)) *ᵥ a) := by
    rw [cov_sum]
    simp only [dotProduct, Matrix.mulVec, of_apply, Finset.mul_sum]
    exact Finset.sum_congr rfl fun i _ => Finset.sum_congr rfl fun j _ => by ring
  have h2 : P.cov L (∑ i, a i • jL l i) = a ⬝ᵥ uvec l L := by
    rw [← covBil_apply]
    simp only [map_sum, map_smul, smul_eq_mul, covBil_apply]
    rfl
  have h3 : P.cov (L - ∑ i, a i • jL l i) (L - ∑ i, a i • jL l i) =
      P.cov L L - 2 * P.cov L (∑ i, a i • jL l i) + P.cov (∑ i, a i • jL l i) (∑ i, a i • jL l i) := by
    generalize hS : ∑ i, a i • jL l i = S
    have hc : P.cross (L - S) = P.cross L - P.cross S := rfl
    have hd : ∀ f, (L - S).1 f = L.1 f - S.1 f := fun f => rfl
    have hs : S.1 (P.cross L) = L.1 (P.cross S) := hP.symm S L
    simp only [Prior.cov]
    rw [hc, hd, map_sub, map_sub, hs]
    ring
  rw [h3, h1, h2, risk, jG, Matrix.add_mulVec, dotProduct_add]
  ring

lemma posterior_nonneg (hP : P.Regular) {l : List (Batch P)} (h : (jG l).PosDef) (hN : NoisePSD l) (L : P.Λ) :
    0 ≤ (posterior P l).cov L L := by
  rw [← risk_opt h L, risk_eq_cov hP]
  exact add_nonneg (hP.nonneg _) (jN_psd hN _)

lemma posterior_symm (hP : P.Regular) {l : List (Batch P)} (h : (jG l).PosDef) (L L' : P.Λ) :
    (posterior P l).cov L L' = (posterior P l).cov L' L := by
  rw [posterior_cov', posterior_cov', hP.symm L L']
  congr 1
  refine dot_symm _ ?_ _ _
  rw [Matrix.transpose_nonsing_inv, jG_symm h]

/-- The posterior is a Gaussian process again. -/
lemma posterior_regular (hP : P.Regular) {l : List (Batch P)} (h : (jG l).PosDef) (hN : NoisePSD l) :
    (posterior P l).Regular where
  ev_mem := hP.ev_mem
  symm := posterior_symm hP h
  nonneg := posterior_nonneg hP h hN

/-- Extending the history can only lower the risk. -/
lemma risk_snoc (l : List (Batch P)) (b : Batch P) (L : P.Λ) (a : Idx l → ℝ) :
    risk (l ++ [b]) L (Sum.elim a 0 ∘ (snocEquiv l b).symm) = risk l L a := by
  unfold risk
  have key : ∀ v : Idx (l ++ [b]) → ℝ, (Sum.elim a 0 ∘ (snocEquiv l b).symm) ⬝ᵥ v =
      a ⬝ᵥ fun i => v (inlI l b i) := by
    intro v
    rw [← comp_equiv_dotProduct_comp_equiv _ _ (snocEquiv l b)]
    simp [dotProduct, Function.comp_def, Fintype.sum_sum_type, snocEquiv_inl]
  rw [key, key]
  have h1 : (fun i => uvec (l ++ [b]) L (inlI l b i)) = uvec l L := by
    funext i; simp only [uvec, jL_inl]
  have h2 : (fun i => (jG (l ++ [b]) *ᵥ (Sum.elim a 0 ∘ (snocEquiv l b).symm)) (inlI l b i)) = jG l *ᵥ a := by
    funext i
    show (fun j => jG (l ++ [b]) (inlI l b i) j) ⬝ᵥ _ = _
    rw [dotProduct_comm, key, dotProduct_comm]
    simp only [Matrix.mulVec]
    congr 1
    funext j
    simp only [jG, Matrix.add_apply, of_apply, jL_inl, jN_inl_inl]
  rw [h1, h2]

lemma posterior_snoc_le (hP : P.Regular) (l : List (Batch P)) (b : Batch P) (h : (jG (l ++ [b])).PosDef) (L : P.Λ) :
    (posterior P (l ++ [b])).cov L L ≤ (posterior P l).cov L L := by
  rw [← risk_opt (jG_prefix hP l b h) L, ← risk_snoc l b]
  exact risk_ge h L _

lemma posterior_append_le (hP : P.Regular) (l l' : List (Batch P)) (h : (jG (l ++ l')).PosDef) (L : P.Λ) :
    (posterior P (l ++ l')).cov L L ≤ (posterior P l).cov L L := by
  induction l' using List.reverseRecOn with
  | nil => exact le_of_eq (by rw [List.append_nil])
  | append_singleton l' b ih =>
    have e1 : l ++ (l' ++ [b]) = (l ++ l') ++ [b] := (List.append_assoc l l' [b]).symm
    rw [e1] at h ⊢
    exact (posterior_snoc_le hP _ b h L).trans (ih (jG_prefix hP _ b h))

lemma posterior_nil (L L' : P.Λ) : (posterior P []).cov L L' = P.cov L L' := by
  rw [posterior_cov]
  have : IsEmpty (Idx ([] : List (Batch P))) := ⟨fun i => i.1.elim0⟩
  simp

lemma posterior_le_prior (hP : P.Regular) (l : List (Batch P)) (h : (jG l).PosDef) (L : P.Λ) :
    (posterior P l).cov L L ≤ P.cov L L := by
  rw [← posterior_nil]
  exact posterior_append_le hP [] l h L

lemma psd_of_cov (hP : P.Regular) {n : ℕ} (pts : Fin n → X) :
    (Matrix.of fun i j => P.k (pts i) (pts j)).PosSemidef := by
  refine Matrix.PosSemidef.of_dotProduct_mulVec_nonneg ?_ fun a => ?_
  · ext i j
    simp only [conjTranspose_apply, of_apply, star_trivial]
    rw [← cov_ev hP, ← cov_ev hP, hP.symm]
  · have := hP.nonneg (∑ i, a i • hP.ev (pts i))
    rw [cov_sum] at this
    refine this.trans (le_of_eq ?_)
    simp only [dotProduct, Matrix.mulVec, of_apply, Finset.mul_sum, Pi.star_apply, star_trivial, cov_ev]
    exact Finset.sum_congr rfl fun i _ => Finset.sum_congr rfl fun j _ => by ring

/-- Loewner order from the order on functionals. -/
lemma psd_diff {k k' : X → X → ℝ} (Λ : Submodule ℝ (P.F →ₗ[ℝ] ℝ)) (q q' : Λ →ₗ[ℝ] Λ →ₗ[ℝ] ℝ)
    (ev : X → Λ) (hk : ∀ x y, q (ev x) (ev y) = k x y) (hk' : ∀ x y, q' (ev x) (ev y) = k' x y)
    (hs : ∀ x y, k x y = k y x) (hs' : ∀ x y, k' x y = k' y x) (hle : ∀ L, q' L L ≤ q L L)
    {n : ℕ} (pts : Fin n → X) : (Matrix.of fun i j => k (pts i) (pts j) - k' (pts i) (pts j)).PosSemidef := by
  refine Matrix.PosSemidef.of_dotProduct_mulVec_nonneg ?_ fun a => ?_
  · ext i j
    simp only [conjTranspose_apply, of_apply, star_trivial]
    rw [hs, hs']
  · have hsum : ∀ r : Λ →ₗ[ℝ] Λ →ₗ[ℝ] ℝ, r (∑ i, a i • ev (pts i)) (∑ i, a i • ev (pts i)) =
        ∑ i, ∑ j, a i * (r (ev (pts i)) (ev (pts j)) * a j) := by
      intro r
      simp only [map_sum, LinearMap.sum_apply, map_smul, LinearMap.smul_apply, smul_eq_mul, Finset.mul_sum]
      rw [Finset.sum_comm]
      exact Finset.sum_congr rfl fun i _ => Finset.sum_congr rfl fun j _ => by ring
    have := hle (∑ i, a i • ev (pts i))
    rw [hsum, hsum] at this
    have h2 : star a ⬝ᵥ (Matrix.of fun i j => k (pts i) (pts j) - k' (pts i) (pts j)) *ᵥ a =
        (∑ i, ∑ j, a i * (q (ev (pts i)) (ev (pts j)) * a j)) -
        ∑ i, ∑ j, a i * (q' (ev (pts i)) (ev (pts j)) * a j) := by
      simp only [dotProduct, Matrix.mulVec, of_apply, Finset.mul_sum, Pi.star_apply, star_trivial, hk, hk',
        ← Finset.sum_sub_distrib]
      exact Finset.sum_congr rfl fun i _ => Finset.sum_congr rfl fun j _ => by ring
    rw [h2]
    linarith

lemma postCov_symm (hP : P.Regular) {l : List (Batch P)} (h : (jG l).PosDef) (x y : X) :
    postCov l x y = postCov l y x := by
  rw [← posterior_ev hP, ← posterior_ev hP, posterior_symm hP h]

/-! ### Noise-free measurements -/

lemma mem_index {l : List (Batch P)} {d : Batch P} (hd : d ∈ l) (i : Fin d.n) :
    ∃ p : Idx l, jL l p = d.L i ∧ jR l p = d.Y i - (d.L i).1 P.m - d.bMean i ∧
      (d.noise = none → ∀ q, jN l p q = 0) := by
  obtain ⟨n, hn, rfl⟩ := List.getElem_of_mem hd
  refine ⟨⟨⟨n, hn⟩, i⟩, rfl, rfl, fun h q => ?_⟩
  have h0 : (l.get ⟨n, hn⟩).noiseCov = 0 := by
    unfold Batch.noiseCov
    have : (l.get ⟨n, hn⟩).noise = none := h
    rw [this]
  simp only [jN, of_apply]
  split
  · rw [h0]; rfl
  · rfl

lemma exact_row (hP : P.Regular) {l : List (Batch P)} (hG : (jG l).PosDef) {d : Batch P} (hd : d ∈ l)
    (hn : d.noise = none) (i : Fin d.n) :
    (d.L i).1 (posterior P l).m = d.Y i ∧ ∀ L' : P.Λ, (posterior P l).cov (d.L i) L' = 0 := by
  obtain ⟨p, h1, h2, h3⟩ := mem_index hd i
  have hrow : ∀ q, uvec l (d.L i) q = jG l p q := by
    intro q
    simp only [jG, Matrix.add_apply, of_apply, h3 hn q, add_zero, h1]
    rfl
  have hrow' : ∀ v, uvec l (d.L i) ⬝ᵥ ((jG l)⁻¹ *ᵥ v) = v p := by
    intro v
    have e1 : uvec l (d.L i) ⬝ᵥ ((jG l)⁻¹ *ᵥ v) = (jG l *ᵥ ((jG l)⁻¹ *ᵥ v)) p := by
      simp only [Matrix.mulVec, dotProduct, hrow]
    rw [e1, Matrix.mulVec_mulVec, Matrix.mul_nonsing_inv _ (jG_unit hG), Matrix.one_mulVec]
  constructor
  · show (d.L i).1 (postMeanF l) = _
    have e1 : (d.L i).1 (postMeanF l) = (d.L i).1 P.m + uvec l (d.L i) ⬝ᵥ ((jG l)⁻¹ *ᵥ jR l) := by
      simp only [postMeanF, map_add, map_sum, map_smul, smul_eq_mul, dotProduct, uvec]
      congr 1
      exact Finset.sum_congr rfl fun i _ => mul_comm _ _
    have hb : d.bMean i = 0 := by unfold Batch.bMean; rw [hn]; rfl
    rw [e1, hrow', h2, hb]
    ring
  · intro L'
    rw [posterior_cov', hrow']
    have : uvec l L' p = P.cov L' (d.L i) := by rw [← h1]; rfl
    rw [this, hP.symm, sub_self]

/-! ### Permutations -/

lemma perm_equiv {α : Type*} {l l' : List α} (h : l.Perm l') :
    ∃ σ : Fin l.length ≃ Fin l'.length, ∀ i, l.get i = l'.get (σ i) := by
  induction h with
  | nil => exact ⟨Equiv.refl _, fun i => i.elim0⟩
  | @cons x l l' _ ih =>
    obtain ⟨σ, hσ⟩ := ih
    refine ⟨((finSuccEquiv _).trans (Equiv.optionCongr σ)).trans (finSuccEquiv _).symm, ?_⟩
    intro i
    refine Fin.cases ?_ (fun j => ?_) i
    · simp
    · simpa using hσ j
  | @swap x y l =>
    refine ⟨Equiv.swap (0 : Fin (l.length + 2)) 1, ?_⟩
    intro i
    refine Fin.cases ?_ (fun j => ?_) i
    · simp [List.length_cons]
    · refine Fin.cases ?_ (fun j => ?_) j
      · simp
      · have : Equiv.swap (0 : Fin (l.length + 2)) 1 j.succ.succ = j.succ.succ :=
          Equiv.swap_apply_of_ne_of_ne (Fin.succ_ne_zero _) (by
            intro h
            have := congrArg Fin.val h
            simp at this)
        have h2 : ∀ k : Fin (l.length + 2), k = j.succ.succ →
            (y :: x :: l).get j.succ.succ = (x :: y :: l).get k := by
          rintro k rfl; rfl
        exact h2 _ this
  | trans _ _ ih1 ih2 =>
    obtain ⟨σ, hσ⟩ := ih1
    obtain ⟨τ, hτ⟩ := ih2
    exact ⟨σ.trans τ, fun i => by rw [hσ, hτ]; rfl⟩

/-- A relabelling of the batches relabels the stacked measurements. -/
def idxEquiv {l l' : List (Batch P)} (σ : Fin l.length ≃ Fin l'.length) (h : ∀ i, l.get i = l'.get (σ i)) :
    Idx l ≃ Idx l' where
  toFun i := ⟨σ i.1, Fin.cast (by rw [h]) i.2⟩
  invFun i := ⟨σ.symm i.1, Fin.cast (by rw [h, σ.apply_symm_apply]) i.2⟩
  left_inv i := Idx.ext' (by simp) (by simp)
  right_inv i := Idx.ext' (by simp) (by simp)

lemma jL_idxEquiv {l l' : List (Batch P)} (σ : Fin l.length ≃ Fin l'.length) (h : ∀ i, l.get i = l'.get (σ i))
    (i : Idx l) : jL l' (idxEquiv σ h i) = jL l i :=
  (jL_congr (i := i) (i' := idxEquiv σ h i) (h i.1) rfl).symm

lemma jR_idxEquiv {l l' : List (Batch P)} (σ : Fin l.length ≃ Fin l'.length) (h : ∀ i, l.get i = l'.get (σ i))
    (i : Idx l) : jR l' (idxEquiv σ h i) = jR l i :=
  (jR_congr (i := i) (i' := idxEquiv σ h i) (h i.1) rfl).symm

lemma jG_idxEquiv {l l' : List (Batch P)} (σ : Fin l.length ≃ Fin l'.length) (h : ∀ i, l.get i = l'.get (σ i)) :
    (jG l').submatrix (idxEquiv σ h) (idxEquiv σ h) = jG l := by
  ext i j
  simp only [submatrix_apply, jG, Matrix.add_apply, of_apply]
  rw [jL_idxEquiv, jL_idxEquiv]
  congr 1
  exact (jN_congr (i := i) (j := j) (i' := idxEquiv σ h i) (j' := idxEquiv σ h j) (h i.1) rfl rfl
    (by simp [idxEquiv])).symm

/-- Equality of posteriors from a relabelling of the measurements. -/
lemma post_eq_of_equiv {l l' : List (Batch P)} (e : Idx l ≃ Idx l') (hL : ∀ i, jL l' (e i) = jL l i)
    (hR : ∀ i, jR l' (e i) = jR l i) (hG : (jG l').submatrix e e = jG l) :
    postMean l = postMean l' ∧ postCov l = postCov l' := by
  have h1 : (fun i => P.cross (jL l' i)) ∘ e = fun i => P.cross (jL l i) := by
    funext i; simp [hL]
  have h2 : jR l' ∘ e = jR l := by funext i; simp [hR]
  constructor
  · funext x
    have := gMean_reindex e (fun i => P.cross (jL l' i)) (jG l') (jR l') x
    rw [hG, h1, h2] at this
    exact this
  · funext x y
    have := gCov_reindex e (fun i => P.cross (jL l' i)) (jG l') x y
    rw [hG, h1] at this
    exact this

lemma post_perm {l l' : List (Batch P)} (h : l.Perm l') :
    postMean l = postMean l' ∧ postCov l = postCov l' ∧ ((jG l).PosDef → (jG l').PosDef) := by
  obtain ⟨σ, hσ⟩ := perm_equiv h
  have h1 := post_eq_of_equiv (idxEquiv σ hσ) (jL_idxEquiv σ hσ) (jR_idxEquiv σ hσ) (jG_idxEquiv σ hσ)
  refine ⟨h1.1, h1.2, fun hp => ?_⟩
  rw [← jG_idxEquiv σ hσ] at hp
  have := hp.submatrix (idxEquiv σ hσ).symm.injective
  simpa [Matrix.submatrix_submatrix] using this

/-! ### Functionals and operators -/

lemma bind2_map {α β γ δ : Type} (x : Except Err α) (y : α → Except Err β) (g : α → β → γ) (g' : α → β → δ)
    (f : δ → γ) (h : ∀ a b, g a b = f (g' a b)) :
    (do let a ← x; let b ← y a; pure (g a b) : Except Err γ) =
      Except.map f (do let a ← x; let b ← y a; pure (g' a b)) := by
  cases x with
  | error e => rfl
  | ok a =>
    show (y a >>= _ : Except Err _) = Except.map f (y a >>= _)
    cases y a with
    | error e => rfl
    | ok b => exact congrArg Except.ok (h a b)

/-- Posterior covariance of two functionals, computed from the state. -/
lemma Inv.functlCov {c : Cond P} {l : List (Batch P)} (I : Inv c l) (L L' : P.Λ) :
    P.cov L L' - ∑ j, L.1 (c.kLas j) * (c.gram.toMat⁻¹ * col fun j => L'.1 (c.kLas j)) j () =
      (posterior P l).cov L L' := by
  rw [posterior_cov]
  congr 1
  rw [← sum_reindex I.e (jG l) (fun i' => L.1 (P.cross (jL l i'))) (fun i' => L'.1 (P.cross (jL l i')))]
  refine Finset.sum_congr rfl fun j _ => ?_
  rw [I.gram, col_mulVec, I.kLas]
  rfl

lemma cross_map (hs : ∀ L L' : P.Λ, P.cov L L' = P.cov L' L) {X' : Type} (D : FuncOp P X')
    (L : (P.map hs D).Λ) : (P.map hs D).cross L = D.D (P.cross (D.pull L)) := by
  apply Subtype.ext
  funext x'
  have h : (fun y' => (D.D (P.cross (D.ev y'))).1 x') = (D.D (P.cross (D.ev x'))).1 := by
    funext y'; exact hs (D.ev x') (D.ev y')
  have : ((P.map hs D).cross L).1 x' = L.1 (D.D (P.cross (D.ev x'))) :=
    congrArg L.1 (Subtype.ext h)
  rw [this]
  exact hs (D.pull L) (D.ev x')

lemma cov_map (hs : ∀ L L' : P.Λ, P.cov L L' = P.cov L' L) {X' : Type} (D : FuncOp P X')
    (L L' : (P.map hs D).Λ) : (P.map hs D).cov L L' = P.cov (D.pull L) (D.pull L') := by
  show L.1 ((P.map hs D).cross L') = _
  rw [cross_map]
  rfl

lemma gramOp_pull (hs : ∀ L L' : P.Λ, P.cov L L' = P.cov L' L) {X' : Type} (D : FuncOp P X')
    (b : Batch (P.map hs D)) : b.gramOp = (b.pull hs D).gramOp := by
  unfold Batch.gramOp
  have h : (Matrix.of fun i j => (P.map hs D).cov (b.L i) (b.L j)) =
      (Matrix.of fun i j => P.cov (D.pull (b.L i)) (D.pull (b.L j))) := by
    ext i j; exact cov_map hs D _ _
  obtain ⟨n, L, noise, Y⟩ := b
  cases noise with
  | none => exact congrArg (fun M => Op.dense M _) h
  | some v =>
    exact congrArg (fun M : Matrix (Fin n) (Fin n) ℝ => (Op.dense (M + v.2) { symm := true, pd := true } : Op (.leaf n))) h

lemma predMean_pull (hs : ∀ L L' : P.Λ, P.cov L L' = P.cov L' L) {X' : Type} (D : FuncOp P X')
    (b : Batch (P.map hs D)) : b.predMean = (b.pull hs D).predMean := by
  obtain ⟨n, L, noise, Y⟩ := b
  cases noise <;> rfl

/-! ### Merging all batches into one -/

/-- All observations of a history as one batch with block-diagonal noise. -/
noncomputable def merge (l : List (Batch P)) : Batch P where
  n := Fintype.card (Idx l)
  L i := jL l ((Fintype.equivFin (Idx l)).symm i)
  noise := some (fun i => (l.get ((Fintype.equivFin (Idx l)).symm i).1).bMean ((Fintype.equivFin (Idx l)).symm i).2,
    (jN l).submatrix (Fintype.equivFin (Idx l)).symm (Fintype.equivFin (Idx l)).symm)
  Y i := (l.get ((Fintype.equivFin (Idx l)).symm i).1).Y ((Fintype.equivFin (Idx l)).symm i).2

/-- Index correspondence. -/
noncomputable def mergeEquiv (l : List (Batch P)) : Idx [merge l] ≃ Idx l :=
  (singleEquiv (merge l)).symm.trans (Fintype.equivFin (Idx l)).symm

lemma post_merge (l : List (Batch P)) :
    postMean [merge l] = postMean l ∧ postCov [merge l] = postCov l ∧ ((jG l).PosDef → (jG [merge l]).PosDef) := by
  have hG : (jG l).submatrix (mergeEquiv l) (mergeEquiv l) = jG [merge l] := by
    have h1 := gramOp_single (merge l)
    have h2 : (merge l).gramOp.toMat =
      (jG l).submatrix (Fintype.equivFin (Idx l)).symm (Fintype.equivFin (Idx l)).symm := by
      rw [gramOp_toMat]
      rfl
    rw [h2] at h1
    ext i j
    have h3 := congrFun (congrFun h1 ((singleEquiv (merge l)).symm i)) ((singleEquiv (merge l)).symm j)
    have h4 : ∀ i j, (jG [merge l]).submatrix (singleEquiv (merge l)) (singleEquiv (merge l))
      ((singleEquiv (merge l)).symm i) ((singleEquiv (merge l)).symm j) = jG [merge l] i j := by
      intro i j; simp
    exact h3.trans (h4 i j)
  have hi : ∀ i : Idx [merge l], ∃ r, i = singleEquiv (merge l) r := fun i =>
    ⟨(singleEquiv (merge l)).symm i, by simp⟩
  have h1 := post_eq_of_equiv (mergeEquiv l) (fun i => by
      obtain ⟨r, rfl⟩ := hi i
      exact congrArg (jL l) rfl) (fun i => by
      obtain ⟨r, rfl⟩ := hi i
      exact congrArg (jR l) rfl) hG
  refine ⟨h1.1, h1.2, fun hp => ?_⟩
  rw [← hG]
  exact hp.submatrix (mergeEquiv l).injective

end LinPDE.GP
