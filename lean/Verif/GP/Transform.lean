import Verif.GP.JointLemmas

/-!
# Transformed histories (C82)

Changing every batch of a history (values, noise, units) keeps the stacked index of the measurements.
-/

namespace LinPDE.GP
open Matrix LinPDE.Block

variable {X : Type} {P : Prior X} {Q : Type}

/-- The stacked index of a list of `Q`s. -/
abbrev QIdx (n : Q → ℕ) (l : List Q) : Type := (p : Fin l.length) × Fin (n (l.get p))

/-- Stacked index of the transformed batches. -/
def mapEquiv (T : Q → Batch P) (n : Q → ℕ) (hn : ∀ q, (T q).n = n q) (l : List Q) : QIdx n l ≃ Idx (l.map T) where
  toFun i := ⟨Fin.cast (by simp) i.1, Fin.cast (by simp [hn]) i.2⟩
  invFun i := ⟨Fin.cast (by simp) i.1, Fin.cast (by simp [hn]) i.2⟩
  left_inv i := rfl
  right_inv i := rfl

variable (T : Q → Batch P) (n : Q → ℕ) (hn : ∀ q, (T q).n = n q) (l : List Q)

lemma jL_map (i : QIdx n l) : jL (l.map T) (mapEquiv T n hn l i) = (T (l.get i.1)).L (Fin.cast (hn _).symm i.2) :=
  (batch_congr (b := (l.map T).get (mapEquiv T n hn l i).1) (b' := T (l.get i.1))
    (r := (mapEquiv T n hn l i).2) (r' := Fin.cast (hn _).symm i.2) (by simp [mapEquiv]) rfl).1

lemma jR_map (i : QIdx n l) : jR (l.map T) (mapEquiv T n hn l i) = (T (l.get i.1)).Y (Fin.cast (hn _).symm i.2) -
    ((T (l.get i.1)).L (Fin.cast (hn _).symm i.2)).1 P.m - (T (l.get i.1)).bMean (Fin.cast (hn _).symm i.2) := by
  obtain ⟨h1, h2, h3⟩ := batch_congr (b := (l.map T).get (mapEquiv T n hn l i).1) (b' := T (l.get i.1))
    (r := (mapEquiv T n hn l i).2) (r' := Fin.cast (hn _).symm i.2) (by simp [mapEquiv]) rfl
  simp only [jR, h1, h2, h3]

lemma jN_map (i j : QIdx n l) : jN (l.map T) (mapEquiv T n hn l i) (mapEquiv T n hn l j) =
    if h : i.1 = j.1 then (T (l.get i.1)).noiseCov (Fin.cast (hn _).symm i.2) (Fin.cast (by rw [h, hn]) j.2) else 0 := by
  simp only [jN, of_apply]
  by_cases hc : i.1 = j.1
  · rw [dif_pos hc, dif_pos (by simp [mapEquiv, hc])]
    exact noise_congr (by simp [mapEquiv]) rfl rfl
  · rw [dif_neg hc, dif_neg (by simpa [mapEquiv] using hc)]

lemma uvec_map (L : P.Λ) (i : QIdx n l) : uvec (l.map T) L (mapEquiv T n hn l i) =
    P.cov L ((T (l.get i.1)).L (Fin.cast (hn _).symm i.2)) := by
  rw [uvec, jL_map]
  rfl

/-- The Gram matrix on the index of the list. -/
def qG : Matrix (QIdx n l) (QIdx n l) ℝ := (jG (l.map T)).submatrix (mapEquiv T n hn l) (mapEquiv T n hn l)

lemma qG_posDef (h : (qG T n hn l).PosDef) : (jG (l.map T)).PosDef := by
  have h4 := h.submatrix (mapEquiv T n hn l).symm.injective
  rwa [qG, Matrix.submatrix_submatrix, Equiv.self_comp_symm, submatrix_id_id] at h4

lemma qG_of_posDef (h : (jG (l.map T)).PosDef) : (qG T n hn l).PosDef := h.submatrix (mapEquiv T n hn l).injective

lemma qG_apply (i j : QIdx n l) : qG T n hn l i j =
    P.cov ((T (l.get i.1)).L (Fin.cast (hn _).symm i.2)) ((T (l.get j.1)).L (Fin.cast (hn _).symm j.2)) +
    if h : i.1 = j.1 then (T (l.get i.1)).noiseCov (Fin.cast (hn _).symm i.2) (Fin.cast (by rw [h, hn]) j.2) else 0 := by
  simp only [qG, submatrix_apply, jG, Matrix.add_apply, of_apply, jL_map, jN_map]

lemma map_bilin (L : P.Λ) (v : Idx (l.map T) → ℝ) : uvec (l.map T) L ⬝ᵥ ((jG (l.map T))⁻¹ *ᵥ v) =
    (fun i : QIdx n l => P.cov L ((T (l.get i.1)).L (Fin.cast (hn _).symm i.2))) ⬝ᵥ
      ((qG T n hn l)⁻¹ *ᵥ fun i => v (mapEquiv T n hn l i)) := by
  refine (sum_reindex (mapEquiv T n hn l) (jG (l.map T)) (uvec (l.map T) L) v).symm.trans ?_
  exact Finset.sum_congr rfl fun i _ => by rw [uvec_map]; rfl

lemma map_mean (L : P.Λ) : L.1 (posterior P (l.map T)).m = L.1 P.m +
    (fun i : QIdx n l => P.cov L ((T (l.get i.1)).L (Fin.cast (hn _).symm i.2))) ⬝ᵥ
      ((qG T n hn l)⁻¹ *ᵥ fun i => (T (l.get i.1)).Y (Fin.cast (hn _).symm i.2) -
        ((T (l.get i.1)).L (Fin.cast (hn _).symm i.2)).1 P.m - (T (l.get i.1)).bMean (Fin.cast (hn _).symm i.2)) := by
  show L.1 (postMeanF (l.map T)) = _
  rw [apply_postMeanF, map_bilin T n hn l]
  simp only [jR_map]

lemma map_cov (L L' : P.Λ) : (posterior P (l.map T)).cov L L' = P.cov L L' -
    (fun i : QIdx n l => P.cov L ((T (l.get i.1)).L (Fin.cast (hn _).symm i.2))) ⬝ᵥ
      ((qG T n hn l)⁻¹ *ᵥ fun i => P.cov L' ((T (l.get i.1)).L (Fin.cast (hn _).symm i.2))) := by
  rw [posterior_cov', map_bilin T n hn l]
  simp only [uvec_map]

/-! ## Units -/

/-- The process `c f + h`. -/
@[reducible] def Prior.affine (P : Prior X) (c : ℝ) (h : P.F) : Prior X where
  F := P.F
  m := c • P.m + h
  k x y := c ^ 2 * P.k x y
  sec_mem x := (c ^ 2 • (⟨P.k x, P.sec_mem x⟩ : P.F)).2
  Λ := P.Λ
  cross_mem L hL := by
    have : (fun x => L ⟨fun y => c ^ 2 * P.k x y, (c ^ 2 • (⟨P.k x, P.sec_mem x⟩ : P.F)).2⟩) = (c ^ 2 • P.cross ⟨L, hL⟩ : P.F).1 := by
      funext x
      exact L.map_smul (c ^ 2) ⟨P.k x, P.sec_mem x⟩
    rw [this]
    exact (c ^ 2 • P.cross ⟨L, hL⟩ : P.F).2

/-- Measurements of `c f + h`, with values, noise mean and noise covariance in the new units. -/
def Batch.affine (c : ℝ) (h : P.F) (b : Batch P) : Batch (P.affine c h) :=
  ⟨b.n, b.L, b.noise.map fun z => (fun i => c * z.1 i, c ^ 2 • z.2), fun i => c * b.Y i + (b.L i).1 h⟩

lemma affine_cov (c : ℝ) (h : P.F) (L L' : P.Λ) : (P.affine c h).cov L L' = c ^ 2 * P.cov L L' := by
  have : (P.affine c h).cross L' = (c ^ 2 • P.cross L' : P.F) := by
    apply Subtype.ext
    funext x
    exact L'.1.map_smul (c ^ 2) ⟨P.k x, P.sec_mem x⟩
  show L.1 ((P.affine c h).cross L') = _
  rw [this]
  exact L.1.map_smul (c ^ 2) (P.cross L')

lemma affine_regular (hP : P.Regular) (c : ℝ) (h : P.F) : (P.affine c h).Regular where
  ev_mem := hP.ev_mem
  symm L L' := by rw [affine_cov, affine_cov, hP.symm]
  nonneg L := by rw [affine_cov]; exact mul_nonneg (sq_nonneg c) (hP.nonneg L)

lemma affine_noiseCov (c : ℝ) (h : P.F) (b : Batch P) : (b.affine c h).noiseCov = c ^ 2 • b.noiseCov := by
  obtain ⟨n, L, noise, Y⟩ := b
  cases noise with
  | none => exact (smul_zero _).symm
  | some z => rfl

lemma affine_bMean (c : ℝ) (h : P.F) (b : Batch P) (i : Fin b.n) : (b.affine c h).bMean i = c * b.bMean i := by
  obtain ⟨n, L, noise, Y⟩ := b
  cases noise with
  | none => exact (mul_zero _).symm
  | some z => rfl

lemma affine_gram (c : ℝ) (h : P.F) (l : List (Batch P)) :
    qG (Batch.affine c h) (fun b => b.n) (fun _ => rfl) l = c ^ 2 • jG l := by
  ext i j
  refine (qG_apply (Batch.affine c h) (fun b => b.n) (fun _ => rfl) l i j).trans ?_
  rw [Matrix.smul_apply, jG, Matrix.add_apply, of_apply, smul_eq_mul, mul_add]
  congr 1
  · exact affine_cov c h _ _
  · simp only [jN, of_apply]
    by_cases hc : i.1 = j.1
    · rw [dif_pos hc, dif_pos hc, affine_noiseCov]
      rfl
    · rw [dif_neg hc, dif_neg hc, mul_zero]

lemma affine_posDef {c : ℝ} (hc : c ≠ 0) (h : P.F) {l : List (Batch P)} (hG : (jG l).PosDef) :
    (jG (l.map (Batch.affine c h))).PosDef := by
  refine qG_posDef _ (fun b => b.n) (fun _ => rfl) l ?_
  rw [affine_gram]
  exact hG.smul (by positivity)

lemma smul_inv_mulVec {ι : Type} [Fintype ι] [DecidableEq ι] {c : ℝ} (hc : c ≠ 0) {G : Matrix ι ι ℝ} (hG : IsUnit G.det) (v : ι → ℝ) :
    (c • G)⁻¹ *ᵥ v = c⁻¹ • (G⁻¹ *ᵥ v) := by
  have : (c • G)⁻¹ = c⁻¹ • G⁻¹ := by
    apply Matrix.inv_eq_right_inv
    rw [Matrix.smul_mul, Matrix.mul_smul, smul_smul, mul_inv_cancel₀ hc, one_smul, Matrix.mul_nonsing_inv _ hG]
  rw [this, Matrix.smul_mulVec]

lemma affine_mean {c : ℝ} (hc : c ≠ 0) (h : P.F) {l : List (Batch P)} (hG : (jG l).PosDef) (L : P.Λ) :
    L.1 (posterior (P.affine c h) (l.map (Batch.affine c h))).m = c * L.1 (posterior P l).m + L.1 h := by
  have h0 := map_mean (P := P.affine c h) (Batch.affine c h) (fun b => b.n) (fun _ => rfl) l L
  refine h0.trans ?_
  rw [affine_gram, smul_inv_mulVec (pow_ne_zero 2 hc) (jG_unit hG)]
  have e1 : (fun i : Idx l => (P.affine c h).cov L ((Batch.affine c h (l.get i.1)).L (Fin.cast rfl i.2))) = c ^ 2 • uvec l L :=
    funext fun i => affine_cov c h _ _
  have e2 : (fun i : Idx l => (Batch.affine c h (l.get i.1)).Y (Fin.cast rfl i.2) -
        ((Batch.affine c h (l.get i.1)).L (Fin.cast rfl i.2)).1 (P.affine c h).m -
        (Batch.affine c h (l.get i.1)).bMean (Fin.cast rfl i.2)) = c • jR l := by
    funext i
    have := affine_bMean c h (l.get i.1) i.2
    show c * (l.get i.1).Y i.2 + ((l.get i.1).L i.2).1 h - ((l.get i.1).L i.2).1 (c • P.m + h) - (Batch.affine c h (l.get i.1)).bMean i.2 = _
    rw [this, map_add, map_smul, Pi.smul_apply, jR, smul_eq_mul, smul_eq_mul]
    ring
  refine (congrArg₂ (fun u v : Idx l → ℝ => L.1 (c • P.m + h) + u ⬝ᵥ ((c ^ 2)⁻¹ • ((jG l)⁻¹ *ᵥ v))) e1 e2).trans ?_
  have h3 : L.1 (posterior P l).m = L.1 P.m + uvec l L ⬝ᵥ ((jG l)⁻¹ *ᵥ jR l) := apply_postMeanF l L
  rw [h3, Matrix.mulVec_smul, smul_dotProduct, dotProduct_smul, dotProduct_smul, map_add, map_smul]
  simp only [smul_eq_mul]
  field_simp
  ring

lemma affine_post_cov {c : ℝ} (hc : c ≠ 0) (h : P.F) {l : List (Batch P)} (hG : (jG l).PosDef) (L L' : P.Λ) :
    (posterior (P.affine c h) (l.map (Batch.affine c h))).cov L L' = c ^ 2 * (posterior P l).cov L L' := by
  have h0 := map_cov (P := P.affine c h) (Batch.affine c h) (fun b => b.n) (fun _ => rfl) l L L'
  refine h0.trans ?_
  rw [affine_gram, smul_inv_mulVec (pow_ne_zero 2 hc) (jG_unit hG)]
  have e1 : ∀ L : P.Λ, (fun i : Idx l => (P.affine c h).cov L ((Batch.affine c h (l.get i.1)).L (Fin.cast rfl i.2))) = c ^ 2 • uvec l L :=
    fun L => funext fun i => affine_cov c h _ _
  refine (congrArg₂ (fun u v : Idx l → ℝ => (P.affine c h).cov L L' - u ⬝ᵥ ((c ^ 2)⁻¹ • ((jG l)⁻¹ *ᵥ v))) (e1 L) (e1 L')).trans ?_
  rw [affine_cov, posterior_cov', Matrix.mulVec_smul, smul_dotProduct, dotProduct_smul, dotProduct_smul]
  simp only [smul_eq_mul]
  field_simp

/-! ## Symmetries -/

/-- A symmetry of a process: a bijection of the points that leaves mean, covariance function, admissible functions and functionals
unchanged. -/
structure Sym (P : Prior X) where
  σ : X ≃ X
  mem : ∀ f : P.F, (fun x => f.1 (σ x)) ∈ P.F
  mean : ∀ x, P.m.1 (σ x) = P.m.1 x
  cov : ∀ x y, P.k (σ x) (σ y) = P.k x y
  functl : ∀ L : P.Λ, (L.1 ∘ₗ (⟨⟨fun f => ⟨fun x => f.1 (σ x), mem f⟩, fun _ _ => rfl⟩, fun _ _ => rfl⟩ : P.F →ₗ[ℝ] P.F)) ∈ P.Λ

/-- `f ↦ f ∘ σ`. -/
def Sym.act (S : Sym P) : P.F →ₗ[ℝ] P.F := ⟨⟨fun f => ⟨fun x => f.1 (S.σ x), S.mem f⟩, fun _ _ => rfl⟩, fun _ _ => rfl⟩

/-- The functional `f ↦ L (f ∘ σ)`. -/
def Sym.onΛ (S : Sym P) (L : P.Λ) : P.Λ := ⟨L.1 ∘ₗ S.act, S.functl L⟩

/-- The measurements of the transformed functionals. -/
def Sym.onBatch (S : Sym P) (b : Batch P) : Batch P := ⟨b.n, fun i => S.onΛ (b.L i), b.noise, b.Y⟩

lemma Sym.act_cross (S : Sym P) (L : P.Λ) : S.act (P.cross (S.onΛ L)) = P.cross L := by
  apply Subtype.ext
  funext x
  show L.1 (S.act ⟨P.k (S.σ x), P.sec_mem _⟩) = L.1 ⟨P.k x, P.sec_mem x⟩
  congr 1
  apply Subtype.ext
  funext y
  exact S.cov x y

lemma Sym.cov_onΛ (S : Sym P) (L L' : P.Λ) : P.cov (S.onΛ L) (S.onΛ L') = P.cov L L' := by
  show L.1 (S.act (P.cross (S.onΛ L'))) = L.1 (P.cross L')
  rw [S.act_cross]

lemma Sym.mean_onΛ (S : Sym P) (L : P.Λ) : (S.onΛ L).1 P.m = L.1 P.m := by
  show L.1 (S.act P.m) = _
  congr 1
  apply Subtype.ext
  funext x
  exact S.mean x

lemma Sym.noiseCov (S : Sym P) (b : Batch P) : (S.onBatch b).noiseCov = b.noiseCov := by
  obtain ⟨n, L, noise, Y⟩ := b
  cases noise <;> rfl

lemma Sym.gram (S : Sym P) (l : List (Batch P)) : qG S.onBatch (fun b => b.n) (fun _ => rfl) l = jG l := by
  ext i j
  refine (qG_apply S.onBatch (fun b => b.n) (fun _ => rfl) l i j).trans ?_
  rw [jG, Matrix.add_apply, of_apply]
  congr 1
  · exact S.cov_onΛ _ _
  · simp only [jN, of_apply]
    by_cases hc : i.1 = j.1
    · rw [dif_pos hc, dif_pos hc, S.noiseCov]
      rfl
    · rw [dif_neg hc, dif_neg hc]

lemma Sym.bMean (S : Sym P) (b : Batch P) (i : Fin b.n) : (S.onBatch b).bMean i = b.bMean i := by
  obtain ⟨n, L, noise, Y⟩ := b
  cases noise <;> rfl

lemma Sym.post_mean (S : Sym P) (l : List (Batch P)) (L : P.Λ) :
    (S.onΛ L).1 (posterior P (l.map S.onBatch)).m = L.1 (posterior P l).m := by
  refine (map_mean S.onBatch (fun b => b.n) (fun _ => rfl) l (S.onΛ L)).trans ?_
  rw [S.gram, S.mean_onΛ]
  have e1 : (fun i : Idx l => P.cov (S.onΛ L) ((S.onBatch (l.get i.1)).L (Fin.cast rfl i.2))) = uvec l L :=
    funext fun i => S.cov_onΛ L _
  have e2 : (fun i : Idx l => (S.onBatch (l.get i.1)).Y (Fin.cast rfl i.2) -
        ((S.onBatch (l.get i.1)).L (Fin.cast rfl i.2)).1 P.m - (S.onBatch (l.get i.1)).bMean (Fin.cast rfl i.2)) = jR l := by
    funext i
    have : (S.onΛ ((l.get i.1).L i.2)).1 P.m = _ := S.mean_onΛ _
    show (l.get i.1).Y i.2 - (S.onΛ ((l.get i.1).L i.2)).1 P.m - (S.onBatch (l.get i.1)).bMean i.2 = _
    rw [this, S.bMean]
    rfl
  refine (congrArg₂ (fun u v : Idx l → ℝ => L.1 P.m + u ⬝ᵥ ((jG l)⁻¹ *ᵥ v)) e1 e2).trans ?_
  exact (apply_postMeanF l L).symm

lemma Sym.post_cov (S : Sym P) (l : List (Batch P)) (L L' : P.Λ) :
    (posterior P (l.map S.onBatch)).cov (S.onΛ L) (S.onΛ L') = (posterior P l).cov L L' := by
  refine (map_cov S.onBatch (fun b => b.n) (fun _ => rfl) l (S.onΛ L) (S.onΛ L')).trans ?_
  rw [S.gram, S.cov_onΛ, posterior_cov']
  have e1 : ∀ L : P.Λ, (fun i : Idx l => P.cov (S.onΛ L) ((S.onBatch (l.get i.1)).L (Fin.cast rfl i.2))) = uvec l L :=
    fun L => funext fun i => S.cov_onΛ L _
  exact congrArg₂ (fun u v : Idx l → ℝ => P.cov L L' - u ⬝ᵥ ((jG l)⁻¹ *ᵥ v)) (e1 L) (e1 L')

end LinPDE.GP
