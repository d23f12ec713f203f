import Verif.GP.Spec
import Verif.Block.Props2x2

/-! Helper lemmas for Gaussian-process conditioning. -/

namespace LinPDE.GP
open Matrix LinPDE.Block

variable {X : Type} {P : Prior X}

/-! ### Reindexing -/

/-- Posterior mean for an arbitrary finite index set. -/
noncomputable def gMean (P : Prior X) {ι : Type} [Fintype ι] [DecidableEq ι] (c : ι → P.F) (G : Matrix ι ι ℝ)
    (r : ι → ℝ) (x : X) : ℝ := P.m.1 x + ∑ i, (c i).1 x * (G⁻¹ *ᵥ r) i

/-- Posterior covariance for an arbitrary finite index set. -/
noncomputable def gCov (P : Prior X) {ι : Type} [Fintype ι] [DecidableEq ι] (c : ι → P.F) (G : Matrix ι ι ℝ)
    (x y : X) : ℝ := P.k x y - ∑ i, (c i).1 x * (G⁻¹ *ᵥ fun j => (c j).1 y) i

lemma sum_reindex {ι κ : Type} [Fintype ι] [DecidableEq ι] [Fintype κ] [DecidableEq κ] (e : κ ≃ ι)
    (G : Matrix ι ι ℝ) (u r : ι → ℝ) :
    ∑ i, (u (e i)) * ((G.submatrix e e)⁻¹ *ᵥ (r ∘ e)) i = ∑ i, u i * (G⁻¹ *ᵥ r) i := by
  rw [Matrix.inv_submatrix_equiv]
  have : ∀ i, ((G⁻¹.submatrix e e) *ᵥ (r ∘ e)) i = (G⁻¹ *ᵥ r) (e i) := by
    intro i
    rw [Matrix.submatrix_mulVec_equiv]
    simp [Function.comp_assoc]
  simp only [this]
  exact e.sum_comp fun i => u i * (G⁻¹ *ᵥ r) i

lemma gMean_reindex {ι κ : Type} [Fintype ι] [DecidableEq ι] [Fintype κ] [DecidableEq κ] (e : κ ≃ ι)
    (c : ι → P.F) (G : Matrix ι ι ℝ) (r : ι → ℝ) (x : X) :
    gMean P (c ∘ e) (G.submatrix e e) (r ∘ e) x = gMean P c G r x := by
  unfold gMean
  rw [← sum_reindex e G (fun i => (c i).1 x) r]
  rfl

lemma gCov_reindex {ι κ : Type} [Fintype ι] [DecidableEq ι] [Fintype κ] [DecidableEq κ] (e : κ ≃ ι)
    (c : ι → P.F) (G : Matrix ι ι ℝ) (x y : X) :
    gCov P (c ∘ e) (G.submatrix e e) x y = gCov P c G x y := by
  unfold gCov
  rw [← sum_reindex e G (fun i => (c i).1 x) fun i => (c i).1 y]
  rfl

/-! ### Stacked indices -/

lemma Idx.ext' {l : List (Batch P)} {i j : Idx l} (h1 : i.1.val = j.1.val) (h2 : i.2.val = j.2.val) : i = j := by
  obtain ⟨p, r⟩ := i
  obtain ⟨q, s⟩ := j
  have : p = q := Fin.ext h1
  subst this
  have : r = s := Fin.ext h2
  subst this
  rfl

lemma batch_congr {b b' : Batch P} (h : b = b') {r : Fin b.n} {r' : Fin b'.n} (hr : r.val = r'.val) :
    b.L r = b'.L r' ∧ b.Y r = b'.Y r' ∧ b.bMean r = b'.bMean r' := by
  subst h
  have : r = r' := Fin.ext hr
  subst this
  exact ⟨rfl, rfl, rfl⟩

lemma noise_congr {b b' : Batch P} (h : b = b') {r s : Fin b.n} {r' s' : Fin b'.n} (hr : r.val = r'.val)
    (hs : s.val = s'.val) : b.noiseCov r s = b'.noiseCov r' s' := by
  subst h
  have : r = r' := Fin.ext hr
  subst this
  have : s = s' := Fin.ext hs
  subst this
  rfl

lemma jL_congr {l l' : List (Batch P)} {i : Idx l} {i' : Idx l'} (h : l.get i.1 = l'.get i'.1)
    (hr : i.2.val = i'.2.val) : jL l i = jL l' i' := (batch_congr h hr).1

lemma jR_congr {l l' : List (Batch P)} {i : Idx l} {i' : Idx l'} (h : l.get i.1 = l'.get i'.1)
    (hr : i.2.val = i'.2.val) : jR l i = jR l' i' := by
  obtain ⟨h1, h2, h3⟩ := batch_congr h hr
  simp only [jR, h1, h2, h3]

lemma jN_congr {l l' : List (Batch P)} {i j : Idx l} {i' j' : Idx l'} (h : l.get i.1 = l'.get i'.1)
    (hr : i.2.val = i'.2.val) (hs : j.2.val = j'.2.val)
    (hij : i.1 = j.1 ↔ i'.1 = j'.1) : jN l i j = jN l' i' j' := by
  simp only [jN, of_apply]
  by_cases hc : i.1 = j.1
  · rw [dif_pos hc, dif_pos (hij.mp hc)]
    exact noise_congr h hr (by simpa using hs)
  · rw [dif_neg hc, dif_neg (fun h => hc (hij.mpr h))]

lemma get_append_left (l : List (Batch P)) (b : Batch P) (p : Fin l.length) :
    (l ++ [b]).get ⟨p.1, Nat.lt_of_lt_of_le p.2 (by simp)⟩ = l.get p := by
  simp [List.getElem_append_left p.2]

lemma get_append_right (l : List (Batch P)) (b : Batch P) :
    (l ++ [b]).get ⟨l.length, by simp⟩ = b := by simp

/-- Old measurements inside the extended history. -/
def inlI (l : List (Batch P)) (b : Batch P) (i : Idx l) : Idx (l ++ [b]) :=
  ⟨⟨i.1.1, Nat.lt_of_lt_of_le i.1.2 (by simp)⟩, Fin.cast (by rw [get_append_left]) i.2⟩

/-- New measurements inside the extended history. -/
def inrI (l : List (Batch P)) (b : Batch P) (r : Fin b.n) : Idx (l ++ [b]) :=
  ⟨⟨l.length, by simp⟩, Fin.cast (by rw [get_append_right]) r⟩

lemma sumI_bijective (l : List (Batch P)) (b : Batch P) :
    Function.Bijective (Sum.elim (inlI l b) (inrI l b)) := by
  constructor
  · rintro (i | r) (j | s) h
    · have h1 : i.1.val = j.1.val := congrArg (fun z : Idx (l ++ [b]) => z.1.val) h
      have h2 : i.2.val = j.2.val := congrArg (fun z : Idx (l ++ [b]) => z.2.val) h
      rw [Idx.ext' h1 h2]
    · have h1 : i.1.val = l.length := congrArg (fun z : Idx (l ++ [b]) => z.1.val) h
      exact absurd h1 (by have := i.1.2; omega)
    · have h1 : l.length = j.1.val := congrArg (fun z : Idx (l ++ [b]) => z.1.val) h
      exact absurd h1 (by have := j.1.2; omega)
    · have h2 : r.val = s.val := congrArg (fun z : Idx (l ++ [b]) => z.2.val) h
      rw [Fin.ext h2]
  · rintro ⟨⟨p, hp⟩, r⟩
    by_cases hpl : p < l.length
    · refine ⟨Sum.inl ⟨⟨p, hpl⟩, Fin.cast (by rw [← get_append_left l b ⟨p, hpl⟩]) r⟩, ?_⟩
      exact Idx.ext' rfl rfl
    · have hpe : p = l.length := by simp at hp; omega
      subst hpe
      refine ⟨Sum.inr (Fin.cast (by rw [get_append_right]) r), ?_⟩
      exact Idx.ext' rfl rfl

/-- Stacked index of an extended history. -/
noncomputable def snocEquiv (l : List (Batch P)) (b : Batch P) : Idx l ⊕ Fin b.n ≃ Idx (l ++ [b]) :=
  Equiv.ofBijective _ (sumI_bijective l b)

lemma snocEquiv_inl (l : List (Batch P)) (b : Batch P) (i : Idx l) :
    snocEquiv l b (Sum.inl i) = inlI l b i := rfl
lemma snocEquiv_inr (l : List (Batch P)) (b : Batch P) (r : Fin b.n) :
    snocEquiv l b (Sum.inr r) = inrI l b r := rfl

lemma jL_inl (l : List (Batch P)) (b : Batch P) (i : Idx l) : jL (l ++ [b]) (inlI l b i) = jL l i :=
  jL_congr (get_append_left l b i.1) rfl
lemma jR_inl (l : List (Batch P)) (b : Batch P) (i : Idx l) : jR (l ++ [b]) (inlI l b i) = jR l i :=
  jR_congr (get_append_left l b i.1) rfl
lemma jL_inr (l : List (Batch P)) (b : Batch P) (r : Fin b.n) : jL (l ++ [b]) (inrI l b r) = b.L r :=
  (batch_congr (get_append_right l b) rfl).1
lemma jR_inr (l : List (Batch P)) (b : Batch P) (r : Fin b.n) :
    jR (l ++ [b]) (inrI l b r) = b.Y r - (b.L r).1 P.m - b.bMean r := by
  obtain ⟨h1, h2, h3⟩ := batch_congr (get_append_right l b)
    (r := (inrI l b r).2) (r' := r) rfl
  have : jR (l ++ [b]) (inrI l b r) = ((l ++ [b]).get (inrI l b r).1).Y (inrI l b r).2 -
    (((l ++ [b]).get (inrI l b r).1).L (inrI l b r).2).1 P.m -
    ((l ++ [b]).get (inrI l b r).1).bMean (inrI l b r).2 := rfl
  rw [this]
  rw [← h1, ← h2, ← h3]
  rfl

lemma jN_inl_inl (l : List (Batch P)) (b : Batch P) (i j : Idx l) :
    jN (l ++ [b]) (inlI l b i) (inlI l b j) = jN l i j := by
  refine jN_congr (get_append_left l b i.1) rfl rfl ?_
  simp only [inlI, Fin.ext_iff]
lemma jN_inl_inr (l : List (Batch P)) (b : Batch P) (i : Idx l) (r : Fin b.n) :
    jN (l ++ [b]) (inlI l b i) (inrI l b r) = 0 := by
  simp only [jN, of_apply]
  rw [dif_neg]
  simp only [inlI, inrI, Fin.ext_iff]
  have := i.1.2
  omega
lemma jN_inr_inl (l : List (Batch P)) (b : Batch P) (i : Idx l) (r : Fin b.n) :
    jN (l ++ [b]) (inrI l b r) (inlI l b i) = 0 := by
  simp only [jN, of_apply]
  rw [dif_neg]
  simp only [inlI, inrI, Fin.ext_iff]
  have := i.1.2
  omega
lemma jN_inr_inr (l : List (Batch P)) (b : Batch P) (r s : Fin b.n) :
    jN (l ++ [b]) (inrI l b r) (inrI l b s) = b.noiseCov r s := by
  simp only [jN, of_apply]
  have h : (inrI l b r).1 = (inrI l b s).1 := rfl
  simp only [h, dite_true]
  exact noise_congr (get_append_right l b) rfl rfl

/-- The joint Gram matrix of an extended history in block form. -/
lemma jG_snoc (hP : P.Regular) (l : List (Batch P)) (b : Batch P) :
    (jG (l ++ [b])).submatrix (snocEquiv l b) (snocEquiv l b) =
      Matrix.fromBlocks (jG l) (Matrix.of fun i r => P.cov (b.L r) (jL l i))
        (Matrix.of fun r i => P.cov (b.L r) (jL l i))
        ((Matrix.of fun r s => P.cov (b.L r) (b.L s)) + b.noiseCov) := by
  ext i j
  rcases i with i | r <;> rcases j with j | s <;>
    simp only [submatrix_apply, snocEquiv_inl, snocEquiv_inr, fromBlocks_apply₁₁, fromBlocks_apply₁₂,
      fromBlocks_apply₂₁, fromBlocks_apply₂₂, jG, Matrix.add_apply, of_apply, jL_inl, jL_inr, jN_inl_inl,
      jN_inl_inr, jN_inr_inl, jN_inr_inr, add_zero]
  rw [hP.symm]

lemma gramOp_toMat (b : Batch P) :
    b.gramOp.toMat = (Matrix.of fun r s => P.cov (b.L r) (b.L s)) + b.noiseCov := by
  unfold Batch.gramOp Batch.noiseCov
  cases b.noise with
  | none => simp only [add_zero]; rfl
  | some v => rfl

lemma gramOp_flags (b : Batch P) : b.gramOp.flags = { symm := true, pd := true } := by
  unfold Batch.gramOp
  cases b.noise <;> rfl

lemma predMean_eq (b : Batch P) (i : Fin b.n) : b.Y i - b.predMean i = b.Y i - (b.L i).1 P.m - b.bMean i := by
  unfold Batch.predMean Batch.bMean
  cases b.noise with
  | none => simp
  | some v => simp only; ring

/-! ### The invariant -/

/-- State invariant: the conditional process represents the stacked observations `l`. -/
structure Inv (c : Cond P) (l : List (Batch P)) where
  e : c.s.Idx ≃ Idx l
  kLas : c.kLas = fun i => P.cross (jL l (e i))
  Ls : c.Ls = fun i => jL l (e i)
  r : ∀ i, c.Ys i - (c.Ls i).1 P.m - c.bs i = jR l (e i)
  gram : c.gram.toMat = (jG l).submatrix e e
  spd : c.gram.Spd
  flags : c.gram.flags.symm = true ∧ c.gram.flags.pd = true
  w : c.gram.toMat * c.w = col fun i => jR l (e i)

/-- Index of a single batch. -/
def singleEquiv (b : Batch P) : Fin b.n ≃ Idx [b] where
  toFun r := ⟨⟨0, by simp⟩, r⟩
  invFun i := Fin.cast (by
    have : i.1 = ⟨0, by simp⟩ := Fin.ext (by have := i.1.2; simp at this; simp)
    rw [this]; rfl) i.2
  left_inv r := rfl
  right_inv i := Idx.ext' (by have := i.1.2; simp) rfl

lemma gramOp_single (b : Batch P) :
    b.gramOp.toMat = (jG [b]).submatrix (singleEquiv b) (singleEquiv b) := by
  rw [gramOp_toMat]
  ext r s
  simp only [jG, Matrix.add_apply, of_apply, submatrix_apply]
  congr 1

lemma gramOp_spd (b : Batch P) (h : b.gramOp.toMat.PosDef) : b.gramOp.Spd := by
  revert h
  unfold Batch.gramOp
  cases b.noise with
  | none => exact fun h => ⟨h, by simp, by simp⟩
  | some v => exact fun h => ⟨h, by simp, by simp⟩

lemma fromObservations_inv (e : Env) (he : e.CholOK) (b : Batch P) (hG : (jG [b]).PosDef) :
    ∃ c, Cond.fromObservations e b = .ok c ∧ Nonempty (Inv c [b]) := by
  have hpd : b.gramOp.toMat.PosDef := by
    rw [gramOp_single]; exact hG.submatrix (singleEquiv b).injective
  have hspd := gramOp_spd b hpd
  obtain ⟨w, h1, h2⟩ := solve_spec e he b.gramOp hspd.valid (col fun i => b.Y i - b.predMean i)
  refine ⟨_, by unfold Cond.fromObservations; rw [h1]; rfl, ⟨?_⟩⟩
  exact
    { e := singleEquiv b
      kLas := rfl
      Ls := rfl
      r := fun i => rfl
      gram := gramOp_single b
      spd := hspd
      flags := by simp only; rw [gramOp_flags]; exact ⟨rfl, rfl⟩
      w := by
        simp only
        rw [h2]
        funext i j
        exact predMean_eq b i }

lemma condition_inv (e : Env) (he : e.CholOK) (hP : P.Regular) (c : Cond P) (l : List (Batch P)) (I : Inv c l)
    (b : Batch P) (hG : (jG (l ++ [b])).PosDef) :
    ∃ c', c.condition e b = .ok c' ∧ Nonempty (Inv c' (l ++ [b])) := by
  set lower : Matrix (Fin b.n) c.s.Idx ℝ := Matrix.of fun i j => (b.L i).1 (c.kLas j) with hlower
  have hmk : mk2x2 c.gram (some lowerᵀ) none b.gramOp true =
      .ok (.block .spd c.gram lowerᵀ lowerᵀᵀ b.gramOp) := by
    simp [mk2x2, I.flags.1, I.flags.2, gramOp_flags]
  set e' : (Shape.node c.s (.leaf b.n)).Idx ≃ Idx (l ++ [b]) :=
    (Equiv.sumCongr I.e (Equiv.refl (Fin b.n))).trans (snocEquiv l b) with he'
  have hlow : ∀ r i, lower r i = P.cov (b.L r) (jL l (I.e i)) := by
    intro r i
    simp only [hlower, of_apply, I.kLas]
    rfl
  have hmat : nb c.gram.toMat lowerᵀ lowerᵀᵀ b.gramOp.toMat = (jG (l ++ [b])).submatrix e' e' := by
    have h0 : (jG (l ++ [b])).submatrix e' e' =
        ((jG (l ++ [b])).submatrix (snocEquiv l b) (snocEquiv l b)).submatrix
          (Equiv.sumCongr I.e (Equiv.refl (Fin b.n))) (Equiv.sumCongr I.e (Equiv.refl (Fin b.n))) := rfl
    rw [h0, jG_snoc hP]
    funext i j
    rcases i with i | r <;> rcases j with j | s
    · show c.gram.toMat i j = _
      rw [I.gram]; rfl
    · exact hlow s i
    · exact hlow r j
    · show b.gramOp.toMat r s = _
      rw [gramOp_toMat]; rfl
  have hpd : (nb c.gram.toMat lowerᵀ lowerᵀᵀ b.gramOp.toMat).PosDef := by
    rw [hmat]; exact hG.submatrix e'.injective
  have hspd : (Op.block .spd c.gram lowerᵀ lowerᵀᵀ b.gramOp).Spd := ⟨rfl, rfl, hpd, I.spd⟩
  obtain ⟨x, h1, h2⟩ := schurUpdate_spd e he c.gram lowerᵀ lowerᵀᵀ b.gramOp hspd.valid _
    (col fun i => b.Y i - b.predMean i) c.w I.w
  refine ⟨{ s := .node c.s (.leaf b.n)
            kLas := Sum.elim c.kLas fun i => P.cross (b.L i)
            gram := .block .spd c.gram lowerᵀ lowerᵀᵀ b.gramOp
            w := x
            Ls := Sum.elim c.Ls b.L
            Ys := Sum.elim c.Ys b.Y
            bs := Sum.elim c.bs b.bMean }, by
    unfold Cond.condition
    simp only
    rw [← hlower, hmk]
    show (Block.schurUpdate e .spd c.gram lowerᵀ lowerᵀᵀ b.gramOp c.w _ >>= _ : Except Err _) = _
    rw [h1]
    rfl, ⟨?_⟩⟩
  refine
    { e := e'
      kLas := ?_
      Ls := ?_
      r := ?_
      gram := hmat
      spd := hspd
      flags := ⟨rfl, rfl⟩
      w := ?_ }
  · funext i
    rcases i with i | r
    · show c.kLas i = P.cross (jL (l ++ [b]) (inlI l b (I.e i)))
      rw [jL_inl, I.kLas]
    · exact congrArg P.cross (jL_inr l b r).symm
  · funext i
    rcases i with i | r
    · show c.Ls i = jL (l ++ [b]) (inlI l b (I.e i))
      rw [jL_inl, I.Ls]
    · exact (jL_inr l b r).symm
  · rintro (i | r)
    · show c.Ys i - (c.Ls i).1 P.m - c.bs i = jR (l ++ [b]) (inlI l b (I.e i))
      rw [jR_inl, I.r]
    · exact (jR_inr l b r).symm
  · simp only
    rw [h2]
    funext i j
    rcases i with i | r
    · show jR l (I.e i) = jR (l ++ [b]) (inlI l b (I.e i))
      rw [jR_inl]
    · exact (predMean_eq b r).trans (jR_inr l b r).symm

/-- Gram matrices of prefixes are positive definite. -/
lemma jG_prefix (hP : P.Regular) (l : List (Batch P)) (b : Batch P) (h : (jG (l ++ [b])).PosDef) :
    (jG l).PosDef := by
  have h1 : ((jG (l ++ [b])).submatrix (snocEquiv l b) (snocEquiv l b)).PosDef :=
    h.submatrix (snocEquiv l b).injective
  rw [jG_snoc hP] at h1
  exact h1.submatrix (e := (Sum.inl : Idx l → Idx l ⊕ Fin b.n)) Sum.inl_injective

lemma jG_prefix' (hP : P.Regular) (l l' : List (Batch P)) (h : (jG (l ++ l')).PosDef) : (jG l).PosDef := by
  induction l' using List.reverseRecOn with
  | nil => exact (List.append_nil l) ▸ h
  | append_singleton l' b ih =>
    rw [← List.append_assoc] at h
    exact ih (jG_prefix hP _ b h)

lemma foldlM_inv (e : Env) (he : e.CholOK) (hP : P.Regular) :
    ∀ (l : List (Batch P)) (c : Cond P) (l0 : List (Batch P)), Nonempty (Inv c l0) →
      (jG (l0 ++ l)).PosDef →
      ∃ c', l.foldlM (fun c b => c.condition e b) c = .ok c' ∧ Nonempty (Inv c' (l0 ++ l))
  | [], c, l0, I, _ => ⟨c, rfl, by simpa using I⟩
  | b :: l, c, l0, ⟨I⟩, hG => by
    have h1 : l0 ++ b :: l = (l0 ++ [b]) ++ l := by simp
    rw [h1] at hG ⊢
    obtain ⟨c1, e1, I1⟩ := condition_inv e he hP c l0 I b (jG_prefix' hP _ l hG)
    obtain ⟨c2, e2, I2⟩ := foldlM_inv e he hP l c1 (l0 ++ [b]) I1 hG
    exact ⟨c2, by rw [List.foldlM_cons, e1]; exact e2, I2⟩

lemma run_inv (e : Env) (he : e.CholOK) (hP : P.Regular) (b : Batch P) (l : List (Batch P))
    (hG : (jG (b :: l)).PosDef) : ∃ c, run e b l = .ok c ∧ Nonempty (Inv c (b :: l)) := by
  obtain ⟨c, e1, I⟩ := fromObservations_inv e he b (jG_prefix' hP [b] l hG)
  obtain ⟨c', e2, I'⟩ := foldlM_inv e he hP l c [b] I hG
  exact ⟨c', by unfold run; rw [e1]; exact e2, I'⟩

/-! ### What the invariant gives -/

lemma col_mulVec {ι : Type} [Fintype ι] (M : Matrix ι ι ℝ) (v : ι → ℝ) (i : ι) :
    (M * col v) i () = (M *ᵥ v) i := rfl

lemma Inv.w_eq {c : Cond P} {l : List (Batch P)} (I : Inv c l) (i : c.s.Idx) :
    c.w i () = (((jG l).submatrix I.e I.e)⁻¹ *ᵥ (jR l ∘ I.e)) i := by
  have := eq_inv_mul I.spd.valid.isUnit I.w
  rw [this, I.gram]
  rfl

lemma Inv.mean {c : Cond P} {l : List (Batch P)} (I : Inv c l) (x : X) : c.mean x = postMean l x := by
  have h := gMean_reindex I.e (fun i => P.cross (jL l i)) (jG l) (jR l) x
  unfold Core.mean
  have h2 : postMean l x = gMean P (fun i => P.cross (jL l i)) (jG l) (jR l) x := rfl
  rw [h2, ← h, gMean]
  congr 1
  refine Finset.sum_congr rfl fun i _ => ?_
  rw [I.w_eq, I.kLas]
  rfl

lemma Inv.covfunc {c : Cond P} {l : List (Batch P)} (I : Inv c l) (e : Env) (he : e.CholOK) (x y : X) :
    c.covfunc e x y = .ok (postCov l x y) := by
  have h := gCov_reindex I.e (fun i => P.cross (jL l i)) (jG l) x y
  unfold Core.covfunc
  rw [solve_eq_inv e he c.gram I.spd.valid]
  have h2 : postCov l x y = gCov P (fun i => P.cross (jL l i)) (jG l) x y := rfl
  rw [h2, ← h, gCov]
  show Except.ok _ = _
  congr 2
  refine Finset.sum_congr rfl fun i _ => ?_
  rw [I.gram, col_mulVec, I.kLas]
  rfl

end LinPDE.GP
