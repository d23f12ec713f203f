import Verif.Galerkin.Spec
import Verif.PosDef.Props

/-! # Evaluation and projection of Galerkin covariance functions: the computed values -/

namespace LinPDE.Galerkin
open LinPDE.Fem MeasureTheory
open scoped InnerProductSpace

mutual
/-- The function denoted by a covariance function. -/
noncomputable def K.den : K → ℝ → ℝ → ℝ
  | .base f => f
  | .matern32 l => matern32K l
  | .zero => fun _ _ => 0
  | .scaled s k => fun x y => s * K.den k x y
  | .sum k ks => fun x y => K.den k x y + KL.den ks x y
  | .galerkin k P _ _ => spec P (K.den k)
/-- The sum of the functions denoted by the summands. -/
noncomputable def KL.den : KL → ℝ → ℝ → ℝ
  | .nil => fun _ _ => 0
  | .cons k ks => fun x y => K.den k x y + KL.den ks x y
end

mutual
/-- Python object identity: a projection stored in a Galerkin kernel that has the identity of `P` is `P`. -/
def SameObj (P : Proj) : K → Prop
  | .base _ | .matern32 _ | .zero => True
  | .scaled _ k => SameObj P k
  | .sum k ks => SameObj P k ∧ SameObjL P ks
  | .galerkin _ Q _ _ => Q.id = P.id → Q = P
/-- The same for the summands of a sum. -/
def SameObjL (P : Proj) : KL → Prop
  | .nil => True
  | .cons k ks => SameObj P k ∧ SameObjL P ks
end

mutual
/-- Covariance functions built from continuous covariance functions and Matérn-3/2 kernels by scaling with non-negative
numbers, sums and the constructor of Galerkin kernels. -/
def Valid : K → Prop
  | .base f => IsCov f ∧ Continuous (Function.uncurry f)
  | .matern32 l => 0 < l
  | .zero => True
  | .scaled s k => 0 ≤ s ∧ Valid k
  | .sum k ks => Valid k ∧ ValidL ks
  | .galerkin k P kPa C => Valid k ∧ Good P ∧ SameObj P k ∧ projK P k true = .ok kPa ∧ projPV P kPa = .ok C
/-- The same for the summands of a sum. -/
def ValidL : KL → Prop
  | .nil => True
  | .cons k ks => Valid k ∧ ValidL ks
end

variable {P : Proj} {k : ℝ → ℝ → ℝ}

/-! ## Closed forms -/

lemma matern32_isCov (l : ℝ) : IsCov (matern32K l) := by
  have := PosDef.PSD.comp (PosDef.matern_psd (⟨1, fun _ => Real.sqrt 3 / l⟩ : Matern.Par 1)) fun x : ℝ => fun _ => x
  exact ⟨this.symm, this.nonneg⟩

lemma matern32_continuous (l : ℝ) : Continuous (Function.uncurry (matern32K l)) := by
  have h := PosDef.matern_continuous (Matern.MK.matern (⟨1, fun _ => Real.sqrt 3 / l⟩ : Matern.Par 1))
  have e : Function.uncurry (matern32K l) = fun p : ℝ × ℝ =>
      (Matern.MK.matern (⟨1, fun _ => Real.sqrt 3 / l⟩ : Matern.Par 1)).eval (fun _ => p.1 - p.2) 0 := by
    funext p
    show (Matern.MK.matern (⟨1, fun _ => Real.sqrt 3 / l⟩ : Matern.Par 1)).eval _ _ = _
    rw [PosDef.matern_stationary]
    rfl
  rw [e]
  exact h.comp (by fun_prop)

lemma ofFin_val {n : ℕ} (v : Fin n → ℝ) (i : Fin n) : ofFin v i = v i := by
  unfold ofFin
  simp

lemma ofMat_val {m n : ℕ} (M : Matrix (Fin m) (Fin n) ℝ) (i : Fin m) (j : Fin n) : ofMat M i j = M i j := by
  unfold ofMat
  simp [ofFin]

lemma dot_fin (n : ℕ) (a b : ℕ → ℝ) : dot n a b = ∑ j : Fin n, a j * b j := by
  unfold dot
  rw [Finset.sum_range]

lemma linopCall_fin (C : ℕ → ℕ → ℝ) (n : ℕ) (v : ℕ → ℝ) (i : ℕ) : linopCall C n v i = ∑ j : Fin n, C i j * v j := by
  unfold linopCall
  rw [Finset.sum_range]

/-- The matrix returned for the quadrature of a kernel. -/
lemma quadCov_eq (h : Good P) (F : Feature k) :
    ∃ C, quadCov P P k false = .ok C ∧ ∀ i j : Fin P.basis.len, C i j = coef P (fun s => coef P (k s) j) i := by
  obtain ⟨g, zb, hg, hm⟩ := h
  have hG : Good P := ⟨g, zb, hg, hm⟩
  have hq := projectionCov_eq hg hm hg hm k P.normalized P.normalized
  refine ⟨_, by unfold quadCov; simp only [Bool.false_eq_true, if_false]; rw [hq]; rfl, fun i j => ?_⟩
  rw [ofMat_val]
  have hlb : ∀ c : Fin P.basis.len, LB fun s => ∫ t, P.basis.phi c t * k s t := by
    intro c
    have : (fun s => ∫ t, P.basis.phi c t * k s t) = fun s => ⟪F.ψ s, ∫ t, P.basis.phi c t • F.ψ t⟫_ℝ := by
      funext s
      rw [real_inner_comm, ← (phi_weight hG c.2).integral_inner F.lb]
      simp only [F.eq, F.symm s]
    rw [this]
    exact F.lb.inner_const _
  rw [(projectFunction_eq hG _).2]
  simp only [(projectFunction_eq hG (k _)).2]
  have hint : ∀ a : Fin P.basis.len, ∫ x, P.basis.phi a x * ∑ c, normalizer P.basis P.normalized j c * ∫ t, P.basis.phi c t * k x t =
      ∑ c, normalizer P.basis P.normalized j c * ∫ x, P.basis.phi a x * ∫ t, P.basis.phi c t * k x t := by
    intro a
    have e : ∀ x, P.basis.phi a x * ∑ c, normalizer P.basis P.normalized j c * ∫ t, P.basis.phi c t * k x t =
        ∑ c, normalizer P.basis P.normalized j c * (P.basis.phi a x * ∫ t, P.basis.phi c t * k x t) := fun x => by
      rw [Finset.mul_sum]
      exact Finset.sum_congr rfl fun c _ => by ring
    simp only [e]
    rw [integral_finsetSum _ fun c _ => (((phi_weight hG a.2).integrable_mul (hlb c)).const_mul _)]
    exact Finset.sum_congr rfl fun c _ => integral_const_mul _ _
  simp only [hint]
  rw [Matrix.mul_assoc]
  simp only [Matrix.mul_apply, Matrix.transpose_apply, Matrix.of_apply]
  refine Finset.sum_congr rfl fun a _ => ?_
  congr 1
  exact Finset.sum_congr rfl fun c _ => by ring

/-! ## Soundness -/

/-- A cross-covariance and its projection have the values `P k(x, ·)` and `P k P*`. -/
def Cor (P : Proj) (k : ℝ → ℝ → ℝ) (c : PV) (C : ℕ → ℕ → ℝ) : Prop :=
  (∀ x, ∃ v, c.eval x = .ok v ∧ ∀ i : Fin P.basis.len, v i = coef P (k x) i) ∧
  ∀ i j : Fin P.basis.len, C i j = coef P (fun s => coef P (k s) j) i

lemma cor_quad (h : Good P) (K' : K) (F : Feature k) (he : ∀ x y, K'.eval x y = .ok (k x y)) {C : ℕ → ℕ → ℝ}
    (hC : projPV P (.quad K' P false) = .ok C) : Cor P k (.quad K' P false) C := by
  have e : (fun x t => val (K'.eval x t)) = k := by funext x t; rw [he]; rfl
  constructor
  · intro x
    refine ⟨ofFin (coef P (k x)), ?_, fun i => ofFin_val _ i⟩
    rw [PV.eval, e, project_crosscov, (projectFunction_eq h _).1]
    rfl
  · obtain ⟨C', h1, h2⟩ := quadCov_eq h F
    rw [projPV, e, h1] at hC
    cases hC
    exact h2

lemma cor_matern (h : Good P) {l : ℝ} (hl : 0 < l) {C : ℕ → ℕ → ℝ} (hC : projPV P (.matern32 l P false) = .ok C) :
    Cor P (matern32K l) (.matern32 l P false) C := by
  constructor
  · intro x
    refine ⟨_, by rw [PV.eval], fun i => ?_⟩
    rw [ofFin_val]
    obtain ⟨g, zb, hg, hm⟩ := h
    have h1 := matern32_projection hg hm P.normalized hl x
    rw [project_crosscov, (projectFunction_eq ⟨g, zb, hg, hm⟩ _).1] at h1
    exact (congrFun (Except.ok.inj h1) i).symm
  · obtain ⟨F⟩ := Feature.of_continuous (matern32_isCov l) (matern32_continuous l)
    obtain ⟨C', h1, h2⟩ := quadCov_eq h F
    rw [projPV, h1] at hC
    cases hC
    exact h2

lemma cor_scaled (h : Good P) {s : ℝ} {c : PV} {C : ℕ → ℕ → ℝ} (hc : Cor P k c C) :
    Cor P (fun x y => s * k x y) (.scaled s c) fun i j => s * C i j := by
  constructor
  · intro x
    obtain ⟨v, h1, h2⟩ := hc.1 x
    refine ⟨fun i => s * v i, by rw [PV.eval, h1]; rfl, fun i => ?_⟩
    beta_reduce
    rw [coef_smul h, h2]
  · intro i j
    simp only [coef_smul h]
    rw [hc.2]

lemma cor_sum (h : Good P) {k' : ℝ → ℝ → ℝ} (F : Feature k) (F' : Feature k') {c c' : PV} {C C' : ℕ → ℕ → ℝ} (hc : Cor P k c C)
    (hc' : Cor P k' c' C') : Cor P (fun x y => k x y + k' x y) (.sum c c') fun i j => C i j + C' i j := by
  constructor
  · intro x
    obtain ⟨v, h1, h2⟩ := hc.1 x
    obtain ⟨v', h1', h2'⟩ := hc'.1 x
    refine ⟨fun i => v i + v' i, by rw [PV.eval, h1, h1']; rfl, fun i => ?_⟩
    beta_reduce
    rw [coef_add h (F.section_lb x) (F'.section_lb x), h2, h2']
  · intro i j
    simp only [fun s j => coef_add h (F.section_lb s) (F'.section_lb s) j]
    rw [coef_add h (coef_lb h F j) (coef_lb h F' j), hc.2, hc'.2]

lemma cor_param (h : Good P) (hn : P.normalized = true) (F : Feature k) {C : ℕ → ℕ → ℝ}
    (hC : ∀ i j : Fin P.basis.len, C i j = coef P (fun s => coef P (k s) j) i) (id : ℕ) :
    Cor P (spec P k) (.param C id P.basis false) C := by
  constructor
  · intro x
    refine ⟨_, by rw [PV.eval], fun i => ?_⟩
    rw [linopCall_fin, coef_spec h hn F]
    exact Finset.sum_congr rfl fun j _ => by rw [hC]; rfl
  · intro i j
    rw [coef_coef_spec h hn F, hC]

/-- The value of a Galerkin kernel whose stored objects are right. -/
lemma eval_galerkin (h : Good P) {k' : K} (F : Feature k) (he : ∀ x y, k'.eval x y = .ok (k x y)) {c : PV} {C : ℕ → ℕ → ℝ}
    (hc : Cor P k c C) (x y : ℝ) : (K.galerkin k' P c C).eval x y = .ok (spec P k x y) := by
  obtain ⟨v0, h0, e0⟩ := hc.1 x
  obtain ⟨v1, h1, e1⟩ := hc.1 y
  rw [K.eval]
  simp only [he, h0, h1, bind, Except.bind]
  congr 1
  rw [spec_terms h F, both_proj h F]
  have hp : dot P.basis.len (phi P.basis x) (linopCall C P.basis.len (phi P.basis y)) =
      ∑ i : Fin P.basis.len, ∑ j : Fin P.basis.len, P.basis.phi i x * coef P (fun s => coef P (k s) j) i * P.basis.phi j y := by
    rw [dot_fin]
    refine Finset.sum_congr rfl fun i _ => ?_
    rw [linopCall_fin, Finset.mul_sum]
    refine Finset.sum_congr rfl fun j _ => ?_
    rw [hc.2, mul_assoc]
    rfl
  have hx : ∀ (v : ℕ → ℝ) (x y : ℝ), (∀ i : Fin P.basis.len, v i = coef P (k x) i) →
      dot P.basis.len v (phi P.basis y) = proj P (k x) y := by
    intro v x y hv
    rw [dot_fin, proj]
    exact Finset.sum_congr rfl fun j _ => by rw [hv]; rfl
  rw [hp, hx v0 x y e0, hx v1 y x e1]

lemma orQuad_ok {k' : K} {r : Bool} {m : Except Err PV} {c : PV} (h : orQuad P k' r m = .ok c) :
    m = .ok c ∨ m = .error .notImplementedError ∧ c = .quad k' P r := by
  cases m with
  | ok d => exact Or.inl h
  | error e => cases e <;> first | (cases h; exact Or.inr ⟨rfl, rfl⟩) | cases h

/-- What is shown of every valid covariance function. -/
structure Sound (k : K) : Prop where
  feature : Nonempty (Feature k.den)
  eval : ∀ x y, k.eval x y = .ok (k.den x y)
  proj : ∀ P, Good P → SameObj P k → ∀ c, projK P k true = .ok c → ∀ C, projPV P c = .ok C → Cor P k.den c C

/-- The same for the further summands of a sum. -/
structure SoundL (ks : KL) : Prop where
  feature : Nonempty (Feature ks.den)
  eval : ∀ v x y, ks.evalAdd v x y = .ok (v + ks.den x y)
  proj : ∀ P, Good P → SameObjL P ks → ∀ c0 c, projKL P ks c0 true = .ok c → ∀ C, projPV P c = .ok C →
    ∃ C0, projPV P c0 = .ok C0 ∧ ∀ f, Nonempty (Feature f) → Cor P f c0 C0 → Cor P (fun x y => f x y + ks.den x y) c C

mutual
lemma sound : ∀ k : K, Valid k → Sound k
  | .base f, h => by
    have hF := Feature.of_continuous h.1 h.2
    refine ⟨hF, fun x y => by rw [K.eval]; rfl, fun P hP _ c hc C hC => ?_⟩
    obtain ⟨F⟩ := hF
    rw [projK] at hc
    cases hc
    exact cor_quad hP _ F (fun x y => by rw [K.eval]) hC
  | .matern32 l, h => by
    refine ⟨Feature.of_continuous (matern32_isCov l) (matern32_continuous l), fun x y => by rw [K.eval]; rfl,
      fun P hP _ c hc C hC => ?_⟩
    rw [projK] at hc
    cases hc
    exact cor_matern hP h hC
  | .zero, _ => by
    refine ⟨Feature.zero, fun x y => by rw [K.eval]; rfl, fun P hP _ c hc C hC => ?_⟩
    rw [projK] at hc
    cases hc
    rw [projPV] at hC
    cases hC
  | .scaled s k, h => by
    have ih := sound k h.2
    obtain ⟨F⟩ := ih.feature
    have hF : Nonempty (Feature (K.scaled s k).den) := F.smul h.1
    have he : ∀ x y, (K.scaled s k).eval x y = .ok ((K.scaled s k).den x y) := fun x y => by rw [K.eval, ih.eval]; rfl
    refine ⟨hF, he, fun P hP hS c hc C hC => ?_⟩
    obtain ⟨F'⟩ := hF
    rw [projK] at hc
    rcases orQuad_ok hc with hc | ⟨-, rfl⟩
    · cases hi : projK P k true with
      | error e => rw [hi] at hc; cases hc
      | ok c' =>
        rw [hi] at hc
        cases hc
        rw [projPV] at hC
        cases hi' : projPV P c' with
        | error e => rw [hi'] at hC; cases hC
        | ok C' =>
          rw [hi'] at hC
          cases hC
          exact cor_scaled hP (ih.proj P hP hS c' hi C' hi')
    · exact cor_quad hP _ F' he hC
  | .sum k ks, h => by
    have ih := sound k h.1
    have il := soundL ks h.2
    obtain ⟨F⟩ := ih.feature
    obtain ⟨G⟩ := il.feature
    have hF : Nonempty (Feature (K.sum k ks).den) := F.add G
    have he : ∀ x y, (K.sum k ks).eval x y = .ok ((K.sum k ks).den x y) := fun x y => by
      rw [K.eval, ih.eval]
      exact il.eval _ x y
    refine ⟨hF, he, fun P hP hS c hc C hC => ?_⟩
    obtain ⟨F'⟩ := hF
    rw [projK] at hc
    rcases orQuad_ok hc with hc | ⟨-, rfl⟩
    · cases hi : projK P k true with
      | error e => rw [hi] at hc; cases hc
      | ok c' =>
        rw [hi] at hc
        obtain ⟨C0, h0, h1⟩ := il.proj P hP hS.2 c' c hc C hC
        exact h1 _ ⟨F⟩ (ih.proj P hP hS.1 c' hi C0 h0)
    · exact cor_quad hP _ F' he hC
  | .galerkin k Q kPa C, h => by
    obtain ⟨hk, hQ, hS, h1, h2⟩ := h
    have ih := sound k hk
    obtain ⟨F⟩ := ih.feature
    have hc := ih.proj Q hQ hS kPa h1 C h2
    refine ⟨spec_feature hQ F, fun x y => eval_galerkin hQ F ih.eval hc x y, fun P hP hS' c hc' C' hC' => ?_⟩
    rw [projK] at hc'
    split_ifs at hc' with hid
    obtain rfl : Q = P := hS' hid
    cases hc'
    rw [projPV] at hC'
    split_ifs at hC' with hn
    cases hC'
    exact cor_param hP hn.2 F hc.2 _
lemma soundL : ∀ ks : KL, ValidL ks → SoundL ks
  | .nil, _ => by
    refine ⟨Feature.zero, fun v x y => by rw [KL.evalAdd]; simp [KL.den], fun P hP _ c0 c hc C hC => ?_⟩
    rw [projKL] at hc
    cases hc
    refine ⟨C, hC, fun f _ hf => ?_⟩
    simpa [KL.den] using hf
  | .cons k ks, h => by
    have ih := sound k h.1
    have il := soundL ks h.2
    obtain ⟨F⟩ := ih.feature
    obtain ⟨G⟩ := il.feature
    refine ⟨F.add G, fun v x y => ?_, fun P hP hS c0 c hc C hC => ?_⟩
    · rw [KL.evalAdd, ih.eval]
      simp only [bind, Except.bind]
      rw [il.eval]
      simp only [KL.den, add_assoc]
    · rw [projKL] at hc
      cases hi : projK P k true with
      | error e => rw [hi] at hc; cases hc
      | ok d =>
        rw [hi] at hc
        obtain ⟨C1, h1, h2⟩ := il.proj P hP hS.2 (.sum c0 d) c hc C hC
        rw [projPV] at h1
        cases hi0 : projPV P c0 with
        | error e => rw [hi0] at h1; cases h1
        | ok C0 =>
          cases hid : projPV P d with
          | error e => rw [hi0, hid] at h1; cases h1
          | ok D =>
            rw [hi0, hid] at h1
            cases h1
            refine ⟨C0, rfl, fun f ⟨Ff⟩ hf => ?_⟩
            have := h2 (fun x y => f x y + k.den x y) (Ff.add F) (cor_sum hP Ff F hf (ih.proj P hP hS.1 d hi D hid))
            simpa only [KL.den, add_assoc] using this
end

lemma quad_eval (h : Good P) {K' : K} (hs : Sound K') (x : ℝ) :
    ∃ v, (PV.quad K' P false).eval x = .ok v ∧ ∀ i : Fin P.basis.len, v i = coef P (K'.den x) i := by
  have e : (fun x t => val (K'.eval x t)) = K'.den := by funext x t; rw [hs.eval]; rfl
  refine ⟨ofFin (coef P (K'.den x)), ?_, fun i => ofFin_val _ i⟩
  rw [PV.eval, e, project_crosscov, (projectFunction_eq h _).1]
  rfl

end LinPDE.Galerkin
