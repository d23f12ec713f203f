import Verif.GP.JointProps

/-! # C71: the posterior of the right-hand side (`0003_poisson_1d_inverse_rhs.ipynb`, cell 19) -/

namespace LinPDE.GP
open Matrix LinPDE.Block

variable {X ι : Type} [DecidableEq ι] {P : ι → Prior X}

/-- C71: a history of measurements of one output leaves that output in the state of the process conditioned alone. -/
theorem select_own [Nontrivial ι] (e : Env) (i : ι) (b : Batch (P i)) (l : List (Batch (P i))) :
    (run e (b.onComp i) (l.map (Batch.onComp i))).map (fun c => c.toCore.comp i) = (run e b l).map Cond.toCore := by
  obtain ⟨j, hj⟩ := exists_ne i
  have h := uncertain_rhs (P := P) hj.symm e (.own b) (l.map .own)
    (List.Pairwise.imp_of_mem (R := fun _ _ => True) (fun {m m'} hm hm' _ M hM => by
      rw [← List.map_cons] at hm'
      obtain ⟨d, -, rfl⟩ := List.mem_map.mp hm'
      cases hM) (List.pairwise_of_forall fun _ _ => trivial))
  rw [List.map_map, List.map_map] at h
  have e1 : l.map (Meas.alone ∘ (Meas.own : Batch (P i) → Meas P i j)) = l := List.map_id l
  rw [e1] at h
  exact h

/-- What the message from one process to another is: the values `-(L f)` of a conditioned process as a random variable. -/
noncomputable def messageBatch {Q : Prior X} {n : ℕ} (M : Fin n → Q.Λ) (mean : Fin n → ℝ) (cov : Matrix (Fin n) (Fin n) ℝ)
    (Y : Fin n → ℝ) : Batch Q :=
  ⟨n, M, some (fun a => -mean a, cov), Y⟩

lemma mean_parts {n : ℕ} {a a' : ℝ} {u u' v v' : Fin n → ℝ} {G G' : Matrix (Fin n) (Fin n) ℝ} (h1 : a = a') (h2 : u = u') (h3 : G = G')
    (h4 : v = v') : a' + u' ⬝ᵥ (G'⁻¹ *ᵥ v') = a + u ⬝ᵥ (G⁻¹ *ᵥ v) := by
  rw [h1, h2, h3, h4]

lemma cov_parts {n : ℕ} {a a' : ℝ} {u u' v v' : Fin n → ℝ} {G G' : Matrix (Fin n) (Fin n) ℝ} (h1 : a = a') (h2 : u = u') (h3 : G = G')
    (h4 : v = v') : a' - u' ⬝ᵥ (G'⁻¹ *ᵥ v') = a - u ⬝ᵥ (G⁻¹ *ᵥ v) := by
  rw [h1, h2, h3, h4]

lemma four_terms {a b c d a' d' : ℝ} (h1 : a = a') (h2 : b = 0) (h3 : c = 0) (h4 : d = d') : a - b - c + d + 0 = a' + d' := by
  rw [h1, h2, h3, h4]
  ring

section
variable [Fintype ι] (hP : ∀ i, (P i).Regular) {i j : ι} (hij : i ≠ j)

lemma uvec_other (hji : j ≠ i) (l : List (Batch (P i))) (M : (P j).Λ) : uvec (l.map (Batch.onComp i)) (onComp P j M) = 0 := by
  funext a
  have h : ∀ b ∈ l.map (Batch.onComp i), ∀ r : Fin b.n, (indep P).cov (onComp P j M) (b.L r) = 0 := by
    intro b hb
    obtain ⟨d, -, rfl⟩ := List.mem_map.mp hb
    exact fun r => cov_onComp_ne hji M (d.L r)
  exact h _ (List.get_mem _ a.1) a.2

lemma post_other_mean (hji : j ≠ i) (l : List (Batch (P i))) (M : (P j).Λ) :
    (onComp P j M).1 (postMeanF (l.map (Batch.onComp i))) = M.1 (P j).m := by
  rw [apply_postMeanF, uvec_other hji, zero_dotProduct, add_zero]
  rfl

lemma post_other_cov (hji : j ≠ i) (l : List (Batch (P i))) (M : (P j).Λ) (L : (indep P).Λ) :
    (posterior (indep P) (l.map (Batch.onComp i))).cov (onComp P j M) L = (indep P).cov (onComp P j M) L := by
  rw [posterior_cov', uvec_other hji, zero_dotProduct, sub_zero]

include hP in
/-- Functionals of the measured output, under the joint posterior. -/
lemma post_same [Nontrivial ι] (e : Env) (he : e.CholOK) (b : Batch (P i)) (l : List (Batch (P i))) (hG : (jG (b :: l)).PosDef)
    (hG' : (jG ((b :: l).map (Batch.onComp i))).PosDef) :
    (∀ L : (P i).Λ, (onComp P i L).1 (postMeanF ((b :: l).map (Batch.onComp i))) = L.1 (postMeanF (b :: l))) ∧
    ∀ L L' : (P i).Λ, (posterior (indep P) ((b :: l).map (Batch.onComp i))).cov (onComp P i L) (onComp P i L') =
      (posterior (P i) (b :: l)).cov L L' := by
  obtain ⟨c, hc, -⟩ := run_posterior e he (hP i) b l hG
  obtain ⟨c', hc', -⟩ := run_posterior e he (indep_regular hP) (b.onComp i) (l.map (Batch.onComp i)) hG'
  have h := select_own e i b l
  rw [hc, hc'] at h
  have h1 : c'.toCore.comp i = c.toCore := Except.ok.inj h
  have key : ∀ {n : ℕ} (L : Fin n → (P i).Λ),
      (∀ a, (onComp P i (L a)).1 (postMeanF ((b :: l).map (Batch.onComp i))) = (L a).1 (postMeanF (b :: l))) ∧
      ∀ a a', (posterior (indep P) ((b :: l).map (Batch.onComp i))).cov (onComp P i (L a)) (onComp P i (L a')) =
        (posterior (P i) (b :: l)).cov (L a) (L a') := by
    intro n L
    obtain ⟨m1, v1⟩ := functl_posterior e he (hP i) b l hG c hc L
    obtain ⟨m2, v2⟩ := functl_posterior e he (indep_regular hP) (b.onComp i) (l.map (Batch.onComp i)) hG' c' hc' fun a => onComp P i (L a)
    constructor
    · intro a
      refine (m2 a).symm.trans (Eq.trans ?_ (m1 a))
      show (c'.toCore.comp i).functlMean L a = c.toCore.functlMean L a
      rw [h1]
    · intro a a'
      have e1 : c'.toCore.functlCov e (fun a => onComp P i (L a)) = (c'.toCore.comp i).functlCov e L := by
        have e2 : (Matrix.of fun a a' => (indep P).cov (onComp P i (L a)) (onComp P i (L a')) : Matrix (Fin n) (Fin n) ℝ) =
            Matrix.of fun a a' => (P i).cov (L a) (L a') := by
          ext a a'
          rw [of_apply, of_apply, cov_onComp]
        unfold Core.functlCov
        exact congrArg (fun G : Matrix (Fin n) (Fin n) ℝ => (do
          let z ← c'.gram.solve e (Matrix.of fun a k => (L a).1 (sel P i (c'.kLas k)))ᵀ
          return G - (Matrix.of fun a k => (L a).1 (sel P i (c'.kLas k))) * z : Except Err (Matrix (Fin n) (Fin n) ℝ))) e2
      rw [e1, h1, v1] at v2
      exact (congrFun (congrFun (Except.ok.inj v2) a) a').symm
  exact ⟨fun L => (key (n := 1) fun _ => L).1 0, fun L L' => (key (n := 2) ![L, L']).2 0 1⟩

include hP in
lemma onComp_reindex (l : List (Batch (P i))) : ∃ φ : Idx l ≃ Idx (l.map (Batch.onComp i)),
    (∀ a, jL (l.map (Batch.onComp i)) (φ a) = onComp P i (jL l a)) ∧
    ∀ a a', jG (l.map (Batch.onComp i)) (φ a) (φ a') = jG l a a' := by
  induction l using List.reverseRecOn with
  | nil => exact ⟨⟨fun a => a.1.elim0, fun a => a.1.elim0, fun a => a.1.elim0, fun a => a.1.elim0⟩, fun a => a.1.elim0, fun a => a.1.elim0⟩
  | append_singleton l b ih =>
    obtain ⟨φ, h1, h2⟩ := ih
    rw [List.map_append]
    let ψ : Idx (l ++ [b]) ≃ Idx (l.map (Batch.onComp i) ++ [b.onComp i]) :=
      (snocEquiv l b).symm.trans ((Equiv.sumCongr φ (Equiv.refl _)).trans (snocEquiv (l.map (Batch.onComp i)) (b.onComp i)))
    have q1 : ∀ a, ψ (inlI l b a) = inlI _ (b.onComp i) (φ a) := fun a => by
      have := congrArg (fun z => snocEquiv (l.map (Batch.onComp i)) (b.onComp i) (Equiv.sumCongr φ (Equiv.refl (Fin b.n)) z))
        ((snocEquiv l b).symm_apply_apply (.inl a))
      exact this
    have q2 : ∀ r, ψ (inrI l b r) = inrI _ (b.onComp i) r := fun r => by
      have := congrArg (fun z => snocEquiv (l.map (Batch.onComp i)) (b.onComp i) (Equiv.sumCongr φ (Equiv.refl (Fin b.n)) z))
        ((snocEquiv l b).symm_apply_apply (.inr r))
      exact this
    have q3 : ∀ a, jL (l.map (Batch.onComp i) ++ [b.onComp i]) (ψ a) = onComp P i (jL (l ++ [b]) a) := by
      intro a
      obtain ⟨a | r, rfl⟩ := (snocEquiv l b).surjective a
      · rw [snocEquiv_inl, q1, jL_inl, jL_inl, h1]
      · rw [snocEquiv_inr, q2, jL_inr]
        exact jL_inr (l.map (Batch.onComp i)) (b.onComp i) r
    have n1 : (b.onComp i).noiseCov = b.noiseCov := by
      obtain ⟨n, L, noise, Y⟩ := b
      cases noise <;> rfl
    refine ⟨ψ, q3, fun a a' => ?_⟩
    have g2 := fun a a' => congrFun (congrFun (jG_snoc (indep_regular hP) (l.map (Batch.onComp i)) (b.onComp i)) a) a'
    have g1 := fun a a' => congrFun (congrFun (jG_snoc (hP i) l b) a) a'
    obtain ⟨a | r, rfl⟩ := (snocEquiv l b).surjective a <;> obtain ⟨a' | r', rfl⟩ := (snocEquiv l b).surjective a'
    · rw [snocEquiv_inl, snocEquiv_inl, q1, q1]
      exact (g2 (.inl (φ a)) (.inl (φ a'))).trans ((h2 a a').trans (g1 (.inl a) (.inl a')).symm)
    · rw [snocEquiv_inl, snocEquiv_inr, q1, q2]
      refine (g2 (.inl (φ a)) (.inr r')).trans (Eq.trans ?_ (g1 (.inl a) (.inr r')).symm)
      show (indep P).cov (onComp P i (b.L r')) (jL _ (φ a)) = (P i).cov (b.L r') (jL l a)
      rw [h1, cov_onComp]
    · rw [snocEquiv_inl, snocEquiv_inr, q1, q2]
      refine (g2 (.inr r) (.inl (φ a'))).trans (Eq.trans ?_ (g1 (.inr r) (.inl a')).symm)
      show (indep P).cov (onComp P i (b.L r)) (jL _ (φ a')) = (P i).cov (b.L r) (jL l a')
      rw [h1, cov_onComp]
    · rw [snocEquiv_inr, snocEquiv_inr, q2, q2]
      refine (g2 (.inr r) (.inr r')).trans (Eq.trans ?_ (g1 (.inr r) (.inr r')).symm)
      show (indep P).cov (onComp P i (b.L r)) (onComp P i (b.L r')) + (b.onComp i).noiseCov r r' = (P i).cov (b.L r) (b.L r') + b.noiseCov r r'
      rw [n1, cov_onComp]

include hP in
lemma onComp_posDef {l : List (Batch (P i))} (h : (jG l).PosDef) : (jG (l.map (Batch.onComp i))).PosDef := by
  obtain ⟨φ, -, h2⟩ := onComp_reindex hP l
  have : jG (l.map (Batch.onComp i)) = (jG l).submatrix φ.symm φ.symm := by
    ext a a'
    rw [submatrix_apply, ← h2, Equiv.apply_symm_apply, Equiv.apply_symm_apply]
  rw [this]
  exact h.submatrix φ.symm.injective

lemma snoc_posDef {Q : Prior X} (hQ : Q.Regular) {l : List (Batch Q)} {b : Batch Q} (h1 : (jG l).PosDef) (h2 : (gram1 (b.again l)).PosDef) :
    (jG (l ++ [b])).PosDef := by
  have e1 := jG_snoc hQ l b
  set B : Matrix (Idx l) (Fin b.n) ℝ := Matrix.of fun i r => Q.cov (b.L r) (jL l i) with hB
  have e2 : (Matrix.of fun r i => Q.cov (b.L r) (jL l i)) = Bᵀ := rfl
  have e3 : gram1 (b.again l) = gram1 b - Bᵀ * (jG l)⁻¹ * B := by
    ext r s
    show (posterior Q l).cov (b.L r) (b.L s) + (b.again l).noiseCov r s = Q.cov (b.L r) (b.L s) + b.noiseCov r s - _
    rw [again_noiseCov, posterior_cov', Matrix.mul_assoc, sub_add_eq_add_sub]
    rfl
  have e4 : (fromBlocks (jG l) B Bᵀ (gram1 b)).PosDef := by
    rw [e3] at h2
    have := h1.isUnit.invertible
    have p1 : (fromBlocks (jG l) B Bᵀ (gram1 b)).PosSemidef := by
      have := (PosDef.fromBlocks₁₁ B (gram1 b) h1).mpr (by rw [conjTranspose_eq_transpose_of_trivial]; exact h2.posSemidef)
      rwa [conjTranspose_eq_transpose_of_trivial] at this
    rw [p1.posDef_iff_det_ne_zero, Matrix.det_fromBlocks₁₁, invOf_eq_nonsing_inv]
    have d1 := h1.isUnit; rw [Matrix.isUnit_iff_isUnit_det] at d1
    have d2 := h2.isUnit; rw [Matrix.isUnit_iff_isUnit_det] at d2
    exact mul_ne_zero d1.ne_zero d2.ne_zero
  rw [e2] at e1
  have e5 : jG (l ++ [b]) = (fromBlocks (jG l) B Bᵀ (gram1 b)).submatrix (snocEquiv l b).symm (snocEquiv l b).symm := by
    show _ = (fromBlocks (jG l) B Bᵀ ((Matrix.of fun r s => Q.cov (b.L r) (b.L s)) + b.noiseCov)).submatrix _ _
    rw [← e1, submatrix_submatrix]
    simp
  rw [e5]
  exact e4.submatrix (snocEquiv l b).symm.injective

lemma cov_psd {Q : Prior X} (hQ : Q.Regular) {n : ℕ} (L : Fin n → Q.Λ) : (Matrix.of fun a b => Q.cov (L a) (L b)).PosSemidef := by
  refine Matrix.PosSemidef.of_dotProduct_mulVec_nonneg ?_ fun a => ?_
  · ext i j
    simp only [conjTranspose_apply, of_apply, star_trivial]
    rw [hQ.symm]
  · have := hQ.nonneg (∑ i, a i • L i)
    rw [cov_sum] at this
    refine this.trans (le_of_eq ?_)
    simp only [dotProduct, Matrix.mulVec, of_apply, Finset.mul_sum, Pi.star_apply, star_trivial]
    exact Finset.sum_congr rfl fun i _ => Finset.sum_congr rfl fun j _ => by ring

include hP hij in
/-- The Gram matrix of an equation, after measurements of one side. -/
lemma again_gram_eq [Nontrivial ι] (e : Env) (he : e.CholOK) (b : Batch (P i)) (l : List (Batch (P i))) {n : ℕ}
    (L : Fin n → (P i).Λ) (M : Fin n → (P j).Λ) (Y : Fin n → ℝ) (hG : (jG (b :: l)).PosDef) :
    gram1 ((equationBatch P j i M L Y).again ((b :: l).map (Batch.onComp i))) = (Matrix.of fun a a' => (P j).cov (M a) (M a') : Matrix (Fin n) (Fin n) ℝ) +
      Matrix.of fun a a' => (posterior (P i) (b :: l)).cov (L a) (L a') := by
  have hR := indep_regular hP
  have hG0 := onComp_posDef hP hG
  obtain ⟨s1, s2⟩ := post_same hP e he b l hG hG0
  set l' := (b :: l).map (Batch.onComp i) with hl'
  set q := equationBatch P j i M L Y with hq
  have hsym : ∀ A B, (posterior (indep P) l').cov A B = (posterior (indep P) l').cov B A := posterior_symm hR hG0
  have n1 : (q.again l').noiseCov = 0 := again_noiseCov l' q
  ext r s
  show (posterior (indep P) l').cov (onComp P j (M r) - onComp P i (L r)) (onComp P j (M s) - onComp P i (L s)) + (q.again l').noiseCov r s =
    (P j).cov (M r) (M s) + (posterior (P i) (b :: l)).cov (L r) (L s)
  rw [n1]
  have := cov_sub_sub (Q := posterior (indep P) l') (onComp P j (M r)) (onComp P i (L r)) (onComp P j (M s)) (onComp P i (L s))
  refine (congrArg (· + (0 : ℝ)) this).trans ?_
  have x1 := (post_other_cov hij.symm (b :: l) (M r) (onComp P j (M s))).trans (cov_onComp j (M r) (M s))
  have x2 := (post_other_cov hij.symm (b :: l) (M r) (onComp P i (L s))).trans (cov_onComp_ne hij.symm (M r) (L s))
  have x3 := (hsym (onComp P i (L r)) (onComp P j (M s))).trans
    ((post_other_cov hij.symm (b :: l) (M s) (onComp P i (L r))).trans (cov_onComp_ne hij.symm (M s) (L r)))
  exact four_terms x1 x2 x3 (s2 (L r) (L s))

include hP hij in
lemma again_gram [Nontrivial ι] (e : Env) (he : e.CholOK) (b : Batch (P i)) (l : List (Batch (P i))) {n : ℕ}
    (L : Fin n → (P i).Λ) (M : Fin n → (P j).Λ) (Y : Fin n → ℝ) (hG : (jG (b :: l)).PosDef) (hN : NoisePSD (b :: l))
    (hM : (Matrix.of fun a a' => (P j).cov (M a) (M a')).PosDef) :
    (gram1 ((equationBatch P j i M L Y).again ((b :: l).map (Batch.onComp i)))).PosDef := by
  rw [again_gram_eq hP hij e he b l L M Y hG]
  exact hM.add_posSemidef (cov_psd (posterior_regular (hP i) hG hN) L)

include hP hij in
/-- C71: passing a message from `f_i` to `f_j`.  After measurements of `f_i` alone, conditioning `f_j` on the equation
`M f_j - L f_i = Y` with the current belief about `-(L f_i)` as noise succeeds, and its mean and covariance are those of the output
`j` of the joint process conditioned on the measurements and on the equation, which can be conditioned. -/
theorem message_passing [Nontrivial ι] (e : Env) (he : e.CholOK) (b : Batch (P i)) (l : List (Batch (P i))) {n : ℕ}
    (L : Fin n → (P i).Λ) (M : Fin n → (P j).Λ) (Y : Fin n → ℝ) (hG : (jG (b :: l)).PosDef)
    (hN : NoisePSD (b :: l)) (hM : (Matrix.of fun a a' => (P j).cov (M a) (M a')).PosDef) :
    ∃ c₀ S d c, run e b l = .ok c₀ ∧ c₀.functlCov e L = .ok S ∧ run e (messageBatch M (c₀.functlMean L) S Y) [] = .ok d ∧
      run e (b.onComp i) (l.map (Batch.onComp i) ++ [equationBatch P j i M L Y]) = .ok c ∧ (∀ x, d.mean x = c.mean (j, x)) ∧
      ∀ x y, d.covfunc e x y = c.covfunc e (j, x) (j, y) := by
  have hR := indep_regular hP
  obtain ⟨c₀, hc₀, -⟩ := run_posterior e he (hP i) b l hG
  obtain ⟨m1, v1⟩ := functl_posterior e he (hP i) b l hG c₀ hc₀ L
  have hG0 := onComp_posDef hP hG
  obtain ⟨s1, s2⟩ := post_same hP e he b l hG hG0
  set l' := (b :: l).map (Batch.onComp i) with hl'
  set q := equationBatch P j i M L Y with hq
  set S : Matrix (Fin n) (Fin n) ℝ := Matrix.of fun a b' => (posterior (P i) (b :: l)).cov (L a) (L b') with hS
  have c1 : ∀ (A : (P j).Λ) r, (posterior (indep P) l').cov (onComp P j A) (q.L r) = (P j).cov A (M r) := by
    intro A r
    rw [post_other_cov hij.symm]
    show (indep P).cov (onComp P j A) (onComp P j (M r) - onComp P i (L r)) = _
    refine (map_sub (onComp P j A).1 ((indep P).cross (onComp P j (M r))) ((indep P).cross (onComp P i (L r)))).trans ?_
    show (indep P).cov (onComp P j A) (onComp P j (M r)) - (indep P).cov (onComp P j A) (onComp P i (L r)) = _
    rw [cov_onComp, cov_onComp_ne hij.symm, sub_zero]
  have c2 : gram1 (q.again l') = gram1 (messageBatch M (c₀.functlMean L) S Y) := again_gram_eq hP hij e he b l L M Y hG
  have c3 : (gram1 (q.again l')).PosDef := again_gram hP hij e he b l L M Y hG hN hM
  have hG' : (jG (l' ++ [q])).PosDef := snoc_posDef hR hG0 c3
  have c4 : ∀ r : Fin n, (q.again l').Y r - ((q.again l').L r).1 (posterior (indep P) l').m - (q.again l').bMean r =
      Y r - (M r).1 (P j).m - -c₀.functlMean L r := by
    intro r
    have n1 : (q.again l').bMean = 0 := again_bMean l' q
    show Y r - ((onComp P j (M r)).1 (postMeanF l') - (onComp P i (L r)).1 (postMeanF l')) - (q.again l').bMean r = _
    rw [n1, m1]
    show Y r - ((onComp P j (M r)).1 (postMeanF l') - (onComp P i (L r)).1 (postMeanF l')) - (0 : ℝ) =
      Y r - (M r).1 (P j).m - -(L r).1 (postMeanF (b :: l))
    rw [post_other_mean hij.symm, s1]
    ring
  obtain ⟨d, hd, hd1, hd2⟩ := run_posterior e he (hP j) (messageBatch M (c₀.functlMean L) S Y) [] (single_posDef (c2 ▸ c3))
  obtain ⟨c, hc, hc1, hc2⟩ := run_posterior e he hR (b.onComp i) (l.map (Batch.onComp i) ++ [q]) hG'
  obtain ⟨-, p2, p3, -⟩ := posterior_of_posterior hR l' q hG'
  refine ⟨c₀, S, d, c, hc₀, v1, hd, hc, fun x => ?_, fun x y => ?_⟩
  · rw [hd1, hc1]
    refine Eq.trans ?_ (p2 (j, x))
    rw [← postMeanF_apply, ← postMeanF_apply]
    refine (single_mean (messageBatch M (c₀.functlMean L) S Y) ((hP j).ev x)).trans
      (Eq.trans ?_ (single_mean (q.again l') (hR.ev (j, x))).symm)
    exact mean_parts (n := n) (post_other_mean hij.symm (b :: l) ((hP j).ev x)) (funext fun r => c1 ((hP j).ev x) r) c2 (funext c4)
  · rw [hd2, hc2]
    refine congrArg Except.ok (Eq.trans ?_ (p3 (j, x) (j, y)))
    rw [← posterior_ev (hP j)]
    refine (single_cov (messageBatch M (c₀.functlMean L) S Y) ((hP j).ev x) ((hP j).ev y)).trans
      (Eq.trans ?_ ((single_cov (q.again l') (hR.ev (j, x)) (hR.ev (j, y))).symm.trans
        (posterior_cov (P := posterior (indep P) l') [q.again l'] (hR.ev (j, x)) (hR.ev (j, y)))))
    exact cov_parts (n := n) ((post_other_cov hij.symm (b :: l) ((hP j).ev x) (hR.ev (j, y))).trans (cov_onComp j ((hP j).ev x) ((hP j).ev y)))
      (funext fun r => c1 ((hP j).ev x) r) c2 (funext fun r => c1 ((hP j).ev y) r)
end

/-- Two independent white processes. -/
noncomputable abbrev twoWhite : Bool → Prior ℕ := fun _ => white ℕ

lemma twoWhite_regular : ∀ i, (twoWhite i).Regular := fun _ => white_regular ℕ

lemma white_ev_cov (p q : ℕ) : (white ℕ).cov ((white_regular ℕ).ev p) ((white_regular ℕ).ev q) = if p = q then 1 else 0 := by
  rw [cov_ev]
  rfl

/-- Non-vacuity: two measurements of `u`, then `f(0) - u(7) = 2` and `f(3) - u(0) = 5` tell something about `f`. -/
example (e : Env) (he : e.CholOK) := message_passing (P := twoWhite) twoWhite_regular (i := true) (j := false) (by decide) e he
  (exact1 0 3) [noisy1 1 5] ![(white_regular ℕ).ev 7, (white_regular ℕ).ev 0] ![(white_regular ℕ).ev 0, (white_regular ℕ).ev 3] ![2, 5]
  ex_posDef.1 ex_posDef.2 (by
    have : (Matrix.of fun a a' => (white ℕ).cov ((![(white_regular ℕ).ev 0, (white_regular ℕ).ev 3] : Fin 2 → (white ℕ).Λ) a)
        ((![(white_regular ℕ).ev 0, (white_regular ℕ).ev 3] : Fin 2 → (white ℕ).Λ) a')) = 1 := by
      ext a a'
      fin_cases a <;> fin_cases a' <;> simp [white_ev_cov]
    rw [this]
    exact Matrix.PosDef.one)

end LinPDE.GP
