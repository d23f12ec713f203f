import Verif.GP.MessageProps

/-! # C71: one equation between two processes, seen from both -/

namespace LinPDE.GP
open Matrix LinPDE.Block

variable {X ι : Type} [DecidableEq ι] {P : ι → Prior X}

lemma comp_mean (c : Core (indep P)) (i : ι) (x : X) : (c.comp i).mean x = c.mean (i, x) := rfl

lemma comp_covfunc (e : Env) (c : Core (indep P)) (i : ι) (x y : X) : (c.comp i).covfunc e x y = c.covfunc e (i, x) (i, y) := by
  have h : (indep P).k (i, x) (i, y) = (P i).k x y := by
    show (if i = i then (P i).k x y else 0) = _
    rw [if_pos rfl]
  unfold Core.covfunc
  rw [h]
  rfl

/-- An equation and its negative have the same posterior. -/
lemma neg_batch {Q : Prior X} (hQ : Q.Regular) (l : List (Batch Q)) {n : ℕ} (L L' : Fin n → Q.Λ) (Y Y' : Fin n → ℝ) (hL : ∀ a, L' a = -L a)
    (hY : ∀ a, Y' a = -Y a) (h1 : (jG (l ++ [⟨n, L, none, Y⟩])).PosDef) (h2 : (jG (l ++ [⟨n, L', none, Y'⟩])).PosDef) :
    (∀ x, postMean (l ++ [⟨n, L', none, Y'⟩]) x = postMean (l ++ [⟨n, L, none, Y⟩]) x) ∧
    ∀ x y, postCov (l ++ [⟨n, L', none, Y'⟩]) x y = postCov (l ++ [⟨n, L, none, Y⟩]) x y := by
  obtain rfl : Y' = fun a => -Y a := funext hY
  obtain rfl : L' = fun a => -L a := funext hL
  obtain ⟨-, m1, c1, -⟩ := posterior_of_posterior hQ _ _ h1
  obtain ⟨-, m2, c2, -⟩ := posterior_of_posterior hQ _ _ h2
  have k1 : ∀ A B : Q.Λ, (posterior Q l).cov A (-B) = -(posterior Q l).cov A B := fun A B =>
    map_neg A.1 ((posterior Q l).cross B)
  have k2 : ∀ A B : Q.Λ, (posterior Q l).cov (-A) B = -(posterior Q l).cov A B := fun A B => rfl
  have g : gram1 ((⟨n, fun a => -L a, none, fun a => -Y a⟩ : Batch Q).again l) = gram1 ((⟨n, L, none, Y⟩ : Batch Q).again l) := by
    ext r s
    show (posterior Q l).cov (-L r) (-L s) + 0 = (posterior Q l).cov (L r) (L s) + 0
    rw [k2, k1, neg_neg]
  have hneg : ∀ (u v : Fin n → ℝ) (G : Matrix (Fin n) (Fin n) ℝ), (fun r => -u r) ⬝ᵥ (G⁻¹ *ᵥ fun r => -v r) = u ⬝ᵥ (G⁻¹ *ᵥ v) := by
    intro u v G
    show (-u) ⬝ᵥ (G⁻¹ *ᵥ -v) = _
    rw [mulVec_neg, neg_dotProduct_neg]
  constructor
  · intro x
    rw [← m1, ← m2, ← postMeanF_apply, ← postMeanF_apply]
    refine (single_mean ((⟨n, fun a => -L a, none, fun a => -Y a⟩ : Batch Q).again l) (hQ.ev x)).trans
      (Eq.trans ?_ (single_mean ((⟨n, L, none, Y⟩ : Batch Q).again l) (hQ.ev x)).symm)
    have t1 : (fun r : Fin n => (posterior Q l).cov (hQ.ev x) (-L r)) = fun r => -(posterior Q l).cov (hQ.ev x) (L r) := funext fun r => k1 _ _
    have t2 : (fun r : Fin n => -Y r - (-L r : Q.Λ).1 (posterior Q l).m - 0) = fun r => -(Y r - (L r).1 (posterior Q l).m - 0) := funext fun r => by
      show -Y r - -(L r).1 (posterior Q l).m - 0 = _
      ring
    refine congrArg (fun z => (hQ.ev x).1 (posterior Q l).m + z) (Eq.trans ?_ (hneg (fun r => (posterior Q l).cov (hQ.ev x) (L r))
      (fun r => Y r - (L r).1 (posterior Q l).m - 0) (gram1 ((⟨n, L, none, Y⟩ : Batch Q).again l))))
    rw [← t1, ← t2, ← g]
    rfl
  · intro x y
    rw [← c1, ← c2]
    refine (posterior_cov (P := posterior Q l) [(⟨n, fun a => -L a, none, fun a => -Y a⟩ : Batch Q).again l] (hQ.ev x) (hQ.ev y)).symm.trans
      (Eq.trans ?_ (posterior_cov (P := posterior Q l) [(⟨n, L, none, Y⟩ : Batch Q).again l] (hQ.ev x) (hQ.ev y)))
    refine (single_cov ((⟨n, fun a => -L a, none, fun a => -Y a⟩ : Batch Q).again l) (hQ.ev x) (hQ.ev y)).trans
      (Eq.trans ?_ (single_cov ((⟨n, L, none, Y⟩ : Batch Q).again l) (hQ.ev x) (hQ.ev y)).symm)
    have t1 : ∀ x, (fun r : Fin n => (posterior Q l).cov (hQ.ev x) (-L r)) = fun r => -(posterior Q l).cov (hQ.ev x) (L r) :=
      fun x => funext fun r => k1 _ _
    refine congrArg (fun z => (posterior Q l).cov (hQ.ev x) (hQ.ev y) - z) (Eq.trans ?_ (hneg (fun r => (posterior Q l).cov (hQ.ev x) (L r))
      (fun r => (posterior Q l).cov (hQ.ev y) (L r)) (gram1 ((⟨n, L, none, Y⟩ : Batch Q).again l))))
    rw [← t1, ← t1, ← g]

lemma equation_posDef [Fintype ι] (hP : ∀ i, (P i).Regular) {i j : ι} (hij : i ≠ j) (e : Env) (he : e.CholOK) (b : Batch (P i))
    (l : List (Batch (P i))) {n : ℕ} (L : Fin n → (P i).Λ) (M : Fin n → (P j).Λ) (Y : Fin n → ℝ) (hG : (jG (b :: l)).PosDef)
    (hN : NoisePSD (b :: l)) (hM : (Matrix.of fun a a' => (P j).cov (M a) (M a')).PosDef) :
    (jG ((b :: l).map (Batch.onComp i) ++ [equationBatch P i j L M Y])).PosDef := by
  have : Nontrivial ι := ⟨i, j, hij⟩
  have hq : ∀ a, onComp P i (L a) - onComp P j (M a) = -(onComp P j (M a) - onComp P i (L a)) := fun a => by
    apply Subtype.ext
    ext f
    show (onComp P i (L a)).1 f - (onComp P j (M a)).1 f = -((onComp P j (M a)).1 f - (onComp P i (L a)).1 f)
    ring
  have hg : gram1 ((equationBatch P i j L M Y).again ((b :: l).map (Batch.onComp i))) =
      gram1 ((equationBatch P j i M L fun a => -Y a).again ((b :: l).map (Batch.onComp i))) := by
    ext r s
    have e1 : ∀ l' : List (Batch (indep P)), ∀ A B : (indep P).Λ, (posterior (indep P) l').cov (-A) (-B) = (posterior (indep P) l').cov A B := by
      intro l' A B
      show -(A.1 ((posterior (indep P) l').cross (-B))) = _
      exact neg_eq_iff_eq_neg.mpr (map_neg A.1 ((posterior (indep P) l').cross B))
    show (posterior (indep P) _).cov (onComp P i (L r) - onComp P j (M r)) (onComp P i (L s) - onComp P j (M s)) + 0 =
      (posterior (indep P) _).cov (onComp P j (M r) - onComp P i (L r)) (onComp P j (M s) - onComp P i (L s)) + 0
    exact congrArg (· + (0 : ℝ)) ((congrArg₂ (posterior (indep P) ((b :: l).map (Batch.onComp i))).cov (hq r) (hq s)).trans (e1 _ _ _))
  refine snoc_posDef (indep_regular hP) (onComp_posDef hP hG) ?_
  rw [hg]
  exact again_gram hP hij e he b l L M _ hG hN hM

/-- C71: one equation between two processes, seen from both.  After measurements of `f_i`, the equation `L f_i - M f_j = Y` is
used to condition `f_i` with `-(M f_j)` as noise, and to condition `f_j` with the belief about `-(L f_i)` as noise.  Both succeed,
and the two results are the two outputs of one conditioned process: the joint process given the measurements and the equation. -/
theorem two_views [Fintype ι] (hP : ∀ i, (P i).Regular) {i j : ι} (hij : i ≠ j) (e : Env) (he : e.CholOK) (b : Batch (P i))
    (l : List (Batch (P i))) {n : ℕ} (L : Fin n → (P i).Λ) (M : Fin n → (P j).Λ) (Y : Fin n → ℝ) (hG : (jG (b :: l)).PosDef)
    (hN : NoisePSD (b :: l)) (hM : (Matrix.of fun a a' => (P j).cov (M a) (M a')).PosDef) :
    ∃ c₀ S u f c, run e b l = .ok c₀ ∧ c₀.functlCov e L = .ok S ∧
      run e b (l ++ [noiseBatch L M Y]) = .ok u ∧
      run e (messageBatch M (c₀.functlMean L) S fun a => -Y a) [] = .ok f ∧
      run e (b.onComp i) (l.map (Batch.onComp i) ++ [equationBatch P i j L M Y]) = .ok c ∧
      (∀ x, u.mean x = c.mean (i, x)) ∧ (∀ x y, u.covfunc e x y = c.covfunc e (i, x) (i, y)) ∧
      (∀ x, f.mean x = c.mean (j, x)) ∧ ∀ x y, f.covfunc e x y = c.covfunc e (j, x) (j, y) := by
  have : Nontrivial ι := ⟨i, j, hij⟩
  have hR := indep_regular hP
  obtain ⟨c₀, S, f, d, h1, h2, h3, h4, h5, h6⟩ := message_passing hP hij e he b l L M (fun a => -Y a) hG hN hM
  have hq : ∀ a, onComp P i (L a) - onComp P j (M a) = -(onComp P j (M a) - onComp P i (L a)) := fun a => by
    apply Subtype.ext
    ext f
    show (onComp P i (L a)).1 f - (onComp P j (M a)).1 f = -((onComp P j (M a)).1 f - (onComp P i (L a)).1 f)
    ring
  have hG' := equation_posDef hP hij e he b l L M Y hG hN hM
  have hd' : (jG ((b :: l).map (Batch.onComp i) ++ [equationBatch P j i M L fun a => -Y a])).PosDef :=
    snoc_posDef hR (onComp_posDef hP hG) (again_gram hP hij e he b l L M _ hG hN hM)
  obtain ⟨c, hc, hc1, hc2⟩ := run_posterior e he hR (b.onComp i) (l.map (Batch.onComp i) ++ [equationBatch P i j L M Y]) hG'
  obtain ⟨d', hd0, hd1, hd2⟩ := run_posterior e he hR (b.onComp i) (l.map (Batch.onComp i) ++ [equationBatch P j i M L fun a => -Y a]) hd'
  obtain rfl : d = d' := Except.ok.inj (h4.symm.trans hd0)
  obtain ⟨n1, n2⟩ := neg_batch hR ((b :: l).map (Batch.onComp i)) (fun a => onComp P j (M a) - onComp P i (L a))
    (fun a => onComp P i (L a) - onComp P j (M a)) (fun a => -Y a) Y hq
    (fun a => (neg_neg (Y a)).symm) hd' hG'
  have hu := uncertain_rhs (P := P) hij e (.own b) (l.map .own ++ [.equation L M Y]) (by
    rw [← List.cons_append, ← List.map_cons, List.pairwise_append]
    refine ⟨?_, by simp, ?_⟩
    · rw [List.pairwise_map]
      exact List.pairwise_of_forall fun _ _ M hM => hM.elim
    · intro m hm m' _ M _ M' hM'
      obtain ⟨d, -, rfl⟩ := List.mem_map.mp hm
      exact hM'.elim)
  have hu : (run e (b.onComp i) (l.map (Batch.onComp i) ++ [equationBatch P i j L M Y])).map (fun c => c.toCore.comp i) =
      (run e b (l ++ [noiseBatch L M Y])).map Cond.toCore := by
    rw [List.map_append, List.map_append, List.map_map, List.map_map] at hu
    have e1 : l.map (Meas.alone ∘ (Meas.own : Batch (P i) → Meas P i j)) = l := List.map_id l
    rw [e1] at hu
    exact hu
  rw [hc] at hu
  cases hu0 : run e b (l ++ [noiseBatch L M Y]) with
  | error x =>
    rw [hu0] at hu
    cases hu
  | ok u =>
    rw [hu0] at hu
    have hu' : c.toCore.comp i = u.toCore := Except.ok.inj hu
    refine ⟨c₀, S, u, f, c, h1, h2, rfl, h3, hc, fun x => ?_, fun x y => ?_, fun x => ?_, fun x y => ?_⟩
    · show u.toCore.mean x = _
      rw [← hu', comp_mean]
    · show u.toCore.covfunc e x y = _
      rw [← hu', comp_covfunc]
    · rw [h5, hd1, hc1]
      exact (n1 (j, x)).symm
    · rw [h6, hd2, hc2]
      exact congrArg Except.ok (n2 (j, x) (j, y)).symm

/-- C71: the means of the two outputs satisfy the equation. -/
theorem two_views_equation [Fintype ι] (hP : ∀ i, (P i).Regular) {i j : ι} (hij : i ≠ j) (e : Env) (he : e.CholOK) (b : Batch (P i))
    (l : List (Batch (P i))) {n : ℕ} (L : Fin n → (P i).Λ) (M : Fin n → (P j).Λ) (Y : Fin n → ℝ) (hG : (jG (b :: l)).PosDef)
    (hN : NoisePSD (b :: l)) (hM : (Matrix.of fun a a' => (P j).cov (M a) (M a')).PosDef) (c : Cond (indep P))
    (hc : run e (b.onComp i) (l.map (Batch.onComp i) ++ [equationBatch P i j L M Y]) = .ok c) :
    ∃ (g : (P i).F) (h : (P j).F), (∀ x, g.1 x = c.mean (i, x)) ∧ (∀ x, h.1 x = c.mean (j, x)) ∧ ∀ r, (L r).1 g - (M r).1 h = Y r := by
  have hG' := equation_posDef hP hij e he b l L M Y hG hN hM
  have hR := indep_regular hP
  obtain ⟨c', r1, r2, -⟩ := run_posterior e he hR (b.onComp i) (l.map (Batch.onComp i) ++ [equationBatch P i j L M Y]) hG'
  obtain rfl : c = c' := Except.ok.inj (hc.symm.trans r1)
  obtain ⟨x1, -⟩ := exact_reproduced e he hR (b.onComp i) (l.map (Batch.onComp i) ++ [equationBatch P i j L M Y]) hG' c hc
    (equationBatch P i j L M Y) (by simp) rfl
  have x2 := (functl_posterior e he hR (b.onComp i) (l.map (Batch.onComp i) ++ [equationBatch P i j L M Y]) hG' c hc (equationBatch P i j L M Y).L).1
  set F := postMeanF ((b :: l).map (Batch.onComp i) ++ [equationBatch P i j L M Y]) with hF
  have hFv : ∀ p, F.1 p = c.mean p := fun p => by rw [hF, postMeanF_apply]; exact (r2 p).symm
  exact ⟨sel P i F, sel P j F, fun x => hFv (i, x), fun x => hFv (j, x), fun r => (x2 r).symm.trans (x1 r)⟩

/-- Non-vacuity. -/
example (e : Env) (he : e.CholOK) := two_views (P := twoWhite) twoWhite_regular (i := true) (j := false) (by decide) e he
  (exact1 0 3) [noisy1 1 5] ![(white_regular ℕ).ev 7, (white_regular ℕ).ev 0] ![(white_regular ℕ).ev 0, (white_regular ℕ).ev 3] ![2, 5]
  ex_posDef.1 ex_posDef.2 (by
    have : (Matrix.of fun a a' => (white ℕ).cov ((![(white_regular ℕ).ev 0, (white_regular ℕ).ev 3] : Fin 2 → (white ℕ).Λ) a)
        ((![(white_regular ℕ).ev 0, (white_regular ℕ).ev 3] : Fin 2 → (white ℕ).Λ) a')) = 1 := by
      ext a a'
      fin_cases a <;> fin_cases a' <;> simp [white_ev_cov]
    rw [this]
    exact Matrix.PosDef.one)

end LinPDE.GP
