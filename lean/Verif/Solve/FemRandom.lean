import Verif.Solve.FemProps
import Verif.GP.MeasGram

/-! # C70, C71: finite elements with measured boundary values and an uncertain right-hand side -/

namespace LinPDE.Solve
open LinPDE.Domains LinPDE.Pde LinPDE.GP LinPDE.Block LinPDE.Fem LinPDE.Galerkin Matrix MeasureTheory

variable {S : FemSystem} {l r α : ℝ} {n : ℕ} {g : ℝ → ℝ} {k kf : ℝ → ℝ → ℝ}

/-- `0002_poisson_dirichlet_gp_fem.ipynb`, cells 35-49: the belief about the right-hand side given the measurements `of`, its
projection as noise of the weak form (cells 43-44), measurements of the solution before (`ob`) and after (`os`). -/
noncomputable def randomFem (e : Env) (hF : Nonempty (Feature k)) (m : lbF) (hFf : Nonempty (Feature kf)) (mf : lbF) (S : FemSystem)
    (ob : FObs S.trial) (of : FObs S.test) (os : List (FObs S.trial)) : Except Block.Err (Cond (lbPrior hF m)) := do
  let f ← femSolve e hFf mf of []
  let V ← f.functlCov e (pcΛ S.test)
  femSolve e hF m ob (.rows _ S.A 0 (some (fun i => -f.functlMean (pcΛ S.test) i, V)) :: os)

/-- The solution and the right-hand side given its measurements, as two independent processes. -/
@[reducible] noncomputable def femPair (hF : Nonempty (Feature k)) (m : lbF) (hFf : Nonempty (Feature kf)) (mf : lbF) {Q : Proj}
    (of : FObs Q) : Bool → Prior ℝ
  | true => lbPrior hF m
  | false => posterior (lbPrior hFf mf) [of.batch hFf mf]

/-- Noise covariances are symmetric positive semidefinite. -/
def NoiseCovOK {n : ℕ} (z : Option ((Fin n → ℝ) × Matrix (Fin n) (Fin n) ℝ)) : Prop := ∀ w ∈ z, w.2.PosSemidef

lemma noiseCov_psd {X : Type} {Q : Prior X} (b : Batch Q) (h : NoiseCovOK b.noise) : b.noiseCov.PosSemidef := by
  obtain ⟨n, L, noise, Y⟩ := b
  cases noise with
  | none => exact Matrix.PosSemidef.zero
  | some w => exact h w rfl

/-- Evaluations at distinct points are independent. -/
lemma points_indep {ι : Type} [Fintype ι] {x : ι → ℝ} (hx : Function.Injective x) (g : ι → ℝ) (h0 : ∑ i, g i • evΛ (x i) = 0) (i : ι) : g i = 0 := by
  classical
  have hlb : LB fun y => if y = x i then (1 : ℝ) else 0 :=
    ⟨(measurable_one.ite (measurableSet_singleton _) measurable_zero).stronglyMeasurable, fun A B => ⟨1, fun y _ => by split_ifs <;> simp⟩⟩
  have := congrArg (fun L : lbΛ => L.1 ⟨_, hlb⟩) h0
  simp only [coe_sum_apply] at this
  simpa [evΛ_apply, hx.eq_iff] using this

lemma points_gram (hk : IStrict kf) (mf : lbF) {Q : Proj} {X : List ℝ} (hX : X.Nodup) (Y z) (hz : NoiseCovOK z) :
    (jG [FObs.batch (P := Q) hk.feature mf (.points X Y z)]).PosDef ∧ NoisePSD [FObs.batch (P := Q) hk.feature mf (.points X Y z)] := by
  have hN : NoisePSD [FObs.batch (P := Q) hk.feature mf (.points X Y z)] := by
    intro b hb
    rw [List.mem_singleton] at hb
    subst hb
    exact noiseCov_psd _ hz
  refine ⟨jG_posDef_of_cov _ ?_ hN, hN⟩
  rw [lb_gram_iff hk]
  intro γ h0 a
  have key := points_indep (List.nodup_iff_injective_get.mp hX) (fun i => γ ⟨0, i⟩) (by
    rw [← h0, Fintype.sum_sigma]
    exact (Fin.sum_univ_one (M := lbΛ) fun p : Fin 1 => ∑ i, γ ⟨p, i⟩ • jL [FObs.batch (P := Q) hk.feature mf (.points X Y z)] ⟨p, i⟩).symm)
  obtain ⟨p, i⟩ := a
  match p with
  | 0 => exact key i

lemma IsSys.random_gram (h : IsSys S l r α n g) (hlr : l < r) (hα : α ≠ 0) (hk : IStrict k) (m : lbF) {xb xu : List ℝ}
    (hx : (xb ++ xu).Nodup) (yb zb yu zu) (hb : NoiseCovOK zb) (hu : NoiseCovOK zu) (y z) (hz : NoiseCovOK z) :
    (jG [FObs.batch (P := S.trial) hk.feature m (.points xb yb zb), FObs.batch (P := S.trial) hk.feature m (.rows _ S.A y z),
      FObs.batch (P := S.trial) hk.feature m (.points xu yu zu)]).PosDef := by
  refine jG_posDef_of_cov _ ?_ ?_
  · rw [lb_gram_iff hk]
    intro γ h0 a
    rw [List.nodup_append] at hx
    obtain ⟨x1, x2, x3⟩ := hx
    have hinj : Function.Injective (Sum.elim (fun i => xb.get i) fun i => xu.get i) := by
      rintro (i | i) (j | j) hij
      · exact congrArg _ (List.nodup_iff_injective_get.mp x1 hij)
      · exact absurd hij (x3 _ (List.get_mem _ _) _ (List.get_mem _ _))
      · exact absurd hij.symm (x3 _ (List.get_mem _ _) _ (List.get_mem _ _))
      · exact congrArg _ (List.nodup_iff_injective_get.mp x2 hij)
    have key := indep_points_rows (h.goodTrial hlr) h.tn hinj (h.rows hlr hα)
      (Sum.elim (Sum.elim (fun i => γ ⟨0, i⟩) fun i => γ ⟨2, i⟩) (fun i => γ ⟨1, i⟩)) (by
        rw [Fintype.sum_sum_type, Fintype.sum_sum_type, ← h0, Fintype.sum_sigma]
        refine Eq.trans ?_ (Fin.sum_univ_three (M := lbΛ) _).symm
        exact add_right_comm (G := lbΛ) _ _ _)
    obtain ⟨p, i⟩ := a
    match p with
    | 0 => exact key (.inl (.inl i))
    | 1 => exact key (.inr i)
    | 2 => exact key (.inl (.inr i))
  · intro b hb'
    simp only [List.mem_cons, List.not_mem_nil, or_false] at hb'
    rcases hb' with rfl | rfl | rfl
    · exact noiseCov_psd _ hb
    · exact noiseCov_psd _ hz
    · exact noiseCov_psd _ hu

/-- C70, C71: the second half of `0002_poisson_dirichlet_gp_fem.ipynb`.  For all distinct measurement points of the solution and of the
right-hand side and all noise covariances, the computation succeeds.  Its result is the output `u` of the pair of the solution and the
right-hand side given its measurements, conditioned on the measurements and on the weak form of the equation; and the two means of
the pair satisfy the weak form. -/
theorem gp_fem_random_rhs (e : Env) (he : e.CholOK) (hlr : l < r) (hα : α ≠ 0) {q : Fn} (hq : q.inS = []) (hg : ∀ x, q.ev [x] = [g x])
    {o : OpShapes} {bcs : List BC} {s : Option Fn}
    (hS : femSystem ⟨⟨.interval l r, o, q⟩, bcs, s⟩ (poissonWOp α (.interval l r)) n = .ok S) (hk : IStrict k) (m : lbF) (hkf : IStrict kf)
    (mf : lbF) {xb xu xf : List ℝ} (hx : (xb ++ xu).Nodup) (hxf : xf.Nodup) (yb zb yu zu yf zf) (hb : NoiseCovOK zb) (hu : NoiseCovOK zu)
    (hf : NoiseCovOK zf) :
    ∃ u c, randomFem e hk.feature m hkf.feature mf S (.points xb yb zb) (.points xf yf zf) [.points xu yu zu] = .ok u ∧
      run e ((FObs.batch (P := S.trial) hk.feature m (.points xb yb zb)).onComp (P := femPair hk.feature m hkf.feature mf (Q := S.test) (.points xf yf zf)) true)
        [equationBatch (femPair hk.feature m hkf.feature mf (Q := S.test) (.points xf yf zf)) true false
          (fun i : Fin S.test.basis.len => ∑ j, S.A i j • pcΛ S.trial j) (pcΛ S.test) 0,
        (FObs.batch (P := S.trial) hk.feature m (.points xu yu zu)).onComp (P := femPair hk.feature m hkf.feature mf (Q := S.test) (.points xf yf zf)) true] = .ok c ∧
      (∀ x, u.mean x = c.mean (true, x)) ∧ (∀ x y, u.covfunc e x y = c.covfunc e (true, x) (true, y)) ∧
      ∀ i : Fin S.test.basis.len, ∑ j : Fin S.trial.basis.len, (α * ∫ x, deriv (fun x => (S.test.basis.evaluate x).getD i.val 0) x *
        deriv (fun x => (S.trial.basis.evaluate x).getD j.val 0) x) * u.functlMean (pcΛ S.trial) j =
          ∫ x, (S.test.basis.evaluate x).getD i.val 0 * c.mean (false, x) := by
  have h := isSys_of_ok hlr hq hg hS
  obtain ⟨f1, f2⟩ := points_gram hkf mf (Q := S.test) hxf yf zf hf
  obtain ⟨c₀, hc₀, -⟩ := run_posterior e he (lb_regular hkf.feature mf) _ [] f1
  obtain ⟨m1, v1⟩ := functl_posterior e he (lb_regular hkf.feature mf) _ [] f1 c₀ hc₀ (pcΛ S.test)
  have hR := posterior_regular (lb_regular hkf.feature mf) f1 f2
  have hP : ∀ b, (femPair hk.feature m hkf.feature mf (Q := S.test) (.points xf yf zf) b).Regular := fun b => by
    cases b
    · exact hR
    · exact lb_regular hk.feature m
  have hN : (fun i => -c₀.functlMean (pcΛ S.test) i) = fun i => -(pcΛ S.test i).1 (postMeanF [FObs.batch (P := S.test) hkf.feature mf (.points xf yf zf)]) :=
    funext fun i => congrArg Neg.neg (m1 i)
  have hV : NoiseCovOK (some (fun i => -c₀.functlMean (pcΛ S.test) i, Matrix.of fun i j =>
      (posterior (lbPrior hkf.feature mf) [FObs.batch (P := S.test) hkf.feature mf (.points xf yf zf)]).cov (pcΛ S.test i) (pcΛ S.test j))) := by
    intro w hw
    cases hw
    exact cov_psd hR _
  rw [hN] at hV
  have hG := h.random_gram hlr hα hk m hx yb zb yu zu hb hu 0 _ hV
  obtain ⟨u, c, r1, r2, r3, r4, g', h', g1, g2, g3, g4⟩ := random_rhs_means (P := femPair hk.feature m hkf.feature mf (Q := S.test) (.points xf yf zf)) hP
    (i := true) (j := false) (by decide) e he (.own (FObs.batch (P := S.trial) hk.feature m (.points xb yb zb)))
    [.equation (fun i : Fin S.test.basis.len => ∑ j, S.A i j • pcΛ S.trial j) (pcΛ S.test) 0, .own (FObs.batch (P := S.trial) hk.feature m (.points xu yu zu))]
    (by
      simp only [List.pairwise_cons, List.mem_cons, List.not_mem_nil, or_false, List.mem_singleton, forall_eq_or_imp, forall_eq, false_implies,
        implies_true, List.Pairwise.nil, and_true]
      exact ⟨⟨fun _ _ _ h => h.elim, fun _ h => h.elim⟩, fun _ h => h.elim⟩) hG
  refine ⟨u, c, ?_, r2, r3, r4, fun i => ?_⟩
  · unfold randomFem
    have hc₀' : femSolve e hkf.feature mf (.points xf yf zf : FObs S.test) [] = .ok c₀ := hc₀
    rw [hc₀']
    show (c₀.functlCov e (pcΛ S.test) >>= _ : Except Block.Err _) = _
    rw [v1]
    rw [hN]
    exact r1
  · have e1 := sub_eq_zero.mp (g4 _ _ _ _ (List.mem_cons_of_mem _ (List.mem_cons_self ..)) i)
    have e2 : (∑ j, S.A i j • pcΛ S.trial j : lbΛ).1 g' = ∑ j, S.A i j * (pcΛ S.trial j).1 g' := coe_sum_apply Finset.univ (fun j => S.A i j) (pcΛ S.trial) g'
    have e3 : (pcΛ S.test i).1 h' = ∫ x, (S.test.basis.evaluate x).getD i.val 0 * c.mean (false, x) := by
      refine (pcΛ_apply (h.goodTest hlr) i h').trans ?_
      rw [(projectFunction_eq (h.goodTest hlr) h'.1).2, h.sn, (normalizer_inverse (linspace_pairwise hlr n) h.test).2.2]
      simp only [Matrix.one_apply, ite_mul, one_mul, zero_mul, Finset.sum_ite_eq, Finset.mem_univ, if_true]
      exact integral_congr_ae (.of_forall fun x => by simp only [g2]; rfl)
    refine Eq.trans (Finset.sum_congr rfl fun j _ => ?_) (e2.symm.trans (e1.trans e3))
    rw [h.entry hlr, g3]

/-- Non-vacuity: noisy boundary values, noisy measurements of the solution at one point, of the right-hand side at two. -/
example (e : Env) (he : e.CholOK) : ∃ (S : FemSystem) (hu : IStrict (matern32K 0.7)) (hf : IStrict (matern32K 0.5))
    (u : Cond (lbPrior hu.feature 0)), femSystem ⟨⟨.interval (-1) 1, ⟨[], [], [], []⟩, .const [] [] [2]⟩, [], none⟩ (poissonWOp 1 (.interval (-1) 1)) 5 = .ok S ∧
      randomFem e hu.feature 0 hf.feature 0 S (.points [-1, 1] ![0, 1] (some (0, 1))) (.points [-1 / 2, 1 / 2] ![2, 3] (some (0, 1)))
        [.points [0] ![1] (some (1, 1))] = .ok u := by
  have hu := istrict_matern32 (l := 0.7) (by norm_num)
  have hf := istrict_matern32 (l := 0.5) (by norm_num)
  obtain ⟨S, hS, -⟩ := (fem_system (l := -1) (r := 1) (by norm_num) 1 (q := .const [] [] [2]) rfl (g := fun _ => 2)
    (fun _ => rfl) ⟨[], [], [], []⟩ [] none 5).2 (by omega)
  have hN : ∀ {n : ℕ} (v : Fin n → ℝ), NoiseCovOK (some (v, (1 : Matrix (Fin n) (Fin n) ℝ))) := fun v w hw => by
    cases hw
    exact Matrix.PosSemidef.one
  obtain ⟨u, c, h, -⟩ := gp_fem_random_rhs e he (l := -1) (r := 1) (by norm_num) one_ne_zero (q := .const [] [] [2]) rfl
    (g := fun _ => 2) (fun _ => rfl) hS hu 0 hf 0 (xb := [-1, 1]) (xu := [0]) (xf := [-1 / 2, 1 / 2]) (by norm_num) (by norm_num)
    ![0, 1] (some (0, 1)) ![1] (some (1, 1)) ![2, 3] (some (0, 1)) (hN _) (hN _) (hN _)
  exact ⟨S, hu, hf, u, hS, h⟩

end LinPDE.Solve
