import Verif.GP.TwoViews
import Verif.Solve.PoissonProps

/-! # C71: the inverse problem of `0003_poisson_1d_inverse_rhs.ipynb` -/

namespace LinPDE.Solve
open LinPDE.Domains LinPDE.Pde LinPDE.GP LinPDE.Block Matrix
open LinPDE.Matern (DOp OpAt)

variable {d : ℕ} {I I' : Set (Ix d)} {K K' : Ix d → Pt d → Ix d → Pt d → ℝ}

/-- The priors of cell 8: `true` is the solution `u`, `false` is the right-hand side `f`. -/
@[reducible] noncomputable def uf (hu : JetKernel I K) (mu : jetF I) (hf : JetKernel I' K') (mf : jetF I') : Bool → Prior (Pt d)
  | true => hu.prior mu
  | false => hf.prior mf

/-- The functionals `u ↦ (D u)(z)`. -/
noncomputable def opsAt (hu : JetKernel I K) (mu : jetF I) (a : I →₀ ℝ) (Z : List (Pt d)) (r : Fin Z.length) : (hu.prior mu).Λ := hu.op mu a (Z.get r)

/-- The functionals `f ↦ f(z)`. -/
noncomputable def valuesAt (hf : JetKernel I' K') (mf : jetF I') (Z : List (Pt d)) (r : Fin Z.length) : (hf.prior mf).Λ :=
  hf.op mf (Finsupp.single ⟨0, hf.zero_mem⟩ 1) (Z.get r)

/-- Cell 19, `u_post`: the equation with `b=-f_prior(Z)`. -/
noncomputable def uPost (e : Env) (hu : JetKernel I K) (mu : jetF I) (hf : JetKernel I' K') (mf : jetF I') (a : I →₀ ℝ) (o : Obs d)
    (os : List (Obs d)) (Z : List (Pt d)) : Except Block.Err (Cond (hu.prior mu)) :=
  run e (o.batch hu mu a) (os.map (Obs.batch hu mu a) ++ [noiseBatch (opsAt hu mu a Z) (valuesAt hf mf Z) 0])

/-- Cell 19, `f_post`: the belief about `D u` at `Z` given the measurements, as noise with the opposite sign. -/
noncomputable def fPost (e : Env) (hu : JetKernel I K) (mu : jetF I) (hf : JetKernel I' K') (mf : jetF I') (a : I →₀ ℝ) (o : Obs d)
    (os : List (Obs d)) (Z : List (Pt d)) : Except Block.Err (Cond (hf.prior mf)) := do
  let u ← solve e hu mu a o os
  let S ← u.functlCov e (opsAt hu mu a Z)
  run e (messageBatch (valuesAt hf mf Z) (u.functlMean (opsAt hu mu a Z)) S 0) []

/-- `u` and `f` together, given the measurements of `u` and `D u = f` at `Z`. -/
noncomputable def ufPost (e : Env) (hu : JetKernel I K) (mu : jetF I) (hf : JetKernel I' K') (mf : jetF I') (a : I →₀ ℝ) (o : Obs d)
    (os : List (Obs d)) (Z : List (Pt d)) : Except Block.Err (Cond (indep (uf hu mu hf mf))) :=
  run e ((o.batch hu mu a).onComp (P := uf hu mu hf mf) true) ((os.map (Obs.batch hu mu a)).map (Batch.onComp (P := uf hu mu hf mf) true) ++
    [equationBatch (uf hu mu hf mf) true false (opsAt hu mu a Z) (valuesAt hf mf Z) 0])

lemma obs_posDef (h : JetKernel I K) (hs : Strict I K) (m : jetF I) {a : I →₀ ℝ} (ha : Indep h a) {os : List (Obs d)}
    (hn : ∀ pde, (ptsOf pde os).Nodup) (hN : NoiseOK os) : (jG (os.map (Obs.batch h m a))).PosDef :=
  jG_posDef_of_cov _ ((ops_cov h hs m (fun i => jL_obs h m a os i)).mpr (obs_independent h m ha os hn)) (noisePSD_obs h m a hN)

lemma values_posDef (hf : JetKernel I' K') (hs : Strict I' K') (mf : jetF I') {Z : List (Pt d)} (hZ : Z.Nodup) :
    (Matrix.of fun r s => (hf.prior mf).cov (valuesAt hf mf Z r) (valuesAt hf mf Z s)).PosDef := by
  rw [gram_iff hf hs mf]
  have k := (op_independent hf hs mf (fun _ : Fin Z.length => (Finsupp.single ⟨0, hf.zero_mem⟩ 1 : I' →₀ ℝ)) fun r => Z.get r).mpr
    fun z => collocation_distinct (fun _ : Fin Z.length => (Finsupp.single ⟨0, hf.zero_mem⟩ 1 : I' →₀ ℝ)) (fun r => Z.get r)
      (fun _ => Finsupp.single_ne_zero.mpr one_ne_zero) (List.nodup_iff_injective_get.mp hZ) z
  intro g hg
  refine k g ?_
  rw [← hg]
  exact Finset.sum_congr rfl fun r _ => rfl

/-- C71: the inverse problem.  For every two processes with strict kernels, all measurements of values of `u` at distinct points
(exact or noisy) and of the operator, and all lists of distinct points `Z` for the equation `D u = f`, the three computations succeed, and
`u_post` and `f_post` are the two outputs of the process `(u, f)` conditioned on the measurements and on the equation at `Z`. -/
theorem inverse_rhs (hu : JetKernel I K) (hsu : Strict I K) (mu : jetF I) (hf : JetKernel I' K') (hsf : Strict I' K') (mf : jetF I')
    (e : Env) (he : e.CholOK) {a : I →₀ ℝ} (ha : Indep hu a) (o : Obs d) (os : List (Obs d)) (hn : ∀ pde, (ptsOf pde (o :: os)).Nodup)
    (hN : NoiseOK (o :: os)) (Z : List (Pt d)) (hZ : Z.Nodup) :
    ∃ u f c, uPost e hu mu hf mf a o os Z = .ok u ∧ fPost e hu mu hf mf a o os Z = .ok f ∧ ufPost e hu mu hf mf a o os Z = .ok c ∧
      (∀ x, u.mean x = c.mean (true, x) ∧ f.mean x = c.mean (false, x)) ∧
      ∀ x y, u.covfunc e x y = c.covfunc e (true, x) (true, y) ∧ f.covfunc e x y = c.covfunc e (false, x) (false, y) := by
  have hP : ∀ b, (uf hu mu hf mf b).Regular := fun b => by
    cases b
    · exact jet_regular hf mf
    · exact jet_regular hu mu
  obtain ⟨c₀, S, u, f, c, h1, h2, h3, h4, h5, k1, k2, k3, k4⟩ := two_views (P := uf hu mu hf mf) hP (i := true) (j := false) (by decide) e he
    (o.batch hu mu a) (os.map (Obs.batch hu mu a)) (opsAt hu mu a Z) (valuesAt hf mf Z) 0 (obs_posDef hu hsu mu ha hn hN)
    (noisePSD_obs hu mu a hN) (values_posDef hf hsf mf hZ)
  refine ⟨u, f, c, h3, ?_, h5, fun x => ⟨k1 x, k3 x⟩, fun x y => ⟨k2 x y, k4 x y⟩⟩
  have h1' : solve e hu mu a o os = .ok c₀ := h1
  have hz : (fun r : Fin Z.length => -(0 : Fin Z.length → ℝ) r) = 0 := funext fun r => neg_zero
  unfold fPost
  rw [h1']
  show (c₀.functlCov e (opsAt hu mu a Z) >>= _ : Except Block.Err _) = _
  have h2' : c₀.functlCov e (opsAt hu mu a Z) = .ok S := h2
  rw [h2']
  rw [hz] at h4
  exact h4

lemma equation_jets (hu : JetKernel I K) (mu : jetF I) (hf : JetKernel I' K') (mf : jetF I') {a : I →₀ ℝ} (Z : List (Pt d)) {u f : Pt d → ℝ}
    (g : jetF I) (w : jetF I') (hg : ∀ x, g.1 x = u x) (hw : ∀ x, w.1 x = f x)
    (h : ∀ r, (opsAt hu mu a Z r).1 g = (valuesAt hf mf Z r).1 w) : ∃ J, HasJet I u J ∧ ∀ z ∈ Z, (a.sum fun α t => t * J α z) = f z := by
  obtain rfl : g.1 = u := funext hg
  obtain rfl : w.1 = f := funext hw
  refine ⟨jet g, jet_spec g, fun z hz => ?_⟩
  obtain ⟨r, rfl⟩ := List.get_of_mem hz
  refine (op_apply hu mu a (Z.get r) g).symm.trans ((h r).trans ((op_apply hf mf _ (Z.get r) w).trans ?_))
  rw [Finsupp.sum_single_index (by simp), one_mul, (jet_spec w).zero]

/-- C71: the two posterior means satisfy the equation at the points `Z`, `D u = f`: the mean of `u` has all derivatives. -/
theorem inverse_rhs_equation (hu : JetKernel I K) (hsu : Strict I K) (mu : jetF I) (hf : JetKernel I' K') (hsf : Strict I' K') (mf : jetF I')
    (e : Env) (he : e.CholOK) {a : I →₀ ℝ} (ha : Indep hu a) (o : Obs d) (os : List (Obs d)) (hn : ∀ pde, (ptsOf pde (o :: os)).Nodup)
    (hN : NoiseOK (o :: os)) (Z : List (Pt d)) (hZ : Z.Nodup) (u : Cond (hu.prior mu)) (f : Cond (hf.prior mf))
    (h1 : uPost e hu mu hf mf a o os Z = .ok u) (h2 : fPost e hu mu hf mf a o os Z = .ok f) :
    ∃ J, HasJet I u.mean J ∧ ∀ z ∈ Z, (a.sum fun α t => t * J α z) = f.mean z := by
  have hP : ∀ b, (uf hu mu hf mf b).Regular := fun b => by
    cases b
    · exact jet_regular hf mf
    · exact jet_regular hu mu
  obtain ⟨u', f', c, k1, k2, k3, k4, -⟩ := inverse_rhs hu hsu mu hf hsf mf e he ha o os hn hN Z hZ
  obtain rfl : u = u' := Except.ok.inj (h1.symm.trans k1)
  obtain rfl : f = f' := Except.ok.inj (h2.symm.trans k2)
  obtain ⟨g, w, g1, g2, g3⟩ := two_views_equation (P := uf hu mu hf mf) hP (i := true) (j := false) (by decide) e he
    (o.batch hu mu a) (os.map (Obs.batch hu mu a)) (opsAt hu mu a Z) (valuesAt hf mf Z) 0 (obs_posDef hu hsu mu ha hn hN)
    (noisePSD_obs hu mu a hN) (values_posDef hf hsf mf hZ) c k3
  exact equation_jets hu mu hf mf Z (u := u.mean) (f := f.mean) g w (fun x => (g1 x).trans (k4 x).1.symm) (fun x => (g2 x).trans (k4 x).2.symm)
    fun r => sub_eq_zero.mp (g3 r)

/-- Non-vacuity, with the kernels of the notebook (cell 8): the boundary values, noisy measurements, and `-u'' = f` at three points; the
posterior means satisfy the equation there. -/
example (e : Env) (he : e.CholOK) (hu : JetKernel Set.univ (expK fun _ : Fin 1 => (1 / 2 : ℝ)))
    (hf : JetKernel Set.univ fun α x β y => 10 ^ 2 * expK (fun _ : Fin 1 => (1 / 4 : ℝ)) α x β y) :
    ∃ (u : Cond (hu.prior 0)) (f : Cond (hf.prior 0)),
      uPost e hu 0 hf 0 (coefs (poissonOp 1 1) (orders_univ _)) ⟨false, [![-1], ![1]], [1 / 2, 1 / 3], none⟩
        [⟨false, [![-1 / 2], ![0], ![1 / 2]], [1, 2, 1], some (1 / 100)⟩] [![-1 / 2], ![0], ![1]] = .ok u ∧
      fPost e hu 0 hf 0 (coefs (poissonOp 1 1) (orders_univ _)) ⟨false, [![-1], ![1]], [1 / 2, 1 / 3], none⟩
        [⟨false, [![-1 / 2], ![0], ![1 / 2]], [1, 2, 1], some (1 / 100)⟩] [![-1 / 2], ![0], ![1]] = .ok f ∧
      OpAt (poissonOp 1 1) u.mean ![0] (f.mean ![0]) := by
  have hsu := expquad_strict (l := fun _ : Fin 1 => (1 / 2 : ℝ)) fun _ => by norm_num
  have hsf := smul_strict (expquad_strict (l := fun _ : Fin 1 => (1 / 4 : ℝ)) fun _ => by norm_num) (by norm_num : (0 : ℝ) < 10 ^ 2)
  have ha := poisson_indep hu (α := 1) one_ne_zero one_ne_zero (orders_univ (poissonOp 1 1))
  have hn : ∀ pde, (ptsOf (d := 1) pde [⟨false, [![-1], ![1]], [1 / 2, 1 / 3], none⟩,
      ⟨false, [![-1 / 2], ![0], ![1 / 2]], [1, 2, 1], some (1 / 100)⟩]).Nodup := by
    intro pde
    cases pde <;> simp [ptsOf] <;> norm_num
  have hN : NoiseOK (d := 1) [⟨false, [![-1], ![1]], [1 / 2, 1 / 3], none⟩,
      ⟨false, [![-1 / 2], ![0], ![1 / 2]], [1, 2, 1], some (1 / 100)⟩] := by
    intro o ho v hv
    fin_cases ho
    · cases hv
    · cases hv
      norm_num
  have hZ : ([![-1 / 2], ![0], ![1]] : List (Pt 1)).Nodup := by
    simp
    norm_num
  obtain ⟨u, f, c, k1, k2, -⟩ := inverse_rhs hu hsu 0 hf hsf 0 e he ha _ _ hn hN _ hZ
  obtain ⟨J, hJ, hj⟩ := inverse_rhs_equation hu hsu 0 hf hsf 0 e he ha _ _ hn hN _ hZ u f k1 k2
  exact ⟨u, f, k1, k2, poisson_sum hu (orders_univ _) hJ _ (hj ![0] (by simp))⟩

/-- Such kernels exist. -/
example : JetKernel Set.univ (expK fun _ : Fin 1 => (1 / 2 : ℝ)) ∧ JetKernel Set.univ fun α x β y => 10 ^ 2 * expK (fun _ : Fin 1 => (1 / 4 : ℝ)) α x β y :=
  ⟨expquad_jet fun _ => by norm_num, smul_jet (expquad_jet fun _ => by norm_num) (by norm_num)⟩

end LinPDE.Solve
