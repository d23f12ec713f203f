import Verif.Solve.FemSolve
import Verif.Pde.PiecewiseProps
import Verif.Piecewise.IntegralProps

/-! # C70: the Poisson equation with finite elements, from the problem to the posterior -/

namespace LinPDE.Solve
open LinPDE.Domains LinPDE.Pde LinPDE.GP LinPDE.Block LinPDE.Fem LinPDE.Galerkin Matrix MeasureTheory

/-- The Galerkin equations of `-α u'' = g` with boundary values: `u 0 = ul`, `u (n + 1) = ur`, and for every test function
`∑ j, (α ∫ phi_i' psi_j') u j = ∫ phi_i g`. -/
def IsGalerkin (α ul ur : ℝ) (g : ℝ → ℝ) (n : ℕ) (test trial : Basis) (u : ℕ → ℝ) : Prop :=
  u 0 = ul ∧ u (n + 1) = ur ∧ ∀ i < n, ∑ j ∈ Finset.range (n + 2), (α * ∫ x, deriv (fun x => (test.evaluate x).getD i 0) x *
    deriv (fun x => (trial.evaluate x).getD j 0) x) * u j = ∫ x, (test.evaluate x).getD i 0 * g x

variable {S : FemSystem} {l r α : ℝ} {n : ℕ} {g : ℝ → ℝ} {k : ℝ → ℝ → ℝ}

lemma IsSys.entry (h : IsSys S l r α n g) (hlr : l < r) (i j) : S.A i j =
    α * ∫ x, deriv (fun x => (S.test.basis.evaluate x).getD i 0) x * deriv (fun x => (S.trial.basis.evaluate x).getD j 0) x := by
  obtain ⟨A, hA, hAS⟩ := h.A
  obtain ⟨A', hA', hE⟩ := weak_laplacian_partial (linspace_pairwise hlr n) h.test h.trial ((r - l) / ((n : ℝ) + 1)) (by
    intro c hc
    rw [linspace_length] at hc
    rw [linspace_getD (by omega), linspace_getD (by omega)]
    push_cast
    ring)
  obtain rfl : A = A' := Except.ok.inj (hA.symm.trans hA')
  rw [hAS, Matrix.smul_apply, hE, stiffness, smul_eq_mul]
  ring

lemma IsSys.galerkin_iff (h : IsSys S l r α n g) (hlr : l < r) {ul ur : ℝ} (u : ℕ → ℝ) :
    IsGalerkin α ul ur g n S.test.basis S.trial.basis u ↔ IsFem S ul ur fun j => u j := by
  obtain ⟨-, e1, e2⟩ := h.lens
  obtain ⟨a, b⟩ := endRows_row e2 u
  have key : ∀ i : Fin S.test.basis.len, ∑ j ∈ Finset.range (n + 2), (α * ∫ x, deriv (fun x => (S.test.basis.evaluate x).getD i 0) x *
      deriv (fun x => (S.trial.basis.evaluate x).getD j 0) x) * u j = ∑ j, S.A i j * u j := by
    intro i
    rw [← e2, Finset.sum_range]
    exact Finset.sum_congr rfl fun j _ => by rw [h.entry hlr]
  constructor
  · rintro ⟨h0, h1, h2⟩
    refine ⟨a.trans h0, b.trans h1, fun i => ?_⟩
    rw [h.b, ← key]
    exact h2 i (by omega)
  · rintro ⟨h0, h1, h2⟩
    refine ⟨a.symm.trans h0, b.symm.trans h1, fun i hi => ?_⟩
    have := h2 ⟨i, by omega⟩
    rw [h.b, ← key] at this
    exact this

/-- C70: the linear system of the notebooks.  With one interior node or more the bases, the weak form and the projection of
the right-hand side can be computed; the matrix has the entries `α ∫ phi_i' psi_j'` and the vector `∫ phi_i g`.  Without
interior node the basis constructor raises `ValueError`. -/
theorem fem_system {l r : ℝ} (hlr : l < r) (α : ℝ) {q : Fn} (hq : q.inS = []) {g : ℝ → ℝ} (hg : ∀ x, q.ev [x] = [g x])
    (o : OpShapes) (bcs : List BC) (s : Option Fn) (n : ℕ) :
    (n = 0 → femSystem ⟨⟨.interval l r, o, q⟩, bcs, s⟩ (poissonWOp α (.interval l r)) n = .error (.fem .valueError)) ∧
    (n ≠ 0 → ∃ S, femSystem ⟨⟨.interval l r, o, q⟩, bcs, s⟩ (poissonWOp α (.interval l r)) n = .ok S ∧
      S.trial.basis.len = n + 2 ∧ S.test.basis.len = n ∧ ∀ i,
      (∀ j, S.A i j = α * ∫ x, deriv (fun x => (S.test.basis.evaluate x).getD i 0) x *
        deriv (fun x => (S.trial.basis.evaluate x).getD j 0) x) ∧
      S.b i = ∫ x, (S.test.basis.evaluate x).getD i 0 * g x) := by
  constructor
  · rintro rfl
    have h1 := (basis_constructs (linspace l r (0 + 2)) false).2 (by rw [linspace_length]; omega)
    simp only [femSystem, h1, liftFem, bind, Except.bind]
  · intro hn
    obtain ⟨S, hS, h⟩ := femSystem_ok hlr hn α hq hg o bcs s
    obtain ⟨-, e1, e2⟩ := h.lens
    exact ⟨S, hS, e2, e1, fun i => ⟨h.entry hlr i, h.b i⟩⟩

/-- Non-vacuity: the interval and number of elements of the notebook. -/
example : ∃ S, femSystem ⟨⟨.interval (-1) 1, ⟨[], [], [], []⟩, .const [] [] [2]⟩, [], none⟩ (poissonWOp 1 (.interval (-1) 1)) 3 = .ok S ∧
    S.trial.basis.len = 5 := by
  obtain ⟨S, h, h', -⟩ := (fem_system (l := -1) (r := 1) (by norm_num) 1 (q := .const [] [] [2]) rfl (g := fun _ => 2)
    (fun _ => rfl) ⟨[], [], [], []⟩ [] none 3).2 (by omega)
  exact ⟨S, h, h'⟩

/-- C70: which weak forms exist.  Scalar multiples pass through; the Laplacian does not look at its domain; the other operators
raise `NotImplementedError`; a test basis without zero boundary fails an assertion. -/
theorem weak_form_outcomes (test trial : Basis) (c : ℝ) (d d' : Nd.Shp) :
    (WOp.laplacian d).weakForm test trial = (WOp.laplacian d').weakForm test trial ∧
    WOp.other.weakForm test trial = .error (.fem .notImplementedError) ∧
    (WOp.scaled c .other).weakForm test trial = .error (.fem .notImplementedError) ∧
    (test.zeroBoundary = false → (WOp.scaled c (.laplacian d)).weakForm test trial = .error (.fem .assertionError)) ∧
    ∀ A, weakLaplacian test trial = .ok A → (WOp.scaled c (.laplacian d)).weakForm test trial = .ok (c • A) := by
  refine ⟨rfl, rfl, rfl, fun h => ?_, fun A hA => ?_⟩
  · have := (weak_laplacian_dispatch test trial).1 h
    simp only [WOp.weakForm, this, liftFem, bind, Except.bind]
  · simp only [WOp.weakForm, hA, liftFem, bind, Except.bind]

/-- What `femSystem` computes is known from its outcome. -/
lemma isSys_of_ok (hlr : l < r) {q : Fn} (hq : q.inS = []) (hg : ∀ x, q.ev [x] = [g x]) {o : OpShapes} {bcs : List BC} {s : Option Fn}
    (hS : femSystem ⟨⟨.interval l r, o, q⟩, bcs, s⟩ (poissonWOp α (.interval l r)) n = .ok S) : IsSys S l r α n g := by
  have hn : n ≠ 0 := by
    rintro rfl
    rw [(fem_system hlr α hq hg o bcs s 0).1 rfl] at hS
    cases hS
  obtain ⟨S', hS', h⟩ := femSystem_ok hlr hn α hq hg o bcs s
  obtain rfl : S = S' := Except.ok.inj (hS.symm.trans hS')
  exact h

lemma cov_sum_left {X : Type} {Q : Prior X} {ι : Type} [Fintype ι] (v : ι → ℝ) (L : ι → Q.Λ) (M : Q.Λ) :
    Q.cov (∑ a, v a • L a) M = ∑ a, v a * Q.cov (L a) M := by
  rw [← covBil_apply, map_sum, LinearMap.sum_apply]
  exact Finset.sum_congr rfl fun a _ => by rw [map_smul, LinearMap.smul_apply, smul_eq_mul, covBil_apply]

/-- C70: `0002_poisson_dirichlet_fem.ipynb`.  The prior has mean zero and the Galerkin covariance function of the trial
projection.  Conditioning on the boundary values, on the boundary values of the projection and on the weak form runs
through.  The posterior mean is, everywhere, the finite element function whose coefficients are the only solution of the
Galerkin equations, and the coefficients of the projection are known exactly. -/
theorem fem_solved (e : Env) (he : e.CholOK) (hlr : l < r) (hα : α ≠ 0) {q : Fn} (hq : q.inS = []) (hg : ∀ x, q.ev [x] = [g x])
    {o : OpShapes} {bcs : List BC} {s : Option Fn} (ul ur : ℝ)
    (hS : femSystem ⟨⟨.interval l r, o, q⟩, bcs, s⟩ (poissonWOp α (.interval l r)) n = .ok S)
    {K0 G : K} (hK : Valid K0) (hO : SameObj S.trial K0) {κ : ℝ → ℝ → ℝ} (hκ : ∀ x y, K0.eval x y = .ok (κ x y)) (hs : IStrict κ)
    (hG : mkGalerkin K0 S.trial = .ok G) :
    ∃ γ, (∀ x y, G.eval x y = .ok (γ x y)) ∧ ∃ (hF : Nonempty (Feature γ)) (c : Cond (lbPrior hF 0)),
      femSolve e hF 0 (femObs S [l, r] [[ul], [ur]]).1 (femObs S [l, r] [[ul], [ur]]).2 = .ok c ∧
      ∃ u, IsGalerkin α ul ur g n S.test.basis S.trial.basis u ∧
        (∀ v, IsGalerkin α ul ur g n S.test.basis S.trial.basis v → ∀ j ≤ n + 1, v j = u j) ∧
        (∀ x, c.mean x = ∑ j ∈ Finset.range (n + 2), u j * (S.trial.basis.evaluate x).getD j 0) ∧
        (∀ i, c.functlMean (pcΛ S.trial) i = u i) ∧ c.functlCov e (pcΛ S.trial) = .ok 0 := by
  have h := isSys_of_ok hlr hq hg hS
  have hP := h.goodTrial hlr
  have hV := mkGalerkin_valid hK hP hO hG
  have hd : G.den = spec S.trial κ := by
    obtain ⟨c, C, h1, h2, rfl⟩ := mkGalerkin_ok hG
    rw [K.den, den_of_eval hK hκ]
  refine ⟨spec S.trial κ, fun x y => ?_, (hs.galerkin hP).feature, ?_⟩
  · rw [(sound G hV).eval, hd]
  obtain ⟨-, e1, e2⟩ := h.lens
  obtain ⟨u, hu⟩ := h.exists_fem hlr hα ul ur
  have hgram := h.fem_gram hlr hα (hs.galerkin hP) 0 [[ul], [ur]]
  have hreg := lb_regular (hs.galerkin hP).feature 0
  obtain ⟨c, hc, hm, -⟩ := run_posterior e he hreg _ _ hgram
  have hmean := h.fem_mean hlr hα hs hu
  obtain ⟨f1, f2⟩ := functl_posterior e he hreg _ _ hgram c hc (pcΛ S.trial)
  have hext : (fun j : Fin S.trial.basis.len => ext u j) = u := funext fun j => ext_val u j
  refine ⟨c, hc, ext u, (h.galerkin_iff hlr _).mpr (by rw [hext]; exact hu), fun v hv j hj => ?_, fun x => ?_, fun i => ?_, ?_⟩
  · have hv' := (h.galerkin_iff hlr _).mp hv
    have := congrFun (h.fem_unique hlr hα hv' hu) ⟨j, by omega⟩
    rw [show ext u j = ext u (⟨j, by omega⟩ : Fin S.trial.basis.len) from rfl, ext_val]
    exact this
  · rw [hm, ← postMeanF_apply, ← e2]
    exact (congrArg (fun f : lbF => f.1 x) hmean).trans (fe_eq hP u x)
  · rw [f1, ext_val]
    refine Eq.trans (congrArg (fun f : lbF => (pcΛ S.trial i).1 f) hmean) ?_
    exact pc_fe hP h.tn u i
  · rw [f2]
    congr 1
    ext i j
    rw [Matrix.of_apply, Matrix.zero_apply]
    have hcard : Fintype.card (Fin 2 ⊕ Fin S.test.basis.len) = S.trial.basis.len := by
      have := h.len2
      simp
      omega
    obtain ⟨v, hv⟩ := rows_span (h.full hlr hα) hcard (Pi.single i 1)
    have hvi : pcΛ S.trial i = ∑ a, v a • ∑ j, (Sum.elim (bcRows S.trial) S.A) a j • pcΛ S.trial j := by
      rw [← hv, Finset.sum_eq_single i]
      · simp
      · intro j _ hj
        rw [Pi.single_eq_of_ne hj, zero_smul]
      · simp
    rw [hvi]
    refine (cov_sum_left (Q := posterior _ _) v _ _).trans (Finset.sum_eq_zero fun a _ => mul_eq_zero_of_right _ ?_)
    rcases a with a | a
    · exact (exact_row hreg hgram (d := FObs.batch _ 0 (.rows 2 (bcRows S.trial) (fun i => ([[ul], [ur]].flatten).getD i 0) none))
        (by simp [femObs]) rfl a).2 _
    · exact (exact_row hreg hgram (d := FObs.batch _ 0 S.equation) (by simp [femObs]) rfl a).2 _

/-- C70: the posterior mean of `0002_poisson_dirichlet_fem.ipynb` agrees with the exact solution at the nodes and is linear
between them. -/
theorem fem_nodal_exact (e : Env) (he : e.CholOK) (hlr : l < r) (hα : α ≠ 0) {q : Fn} (hq : q.inS = []) (hg : ∀ x, q.ev [x] = [g x])
    {o : OpShapes} {bcs : List BC} {s : Option Fn} {ul ur : ℝ}
    (hS : femSystem ⟨⟨.interval l r, o, q⟩, bcs, s⟩ (poissonWOp α (.interval l r)) n = .ok S)
    {K0 G : K} (hK : Valid K0) (hO : SameObj S.trial K0) {κ : ℝ → ℝ → ℝ} (hκ : ∀ x y, K0.eval x y = .ok (κ x y)) (hs : IStrict κ)
    (hG : mkGalerkin K0 S.trial = .ok G) (hi : IntervalIntegrable g volume l r) {u : ℝ → ℝ} (hu : IsExact α l r ul ur g u) :
    ∃ γ, (∀ x y, G.eval x y = .ok (γ x y)) ∧ ∃ (hF : Nonempty (Feature γ)) (c : Cond (lbPrior hF 0)),
      femSolve e hF 0 (femObs S [l, r] [[ul], [ur]]).1 (femObs S [l, r] [[ul], [ur]]).2 = .ok c ∧
      (∀ j ≤ n + 1, c.mean (l + j * ((r - l) / ((n : ℝ) + 1))) = u (l + j * ((r - l) / ((n : ℝ) + 1)))) ∧
      ∀ j ≤ n, ∀ t ∈ Set.Icc (0 : ℝ) 1, c.mean (l + (j + t) * ((r - l) / ((n : ℝ) + 1))) =
        (1 - t) * u (l + j * ((r - l) / ((n : ℝ) + 1))) + t * u (l + (j + 1) * ((r - l) / ((n : ℝ) + 1))) := by
  obtain ⟨γ, hγ, hF, c, hc, v, -, hv, hm, -⟩ := fem_solved e he hlr hα hq hg ul ur hS hK hO hκ hs hG
  have h := isSys_of_ok hlr hq hg hS
  obtain ⟨-, e1, e2⟩ := h.lens
  have hex := hv (fun j => u (l + (j : ℝ) * ((r - l) / ((n : ℝ) + 1)))) ((h.galerkin_iff hlr _).mpr (h.exact_fem hlr hα hi hu))
  have hst : 0 < (r - l) / ((n : ℝ) + 1) := div_pos (by linarith) (by positivity)
  have hmean : ∀ x, c.mean x = (feF (h.goodTrial hlr) fun j => v j).1 x := by
    intro x
    rw [hm, fe_eq, ← e2]
    refine Finset.sum_congr rfl fun j hj => ?_
    rw [show ext (fun j : Fin S.trial.basis.len => v j) j = v j by
      rw [ext, dif_pos (Finset.mem_range.mp hj)]]
  have hext : ∀ j ≤ n + 1, ext (fun j : Fin S.trial.basis.len => v j) j = u (l + (j : ℝ) * ((r - l) / ((n : ℝ) + 1))) := by
    intro j hj
    rw [hex j hj, ext, dif_pos (by omega)]
  refine ⟨γ, hγ, hF, c, hc, fun j hj => ?_, fun j hj t ht => ?_⟩
  · rw [hmean, h.fe_node hlr _ hj, hext j hj]
  · rw [hmean, h.fe_between hlr _ hj (by nlinarith [ht.1]) (by push_cast; nlinarith [ht.2]), hext j (by omega), hext (j + 1) (by omega)]
    have : (l + (j + t) * ((r - l) / ((n : ℝ) + 1)) - (l + j * ((r - l) / ((n : ℝ) + 1)))) / ((r - l) / ((n : ℝ) + 1)) = t := by
      rw [div_eq_iff hst.ne']
      ring
    rw [this]
    push_cast
    ring

/-- The solution of the piecewise polynomial problem, as used by the notebooks. -/
lemma piecewise_exact {rhs : Piecewise.PW} (hrhs : rhs.Ok) (hpoly : ∀ p ∈ rhs.fns, ∃ q, p = .poly q) (hk : rhs.kind ≠ .constant)
    (u0 u1 : ℝ) {α : ℝ} (hα : α ≠ 0) :
    ∃ u, mkIvpPiecewise (.scalars (rhs.X 0) (rhs.X rhs.fns.length)) (some rhs) [u0, u1] α = .ok u ∧
      (∀ x, u.evaluate x = .ok (val u x)) ∧
      IsExact α (rhs.X 0) (rhs.X rhs.fns.length) (val u (rhs.X 0)) (val u (rhs.X rhs.fns.length)) (val rhs) (val u) ∧
      IntervalIntegrable (val rhs) volume (rhs.X 0) (rhs.X rhs.fns.length) := by
  obtain ⟨u, u', h1, -, h3, h4, h5, -, h7, h8⟩ := ivpPiecewise_solves_partial (rhs.X 0, rhs.X rhs.fns.length)
    (hrhs.le (Nat.zero_le _) le_rfl) hrhs hpoly hk u0 u1 hα
  refine ⟨u, h1, h3, ⟨rfl, rfl, val u', {x | x ∈ rhs.xs}, rhs.xs.finite_toSet.countable, h7, h8, fun x hx => (h4 x hx).1,
    fun x hx => ?_⟩, ?_⟩
  · obtain ⟨i, ⟨hi, hin⟩, -⟩ := Piecewise.piecewise_cover hrhs hx.1.1.le hx.1.2.le
    have hne : ∀ j ≤ rhs.fns.length, x ≠ rhs.X j := by
      intro j hj hxj
      refine hx.2 ?_
      show x ∈ rhs.xs
      rw [hxj]
      have hlen := hrhs.len
      unfold Piecewise.PW.X
      rw [List.getD_eq_getElem?_getD, List.getElem?_eq_getElem (by omega)]
      exact List.getElem_mem _
    obtain ⟨d, hd, hd'⟩ := h5 i hi x ⟨lt_of_le_of_ne hin.lower (hne i hi.le).symm, lt_of_le_of_ne hin.2 (hne _ hi)⟩
    have : val rhs x = -α * d := by rw [Pde.val, hd']
    rw [this]
    convert! hd using 1
    field_simp
  · refine IntervalIntegrable.trans_iterate fun i hi => ?_
    obtain ⟨p, hp⟩ := hpoly _ (List.getElem_mem hi)
    have hc : IntervalIntegrable p.eval volume (rhs.X i) (rhs.X (i + 1)) := (Piecewise.poly_continuous p).intervalIntegrable _ _
    refine hc.congr fun x hx => ?_
    rw [Set.uIoc_of_le (hrhs.le (by omega) (by omega))] at hx
    rw [val_in hk hrhs hi ⟨by
      split_ifs with h0
      · rw [← h0]; exact hx.1.le
      · exact hx.1, hx.2⟩, hp]
    rfl

/-- C70: the notebook from the problem to the posterior.  For a right-hand side that is polynomial between breakpoints, the
solution of the initial value problem from the left end, its two end values as boundary values, a Matérn-3/2 process and
any positive number of elements, every step runs through, and the posterior mean agrees with that solution at the nodes. -/
theorem fem_notebook (e : Env) (he : e.CholOK) {rhs : Piecewise.PW} (hrhs : rhs.Ok) (hpoly : ∀ p ∈ rhs.fns, ∃ q, p = .poly q)
    (hk : rhs.kind ≠ .constant) (u0 u1 : ℝ) {α : ℝ} (hα : α ≠ 0) {ρ : ℝ} (hρ : 0 < ρ) {n : ℕ} (hn : n ≠ 0) :
    ∃ (u : Piecewise.PW) (ul ur : ℝ) (P : BVP) (S : FemSystem) (G : K) (γ : ℝ → ℝ → ℝ) (hF : Nonempty (Feature γ)) (c : Cond (lbPrior hF 0)),
      mkIvpPiecewise (.scalars (rhs.X 0) (rhs.X rhs.fns.length)) (some rhs) [u0, u1] α = .ok u ∧
      u.evaluate (rhs.X 0) = .ok ul ∧ u.evaluate (rhs.X rhs.fns.length) = .ok ur ∧
      mkPoissonProblem (.dom (.interval (rhs.X 0) (rhs.X rhs.fns.length))) (some (.other [] [] fun x => [val rhs (x.getD 0 0)])) α
        (some (.array [2] [ul, ur])) (some (.other [] [] fun x => [val u (x.getD 0 0)])) = .ok P ∧
      femSystem P (poissonWOp α (.interval (rhs.X 0) (rhs.X rhs.fns.length))) n = .ok S ∧
      boundaryObservations P.bcs = .ok ([rhs.X 0, rhs.X rhs.fns.length], [[ul], [ur]]) ∧
      mkGalerkin (.matern32 ρ) S.trial = .ok G ∧ (∀ x y, G.eval x y = .ok (γ x y)) ∧
      femSolve e hF 0 (femObs S [rhs.X 0, rhs.X rhs.fns.length] [[ul], [ur]]).1
        (femObs S [rhs.X 0, rhs.X rhs.fns.length] [[ul], [ur]]).2 = .ok c ∧
      ∀ j ≤ n + 1, u.evaluate (rhs.X 0 + j * ((rhs.X rhs.fns.length - rhs.X 0) / ((n : ℝ) + 1))) =
        .ok (c.mean (rhs.X 0 + j * ((rhs.X rhs.fns.length - rhs.X 0) / ((n : ℝ) + 1)))) := by
  obtain ⟨u, h1, h2, h3, h4⟩ := piecewise_exact hrhs hpoly hk u0 u1 hα
  have hlr : rhs.X 0 < rhs.X rhs.fns.length := hrhs.lt hrhs.pos le_rfl
  set l := rhs.X 0
  set r := rhs.X rhs.fns.length
  set q : Fn := .other [] [] fun x => [val rhs (x.getD 0 0)] with hq
  obtain ⟨s, hP⟩ := mkPoissonProblem_interval hlr hα (some q) (some (.other [] [] fun x => [val u (x.getD 0 0)])) (val u l) (val u r)
    (fun s hs => by cases hs; exact ⟨rfl, rfl⟩) (fun s hs => by cases hs; exact ⟨rfl, rfl⟩)
  obtain ⟨S, hS, hsys⟩ := femSystem_ok hlr hn α (q := q) rfl (g := val rhs) (fun x => rfl) ⟨[], [], [], []⟩
    [⟨.point0 l, ⟨[], [], [], []⟩, .const [] [] [val u l]⟩, ⟨.point0 r, ⟨[], [], [], []⟩, .const [] [] [val u r]⟩] s
  have hb : boundaryObservations [⟨.point0 l, ⟨[], [], [], []⟩, .const [] [] [val u l]⟩, ⟨.point0 r, ⟨[], [], [], []⟩, .const [] [] [val u r]⟩] =
      .ok ([l, r], [[val u l], [val u r]]) := by
    rw [boundaryObservations_ok_iff _ _ _ (by simp [Fn.inS, shapeOf, Dom.ndims])]
    exact ⟨_, _, l, r, rfl, rfl, rfl, rfl, rfl, rfl⟩
  obtain ⟨G, hG⟩ := (galerkin_constructs_iff (hsys.goodTrial hlr) (.matern32 ρ)).1.mpr ⟨id, trivial⟩
  have hV : Valid (.matern32 ρ) := hρ
  obtain ⟨γ, hγ, hF, c, hc, hm, -⟩ := fem_nodal_exact e he hlr hα (q := q) rfl (g := val rhs) (fun x => rfl) hS hV trivial
    (κ := matern32K ρ) (sound _ hV).eval (istrict_matern32 hρ) hG h4 h3
  exact ⟨u, val u l, val u r, _, S, G, γ, hF, c, h1, h2 _, h2 _, hP, hS, hb, hG, hγ, hc, fun j hj => by rw [h2, hm j hj]⟩

/-- Non-vacuity: the right-hand side of the notebooks. -/
example : ∃ rhs : Piecewise.PW, rhs.Ok ∧ (∀ p ∈ rhs.fns, ∃ q, p = .poly q) ∧ rhs.kind ≠ .constant ∧ rhs.fns.length = 3 :=
  ⟨⟨.general, [-1, -0.3, 0.1, 1], [.poly (.ofCoeffs [3]), .poly (.ofCoeffs [0]), .poly (.ofCoeffs [2])]⟩,
    ⟨rfl, by simp, by simp [List.pairwise_cons]; norm_num⟩, by simp, by simp, rfl⟩

/-! ## Without the projection of the prior -/

/-- C70: `0002_poisson_dirichlet_gp_fem.ipynb`, cells 16-22, and cells 38-40 of the other notebook.  For every prior mean and every
covariance function that distinguishes evaluations and integrals, conditioning on the boundary values and on the weak form
runs through.  The posterior mean has the boundary values, its projection satisfies the Galerkin equations, and neither
remains uncertain; if `u` solves the boundary value problem, the coefficients of the projection are the values of `u` at
the nodes up to a function that is affine in the index. -/
theorem gp_fem_solved (e : Env) (he : e.CholOK) (hlr : l < r) (hα : α ≠ 0) {q : Fn} (hq : q.inS = []) (hg : ∀ x, q.ev [x] = [g x])
    {o : OpShapes} {bcs : List BC} {s : Option Fn} (ul ur : ℝ)
    (hS : femSystem ⟨⟨.interval l r, o, q⟩, bcs, s⟩ (poissonWOp α (.interval l r)) n = .ok S) (hk : IStrict k) (m : lbF) :
    ∃ c : Cond (lbPrior hk.feature m), femSolve e hk.feature m (gpFemObs S [l, r] [[ul], [ur]]).1 (gpFemObs S [l, r] [[ul], [ur]]).2 = .ok c ∧
      c.mean l = ul ∧ c.mean r = ur ∧ (∀ x, c.covfunc e l x = .ok 0 ∧ c.covfunc e r x = .ok 0) ∧
      (∀ i : Fin S.test.basis.len, ∑ j : Fin S.trial.basis.len, (α * ∫ x, deriv (fun x => (S.test.basis.evaluate x).getD i.val 0) x *
        deriv (fun x => (S.trial.basis.evaluate x).getD j.val 0) x) * c.functlMean (pcΛ S.trial) j =
          ∫ x, (S.test.basis.evaluate x).getD i.val 0 * g x) ∧
      c.functlCov e (fun i : Fin S.test.basis.len => ∑ j, S.A i j • pcΛ S.trial j) = .ok 0 ∧
      ∀ u, IntervalIntegrable g volume l r → IsExact α l r ul ur g u → ∃ a b : ℝ, ∀ j : Fin S.trial.basis.len,
        c.functlMean (pcΛ S.trial) j = u (l + j.val * ((r - l) / ((n : ℝ) + 1))) + (a + b * j.val) := by
  have h := isSys_of_ok hlr hq hg hS
  have hreg := lb_regular hk.feature m
  have hgram := h.gp_gram hlr hα hk m [[ul], [ur]]
  obtain ⟨c, hc, hm, hcov⟩ := run_posterior e he hreg _ _ hgram
  obtain ⟨f1, -⟩ := functl_posterior e he hreg _ _ hgram c hc (pcΛ S.trial)
  obtain ⟨p1, p2⟩ := exact_reproduced e he hreg _ _ hgram c hc (FObs.batch hk.feature m S.equation) (by simp [gpFemObs]) rfl
  have hrow : ∀ i, ∑ j, S.A i j * c.functlMean (pcΛ S.trial) j = S.b i := by
    intro i
    have := (exact_row hreg hgram (d := FObs.batch hk.feature m S.equation) (by simp [gpFemObs]) rfl i).1
    simp only [f1]
    refine Eq.trans ?_ this
    exact (coe_sum_apply Finset.univ (fun j => S.A i j) (pcΛ S.trial) _).symm
  have hpt : ∀ i : Fin 2, c.mean ([l, r].get i) = ([[ul], [ur]].flatten).getD i 0 ∧ ∀ x, c.covfunc e ([l, r].get i) x = .ok 0 := by
    intro i
    obtain ⟨q1, q2⟩ := exact_row hreg hgram (d := FObs.batch hk.feature m (bcPoints S.trial [l, r] [[ul], [ur]])) (by simp [gpFemObs]) rfl i
    refine ⟨?_, fun x => ?_⟩
    · rw [hm, ← (functl_ev hreg _ _ l).2]
      exact q1
    · rw [hcov, ← (functl_ev hreg _ _ _).1]
      exact congrArg _ (q2 (hreg.ev x))
  refine ⟨c, hc, (hpt 0).1, (hpt 1).1, fun x => ⟨(hpt 0).2 x, (hpt 1).2 x⟩, fun i => ?_, p2, fun u hi hu => ?_⟩
  · refine Eq.trans ?_ (h.b i)
    rw [← hrow]
    exact Finset.sum_congr rfl fun j _ => by rw [h.entry hlr]
  · obtain ⟨-, e1, e2⟩ := h.lens
    have hex := (h.exact_fem hlr hα hi hu).eqn
    obtain ⟨A, hA, hd⟩ := h.diff2 hlr
    set w : ℕ → ℝ := fun j => ext (c.functlMean (pcΛ S.trial)) j - u (l + (j : ℝ) * ((r - l) / ((n : ℝ) + 1))) with hw
    have hz : ∀ i : Fin S.test.basis.len, ∑ j, A i j * w j = 0 := by
      intro i
      have h1 : ∑ j, S.A i j * w j = 0 := by
        simp only [hw, mul_sub, Finset.sum_sub_distrib, ext_val]
        rw [hrow, hex, sub_self]
      rw [hA] at h1
      simp only [Matrix.smul_apply, smul_eq_mul, mul_assoc, ← Finset.mul_sum] at h1
      exact (mul_eq_zero.mp h1).resolve_left (neg_ne_zero.mpr hα)
    have hpos : (0 : ℝ) < ((n : ℝ) + 1) / (r - l) := div_pos (by positivity) (by linarith)
    have hstep : ∀ j ≤ n, w (j + 1) - w j = w 1 - w 0 := by
      intro j
      induction j with
      | zero => intro _; rfl
      | succ j ih =>
        intro hj
        have h1 := hz ⟨j, by omega⟩
        rw [hd.row h.len2] at h1
        have h2 := ih (by omega)
        simp only at h1
        rw [← mul_sub] at h1
        have h3 := (mul_eq_zero.mp h1).resolve_left hpos.ne'
        rw [show j + 1 + 1 = j + 2 from rfl]
        linarith
    have haff : ∀ j ≤ n + 1, w j = w 0 + (w 1 - w 0) * j := by
      intro j
      induction j with
      | zero => intro _; simp
      | succ j ih =>
        intro hj
        have h1 := ih (by omega)
        have h2 := hstep j (by omega)
        push_cast
        linarith
    refine ⟨w 0, w 1 - w 0, fun j => ?_⟩
    rw [← haff j (by omega), hw]
    simp only [ext_val]
    ring

/-- Non-vacuity: the prior of the notebook (constant mean, scaled Matérn-3/2 covariance function), right-hand side `2`. -/
example (e : Env) (he : e.CholOK) : ∃ (S : FemSystem) (c : Cond (lbPrior ((istrict_matern32 (l := 0.7) (by norm_num)).smul
      (c := 0.6 ^ 2) (by norm_num)).feature ⟨fun _ => 1.3, LB.of_continuous continuous_const⟩)),
    femSolve e _ _ (gpFemObs S [-1, 1] [[0], [1]]).1 (gpFemObs S [-1, 1] [[0], [1]]).2 = .ok c ∧ c.mean (-1) = 0 ∧ c.mean 1 = 1 := by
  obtain ⟨S, hS, -⟩ := (fem_system (l := -1) (r := 1) (by norm_num) 1 (q := .const [] [] [2]) rfl (g := fun _ => 2)
    (fun _ => rfl) ⟨[], [], [], []⟩ [] none 5).2 (by omega)
  obtain ⟨c, h1, h2, h3, -⟩ := gp_fem_solved e he (l := -1) (r := 1) (by norm_num) one_ne_zero (q := .const [] [] [2]) rfl
    (g := fun _ => 2) (fun _ => rfl) 0 1 hS ((istrict_matern32 (l := 0.7) (by norm_num)).smul (c := 0.6 ^ 2) (by norm_num))
    ⟨fun _ => 1.3, LB.of_continuous continuous_const⟩
  exact ⟨S, c, h1, h2, h3⟩

end LinPDE.Solve
