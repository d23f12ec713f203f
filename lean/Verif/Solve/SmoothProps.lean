import Verif.Solve.GreenProd
import Verif.Solve.ConvergeProps
import Mathlib.Analysis.Calculus.BumpFunction.FiniteDimension
import Mathlib.Analysis.SpecialFunctions.ExpDeriv
import Mathlib.Analysis.SpecialFunctions.Trigonometric.Deriv
import Mathlib.MeasureTheory.Integral.IntervalIntegral.FundThmCalculus

/-!
# C77: the solvers converge to every smooth solution

For products of Matérn kernels the assumption of C75, that the solution has finite distance to the prior mean, holds for every
smooth solution (`smooth_within`): the scripts converge to it.
-/

namespace LinPDE.Solve
open LinPDE.Domains LinPDE.Pde LinPDE.GP LinPDE.Block LinPDE.PosDef Matrix Topology Filter
open LinPDE.Matern (DOp OpAt)
open scoped ContDiff

variable {d : ℕ}

/-- A smooth function agrees on every ball with a function of finite distance to the prior mean. -/
lemma smooth_near (p : Fin d → ℕ) {s : Fin d → ℝ} (hs : ∀ j, s j ≠ 0) (m : jetF (box fun j => (p j : ℕ∞))) (hm : ContDiff ℝ ∞ m.1)
    {F : Pt d → ℝ} (hF : ContDiff ℝ ∞ F) (R : ℝ) :
    ∃ (f : jetF (box fun j => (p j : ℕ∞))) (B : ℝ), 0 ≤ B ∧ Within ((matern_jet p s).prior m) f B ∧ ∀ x, ‖x‖ ≤ R → f.1 =ᶠ[𝓝 x] F := by
  let χ : ContDiffBump (0 : Pt d) := ⟨|R| + 1, |R| + 2, by positivity, by linarith⟩
  obtain ⟨f, B, hf, hB, hw⟩ := smooth_within p hs m (F := fun x => χ x * (F x - m.1 x)) (χ.contDiff.mul (hF.sub hm)) χ.hasCompactSupport.mul_right
  refine ⟨f, B, hB, hw, fun x hx => ?_⟩
  have hx : x ∈ Metric.ball (0 : Pt d) (|R| + 1) := by
    rw [mem_ball_zero_iff]
    have := le_abs_self R
    linarith
  filter_upwards [Metric.isOpen_ball.mem_nhds hx] with y hy
  have h1 : χ y = 1 := χ.one_of_mem_closedBall (Metric.ball_subset_closedBall hy)
  rw [hf]
  show m.1 y + χ y * (F y - m.1 y) = F y
  rw [h1]
  ring

lemma line_tendsto (x v : Pt d) : Tendsto (fun t : ℝ => x + t • v) (𝓝 0) (𝓝 x) := by
  have : Continuous fun t : ℝ => x + t • v := by fun_prop
  have := this.tendsto 0
  simpa using this

lemma opAt_congr {w : Fin d → ℝ} {f F : Pt d → ℝ} {x : Pt d} {y : ℝ} (h : f =ᶠ[𝓝 x] F) (hF : OpAt (.wl w) F x y) : OpAt (.wl w) f x y := by
  obtain ⟨D1, D2, h1, h2, h3⟩ := hF
  refine ⟨D1, D2, fun i => ?_, h2, h3⟩
  have h4 := ((line_tendsto x (Pi.single i 1)).eventually h).eventually_nhds
  filter_upwards [h1 i, h4] with t ht ht'
  exact ht.congr_of_eventuallyEq ht'

lemma heatAt_congr {p : Fin 2 → ℕ} (hp : HeatSmooth (n := 0) p) {α : ℝ} (f : jetF (box fun j => (p j : ℕ∞))) {F : Pt 2 → ℝ} {x : Pt 2} {y : ℝ}
    (h : f.1 =ᶠ[𝓝 x] F) (hF : HeatAt (n := 0) α F x y) : HeatAt (n := 0) α f.1 x y := by
  obtain ⟨Et, E1, E2, k1, k2, k3⟩ := heatAt_of_jet hp α (jet_spec f) x
  obtain ⟨Dt, D1, D2, h1, h2, rfl⟩ := hF
  have e0 : Et = Dt := k1.unique (h1.congr_of_eventuallyEq ((line_tendsto x (Pi.single 0 1)).eventually h))
  have e2 : E2 = D2 := by
    funext j
    refine (k2 j).2.unique ((h2 j).2.congr_of_eventuallyEq ?_)
    filter_upwards [((line_tendsto x (Pi.single j.succ 1)).eventually h).eventually_nhds] with t ht
    exact ((k2 j).1 t).unique (((h2 j).1 t).congr_of_eventuallyEq ht)
  exact ⟨Et, E1, E2, k1, k2, by rw [e0, e2]⟩

/-! ### The Poisson equation -/

/-- C77: on every box with any number of dimensions, for products of Matérn kernels with two derivatives and any length scales, and
for every smooth solution `F` of the boundary value problem, the posterior mean of the script tends to `F` uniformly on the box. -/
theorem poisson_smooth (p : Fin d → ℕ) (hp : ∀ j, 2 ≤ p j) {s : Fin d → ℝ} (hs : ∀ j, s j ≠ 0) (m : jetF (box fun j => (p j : ℕ∞)))
    (hm : ContDiff ℝ ∞ m.1) {bs : List (ℝ × ℝ)} (hbs : ∀ b ∈ bs, b.1 < b.2) (hd : bs.length = d) (h0 : d ≠ 0) {α : ℝ} (hα : α ≠ 0)
    (fb rhs : Fn) (hr : rhs.inS = [d] ∧ rhs.outS = []) (hfb : fb.inS = [d]) {u g : List ℝ → ℝ} (hu : ∀ x, fb.ev x = [u x]) (hg : ∀ x, rhs.ev x = [g x])
    {F : Pt d → ℝ} (hF : ContDiff ℝ ∞ F) (hside : ∀ x, OnSide bs x → F (toPt d x) = u x)
    (hpde : ∀ x, InBox bs x → OpAt (poissonOp d α) F (toPt d x) (g x)) {τ : ℝ} (hτ : 0 < τ) :
    ∃ (hI : orders (poissonOp d α) ⊆ box fun j => (p j : ℕ∞)) (N : ℕ) (ε0 : ℝ), 0 < ε0 ∧ ∀ nBc nPde sB sP : List ℕ, asShape (d - 1) nBc = .ok sB →
      asShape d nPde = .ok sP → (∀ n ∈ sB, n ≥ N) → (∀ n ∈ sP, n ≥ N) → ∀ ε : ℝ, 0 < ε → ε ≤ ε0 → ∀ e : Env, e.CholOK →
      ∃ (P : BVP) (o : Obs d) (os : List (Obs d)) (c : Cond ((matern_jet p s).prior m)),
        mkPoissonProblem (.dom (.box bs)) (some rhs) α (some (.fn fb)) none = .ok P ∧ poissonObs d P nBc nPde ε = .ok (o :: os) ∧
        solve e (matern_jet p s) m (coefs (poissonOp d α) hI) o os = .ok c ∧ ∀ x, InBox bs x →
          |F (toPt d x) - c.mean (toPt d x)| ≤ τ ∧ ∃ y, OpAt (poissonOp d α) c.mean (toPt d x) y ∧ |g x - y| ≤ τ := by
  have hI : orders (poissonOp d α) ⊆ box fun j => (p j : ℕ∞) := by
    rintro _ ⟨j, rfl⟩
    exact single_box (hp j)
  have hcomp := cbox_compact (fun i : Fin d => (bs.getD i (0, 0)).1) fun i : Fin d => (bs.getD i (0, 0)).2
  obtain ⟨R, hR⟩ := hcomp.isBounded.exists_norm_le
  obtain ⟨f, B, hB, hw, hfF⟩ := smooth_near p hs m hm hF R
  have hin : ∀ x, InBox bs x → f.1 =ᶠ[𝓝 (toPt d x)] F := fun x hx => hfF _ (hR _ ((inBox_iff hd x).mp hx).2)
  obtain ⟨N, ε0, hε0, hN⟩ := poisson_converges (matern_jet p s) (matern_strict p hs) (matern_cont p s) m hbs hd h0 hα hI fb rhs hr hfb hu hg hB hw
    (fun x hx => (hin x hx.1).self_of_nhds.trans (hside x hx)) (fun x hx => opAt_congr (hin x hx) (hpde x hx)) hτ
  refine ⟨hI, N, ε0, hε0, fun nBc nPde sB sP hB hP h1 h2 ε hε hε' e he => ?_⟩
  obtain ⟨P, o, os, c, k1, k2, k3, k4⟩ := hN nBc nPde sB sP hB hP h1 h2 ε hε hε' e he
  refine ⟨P, o, os, c, k1, k2, k3, fun x hx => ?_⟩
  rw [← (hin x hx).self_of_nhds]
  exact k4 x hx

/-- The boundary value problem in one dimension has a smooth solution. -/
lemma poisson1_exists {l r : ℝ} (hlr : l < r) {α : ℝ} (hα : α ≠ 0) {g : ℝ → ℝ} (hg : ContDiff ℝ ∞ g) (a b : ℝ) :
    ∃ u u' : ℝ → ℝ, ContDiff ℝ ∞ u ∧ (∀ x, HasDerivAt u (u' x) x) ∧ (∀ x, HasDerivAt u' (-(g x) / α) x) ∧ u l = a ∧ u r = b := by
  have hint : ∀ {k : ℝ → ℝ}, ContDiff ℝ ∞ k → (∀ x, HasDerivAt (fun x => ∫ t in (0 : ℝ)..x, k t) (k x) x) ∧ ContDiff ℝ ∞ fun x => ∫ t in (0 : ℝ)..x, k t := by
    intro k hk
    have hd : ∀ x, HasDerivAt (fun x => ∫ t in (0 : ℝ)..x, k t) (k x) x := fun x =>
      intervalIntegral.integral_hasDerivAt_right (hk.continuous.intervalIntegrable _ _) (hk.continuous.stronglyMeasurableAtFilter _ _) hk.continuous.continuousAt
    refine ⟨hd, contDiff_infty_iff_deriv.mpr ⟨fun x => (hd x).differentiableAt, ?_⟩⟩
    rw [show deriv (fun x => ∫ t in (0 : ℝ)..x, k t) = k from funext fun x => (hd x).deriv]
    exact hk
  obtain ⟨d1, c1⟩ := hint (k := fun x => -(g x) / α) (hg.neg.div_const α)
  obtain ⟨d2, c2⟩ := hint c1
  set G1 := fun x => ∫ t in (0 : ℝ)..x, -(g t) / α with hG1
  set G2 := fun x => ∫ t in (0 : ℝ)..x, G1 t with hG2
  have hne : r - l ≠ 0 := by linarith
  set k : ℝ := (b - a - (G2 r - G2 l)) / (r - l) with hk
  have hk' : k * (r - l) = b - a - (G2 r - G2 l) := div_mul_cancel₀ _ hne
  refine ⟨fun x => G2 x + (k * (x - l) + (a - G2 l)), fun x => G1 x + k, ?_, fun x => ?_, fun x => ?_, ?_, ?_⟩
  · exact c2.add (((contDiff_const.mul (contDiff_id.sub contDiff_const))).add contDiff_const)
  · have := (d2 x).add ((((hasDerivAt_id x).sub_const l).const_mul k).add_const (a - G2 l))
    rw [mul_one] at this
    exact this
  · exact (d1 x).add_const k
  · ring
  · show G2 r + (k * (r - l) + (a - G2 l)) = b
    rw [hk']; ring

/-- C77: on every interval, for every smooth right-hand side and all boundary values the boundary value problem has a smooth solution
`u`, and for Matérn kernels with two derivatives and any length scale the posterior mean of the script tends to `u` uniformly and its
residual tends to zero. -/
theorem poisson1_smooth {k : ℕ} (hk : 2 ≤ k) {s : ℝ} (hs : s ≠ 0) (m : jetF (box fun _ : Fin 1 => (k : ℕ∞))) (hm : ContDiff ℝ ∞ m.1)
    {l r : ℝ} (hlr : l < r) {α : ℝ} (hα : α ≠ 0) (q sol : Option Fn)
    (hq : ∀ s, q = some s → s.inS = [] ∧ s.outS = []) (hsol : ∀ s, sol = some s → s.inS = [] ∧ s.outS = []) {g : ℝ → ℝ}
    (hg : ∀ x, (q.getD (.zero [] [])).ev [x] = [g x]) (hgs : ContDiff ℝ ∞ g) (a b : ℝ) :
    ∃ u u' : ℝ → ℝ, (∀ x, HasDerivAt u (u' x) x) ∧ (∀ x, HasDerivAt u' (-(g x) / α) x) ∧ u l = a ∧ u r = b ∧ ∀ τ > 0,
    ∃ (hI : orders (poissonOp 1 α) ⊆ box fun _ : Fin 1 => (k : ℕ∞)) (N : ℕ) (δ0 : ℝ), 0 < δ0 ∧
      ∀ (n : ℕ), n ≥ N → ∀ δ : ℝ, 0 ≤ δ → δ ≤ δ0 → ∀ e : Env, e.CholOK →
      ∃ (P : BVP) (B o : Obs 1) (c : Cond ((matern_jet (fun _ : Fin 1 => k) fun _ => s).prior m)),
        mkPoissonProblem (.dom (.interval l r)) q α (some (.array [2] [a, b])) sol = .ok P ∧ poisson1Obs P n δ = .ok (B, o) ∧
        solve e (matern_jet (fun _ : Fin 1 => k) fun _ => s) m (coefs (poissonOp 1 α) hI) B [o] = .ok c ∧ ∀ x, l ≤ x ∧ x ≤ r →
          |u x - c.mean ![x]| ≤ τ ∧ ∃ y, OpAt (poissonOp 1 α) c.mean ![x] y ∧ |g x - y| ≤ τ := by
  obtain ⟨u, u', hu, d1, d2, hl, hr⟩ := poisson1_exists hlr hα hgs a b
  refine ⟨u, u', d1, d2, hl, hr, fun τ hτ => ?_⟩
  have hI : orders (poissonOp 1 α) ⊆ box fun _ : Fin 1 => (k : ℕ∞) := by
    rintro _ ⟨j, rfl⟩
    exact single_box (p := fun _ : Fin 1 => k) hk
  obtain ⟨f, B, hB, hw, hfF⟩ := smooth_near (fun _ : Fin 1 => k) (fun _ => hs) m hm (F := fun z => u (z 0)) (hu.comp (contDiff_apply ℝ ℝ 0)) (|l| + |r|)
  have hin : ∀ x, l ≤ x ∧ x ≤ r → f.1 =ᶠ[𝓝 ![x]] fun z => u (z 0) := by
    intro x hx
    refine hfF _ ((pi_norm_le_iff_of_nonneg (by positivity)).mpr fun i => ?_)
    obtain rfl : i = 0 := Subsingleton.elim _ _
    show |x| ≤ |l| + |r|
    rw [abs_le]
    constructor <;> linarith [neg_abs_le l, le_abs_self r, abs_nonneg l, abs_nonneg r, hx.1, hx.2]
  have hv : ∀ x, l ≤ x ∧ x ≤ r → f.1 ![x] = u x := fun x hx => (hin x hx).self_of_nhds
  obtain ⟨N, δ0, hδ0, hN⟩ := poisson1_converges (matern_jet (fun _ : Fin 1 => k) fun _ => s) (matern_strict _ fun _ => hs) (matern_cont _ _) m hlr hα hI
    q sol hq hsol hg hB hw (fun x hx => opAt_congr (hin x hx) (by
      refine ⟨fun _ t => u' (x + t), fun _ => -(g x) / α, fun i => Eventually.of_forall fun t => ?_, fun i => ?_, ?_⟩
      · obtain rfl : i = 0 := Subsingleton.elim _ _
        have := HasDerivAt.comp_const_add (f := u) (f' := u' (x + t)) x t (d1 _)
        refine this.congr_of_eventuallyEq (Eventually.of_forall fun t' => ?_)
        simp
      · exact HasDerivAt.comp_const_add (f := u') x 0 (by simpa using d2 x)
      · simp only [Fin.sum_univ_one]
        field_simp)) hτ
  refine ⟨hI, N, δ0, hδ0, fun n hn δ h0 h1 e he => ?_⟩
  obtain ⟨P, b', o, c, k1, k2, k3, k4⟩ := hN n hn δ h0 h1 e he
  rw [hv l ⟨le_rfl, hlr.le⟩, hv r ⟨hlr.le, le_rfl⟩, hl, hr] at k1
  refine ⟨P, b', o, c, k1, k2, k3, fun x hx => ?_⟩
  rw [← hv x hx]
  exact k4 x hx

/-! ### The heat equation -/

lemma norm_le_box {t0 T l r t x : ℝ} (ht : t0 ≤ t ∧ t ≤ T) (hx : l ≤ x ∧ x ≤ r) : ‖(![t, x] : Pt 2)‖ ≤ |t0| + |T| + |l| + |r| := by
  refine (pi_norm_le_iff_of_nonneg (by positivity)).mpr fun i => ?_
  have h1 := neg_abs_le t0
  have h2 := le_abs_self T
  have h3 := neg_abs_le l
  have h4 := le_abs_self r
  have h5 := abs_nonneg t0
  have h6 := abs_nonneg T
  have h7 := abs_nonneg l
  have h8 := abs_nonneg r
  fin_cases i
  · show |t| ≤ _
    rw [abs_le]
    constructor <;> linarith
  · show |x| ≤ _
    rw [abs_le]
    constructor <;> linarith

/-- C77: for products of Matérn kernels with enough derivatives for the equation and any length scales, and for every smooth solution
`F` of the initial-boundary value problem, the posterior mean of the script tends to `F` uniformly on the domain,
with or without noise on the boundary values; for all grids, the squared error is at most a constant, which depends neither on the grids nor
on the noise, times the posterior variance. -/
theorem heat_smooth {p : Fin 2 → ℕ} (hp : HeatSmooth (n := 0) p) {s : Fin 2 → ℝ} (hs : ∀ j, s j ≠ 0) (m : jetF (box fun j => (p j : ℕ∞)))
    (hm : ContDiff ℝ ∞ m.1) {t0 T l r : ℝ} (ht : t0 < T) (hlr : l < r) {α : ℝ} (hα : 0 ≤ α) (f0 q sol : Option Fn) (hf0 : ∀ s, f0 = some s → s.inS = [])
    (hq : ∀ s, q = some s → s.inS = [2] ∧ s.outS = []) (hsol : ∀ s, sol = some s → s.inS = [2] ∧ s.outS = []) {u0 : ℝ → ℝ} {g : ℝ → ℝ → ℝ}
    (hu : ∀ x, (f0.getD (.zero [] [])).ev [x] = [u0 x]) (hg : ∀ t x, (q.getD (.zero [2] [])).ev [t, x] = [g t x])
    {F : Pt 2 → ℝ} (hF : ContDiff ℝ ∞ F)
    (hic : ∀ x, l ≤ x ∧ x ≤ r → F ![t0, x] = u0 x) (hbc : ∀ t, t0 ≤ t ∧ t ≤ T → F ![t, l] = 0 ∧ F ![t, r] = 0)
    (hpde : ∀ t x, t0 ≤ t ∧ t ≤ T → l ≤ x ∧ x ≤ r → HeatAt (n := 0) α F ![t, x] (g t x))
    (noise : Option ℝ) (hv : ∀ v, noise = some v → 0 ≤ v) :
    (∀ τ > 0, ∃ (N : ℕ) (δ0 : ℝ), 0 < δ0 ∧ ∀ nIc nBc n0 n1 : ℕ, nIc ≥ N → nBc ≥ N → n0 ≥ N → n1 ≥ N → ∀ δ : ℝ, 0 < δ → δ ≤ δ0 → ∀ e : Env, e.CholOK →
      ∃ (P : IBVP) (o : Obs 2) (os : List (Obs 2)) (c : Cond ((matern_jet p s).prior m)),
        mkHeatProblem t0 (.dom (.interval l r)) T q α f0 sol = .ok P ∧ heatObs P nIc nBc [n0, n1] δ noise = .ok (o, os) ∧
        solve e (matern_jet p s) m (heatCoefs hp α) o os = .ok c ∧ ∀ t x, t0 ≤ t ∧ t ≤ T → l ≤ x ∧ x ≤ r →
          |F ![t, x] - c.mean ![t, x]| ≤ τ ∧ ∃ y, HeatAt (n := 0) α c.mean ![t, x] y ∧ |g t x - y| ≤ τ) ∧
    ∃ B : ℝ, ∀ nIc nBc n0 n1 : ℕ, ∀ δ : ℝ, 0 < δ → 2 * δ < r - l → ∀ e : Env, e.CholOK →
      ∃ (P : IBVP) (o : Obs 2) (os : List (Obs 2)) (c : Cond ((matern_jet p s).prior m)),
        mkHeatProblem t0 (.dom (.interval l r)) T q α f0 sol = .ok P ∧ heatObs P nIc nBc [n0, n1] δ noise = .ok (o, os) ∧
        solve e (matern_jet p s) m (heatCoefs hp α) o os = .ok c ∧ ∀ t x, t0 ≤ t ∧ t ≤ T → l ≤ x ∧ x ≤ r →
          ∃ V, c.covfunc e ![t, x] ![t, x] = .ok V ∧ (F ![t, x] - c.mean ![t, x]) ^ 2 ≤ B * V := by
  obtain ⟨f, B, hB, hw, hfF⟩ := smooth_near p hs m hm hF (|t0| + |T| + |l| + |r|)
  have hin : ∀ t x, t0 ≤ t ∧ t ≤ T → l ≤ x ∧ x ≤ r → f.1 =ᶠ[𝓝 ![t, x]] F := fun t x h1 h2 => hfF _ (norm_le_box h1 h2)
  have hval : ∀ t x, t0 ≤ t ∧ t ≤ T → l ≤ x ∧ x ≤ r → f.1 ![t, x] = F ![t, x] := fun t x h1 h2 => (hin t x h1 h2).self_of_nhds
  have gic : ∀ x, l ≤ x ∧ x ≤ r → f.1 ![t0, x] = u0 x := fun x hx => by rw [hval t0 x ⟨le_rfl, ht.le⟩ hx]; exact hic x hx
  have gbc : ∀ t, t0 ≤ t ∧ t ≤ T → f.1 ![t, l] = 0 ∧ f.1 ![t, r] = 0 := fun t ht' => by
    rw [hval t l ht' ⟨le_rfl, hlr.le⟩, hval t r ht' ⟨hlr.le, le_rfl⟩]; exact hbc t ht'
  have gpde : ∀ t x, t0 ≤ t ∧ t ≤ T → l ≤ x ∧ x ≤ r → HeatAt (n := 0) α f.1 ![t, x] (g t x) := fun t x h1 h2 =>
    heatAt_congr hp f (hin t x h1 h2) (hpde t x h1 h2)
  constructor
  · intro τ hτ
    obtain ⟨N, δ0, hδ0, hN⟩ := heat_converges hp (matern_jet p s) (matern_strict p hs) (matern_cont p s) m ht hlr hα f0 q sol hf0 hq hsol hu hg hB hw
      gic gbc gpde noise hv hτ
    refine ⟨N, δ0, hδ0, fun nIc nBc n0 n1 h1 h2 h3 h4 δ h5 h6 e he => ?_⟩
    obtain ⟨P, o, os, c, k1, k2, k3, k4⟩ := hN nIc nBc n0 n1 h1 h2 h3 h4 δ h5 h6 e he
    refine ⟨P, o, os, c, k1, k2, k3, fun t x h1 h2 => ?_⟩
    rw [← hval t x h1 h2]
    exact k4 t x h1 h2
  · refine ⟨B, fun nIc nBc n0 n1 δ h0 h1 e he => ?_⟩
    obtain ⟨P, o, os, c, k1, k2, k3, k4⟩ := heat_region hp (matern_jet p s) (matern_strict p hs) m ht hlr α f0 q sol hf0 hq hsol hu hg hB hw gic gbc gpde
      noise hv nIc nBc n0 n1 h0 h1 e he
    refine ⟨P, o, os, c, k1, k2, k3, fun t x h1 h2 => ?_⟩
    rw [← hval t x h1 h2]
    exact k4 _

lemma heatEval_smooth (t0 l r : ℝ) (cs : List ℝ) (α : ℝ) : ContDiff ℝ ∞ fun z : Pt 2 => heatEval t0 l r cs α (z 0) (z 1) := by
  unfold heatEval
  generalize frequencies l r cs.length = ws
  induction cs generalizing ws with
  | nil => simpa using contDiff_const
  | cons c cs ih =>
    cases ws with
    | nil => simpa using contDiff_const
    | cons w ws =>
      simp only [List.zipWith_cons_cons, List.sum_cons]
      refine ContDiff.add ?_ (ih ws)
      have h0 : ContDiff ℝ ∞ fun z : Pt 2 => z 0 := contDiff_apply ℝ ℝ 0
      have h1 : ContDiff ℝ ∞ fun z : Pt 2 => z 1 := contDiff_apply ℝ ℝ 1
      exact (contDiff_const.mul (Real.contDiff_sin.comp (contDiff_const.mul (h1.sub contDiff_const)))).mul
        (Real.contDiff_exp.comp (contDiff_const.mul (contDiff_const.sub h0)))

/-- C77: for initial values given by a sine series and no right-hand side, the posterior mean of the script tends uniformly to the
solution that is attached to the problem, for every product of Matérn kernels with enough derivatives for the equation. -/
theorem heat_series {p : Fin 2 → ℕ} (hp : HeatSmooth (n := 0) p) {s : Fin 2 → ℝ} (hs : ∀ j, s j ≠ 0) (m : jetF (box fun j => (p j : ℕ∞)))
    (hm : ContDiff ℝ ∞ m.1) {t0 T l r : ℝ} (ht : t0 < T) (hlr : l < r) {α : ℝ} (hα : 0 ≤ α) (cs : List ℝ)
    (noise : Option ℝ) (hv : ∀ v, noise = some v → 0 ≤ v) :
    ∃ (P : IBVP) (S : Fn) (u : ℝ → ℝ → ℝ), mkHeatProblem t0 (.dom (.interval l r)) T none α (some (.sine l r cs)) none = .ok P ∧
      P.bvp.solution = some S ∧ (∀ t x, S.call [2] [t, x] = .ok [u t x]) ∧
      (∀ τ > 0, ∃ (N : ℕ) (δ0 : ℝ), 0 < δ0 ∧ ∀ nIc nBc n0 n1 : ℕ, nIc ≥ N → nBc ≥ N → n0 ≥ N → n1 ≥ N → ∀ δ : ℝ, 0 < δ → δ ≤ δ0 → ∀ e : Env, e.CholOK →
        ∃ (o : Obs 2) (os : List (Obs 2)) (c : Cond ((matern_jet p s).prior m)), heatObs P nIc nBc [n0, n1] δ noise = .ok (o, os) ∧
          solve e (matern_jet p s) m (heatCoefs hp α) o os = .ok c ∧ ∀ t x, t0 ≤ t ∧ t ≤ T → l ≤ x ∧ x ≤ r → |u t x - c.mean ![t, x]| ≤ τ) ∧
      ∃ B : ℝ, ∀ nIc nBc n0 n1 : ℕ, ∀ δ : ℝ, 0 < δ → 2 * δ < r - l → ∀ e : Env, e.CholOK →
        ∃ (o : Obs 2) (os : List (Obs 2)) (c : Cond ((matern_jet p s).prior m)), heatObs P nIc nBc [n0, n1] δ noise = .ok (o, os) ∧
          solve e (matern_jet p s) m (heatCoefs hp α) o os = .ok c ∧ ∀ t x, t0 ≤ t ∧ t ≤ T → l ≤ x ∧ x ≤ r →
            ∃ V, c.covfunc e ![t, x] ![t, x] = .ok V ∧ (u t x - c.mean ![t, x]) ^ 2 ≤ B * V := by
  have hP := mkHeatProblem_interval ht.le α none (some (.sine l r cs)) none (l := l) (r := r) (by simp) (fun s hs => by cases hs; rfl) (by simp)
  obtain ⟨k1, k2, k3⟩ := heatEval_solves hlr t0 cs α
  refine ⟨_, .other [2] [] fun tx => [heatEval t0 l r cs α (tx.getD 0 0) (tx.getD 1 0)], heatEval t0 l r cs α, hP, by simp [heatSolution], fun t x => rfl, ?_⟩
  obtain ⟨hconv, B, hreg⟩ := heat_smooth hp hs m hm ht hlr hα (some (.sine l r cs)) none none (fun s hs => by cases hs; rfl) (by simp) (by simp)
    (u0 := sineEval l r cs) (g := fun _ _ => 0) (fun x => rfl) (fun t x => rfl) (F := fun z => heatEval t0 l r cs α (z 0) (z 1)) (heatEval_smooth t0 l r cs α)
    (fun x _ => k3 x) (fun t _ => k2 t) (fun t x _ _ => by
      obtain ⟨ut, ux, uxx, d1, d2, d3, d4⟩ := k1 t x
      refine ⟨ut, fun _ t => ux (x + t), fun _ => uxx, ?_, fun j => ⟨fun t' => ?_, ?_⟩, ?_⟩
      · have := HasDerivAt.comp_const_add (f := fun t => heatEval t0 l r cs α t x) (f' := ut) t 0 (by simpa using d1)
        refine this.congr_of_eventuallyEq (Filter.Eventually.of_forall fun t' => ?_)
        simp
      · obtain rfl : j = 0 := Fin.ext (by omega)
        have := HasDerivAt.comp_const_add (f := fun y => heatEval t0 l r cs α t y) (f' := ux (x + t')) x t' (d2 _)
        refine this.congr_of_eventuallyEq (Filter.Eventually.of_forall fun t' => ?_)
        simp
      · exact HasDerivAt.comp_const_add (f := ux) (f' := uxx) x 0 (by simpa using d3)
      · simpa using d4) noise hv
  refine ⟨fun τ hτ => ?_, B, fun nIc nBc n0 n1 δ h0 h1 e he => ?_⟩
  · obtain ⟨N, δ0, hδ0, hN⟩ := hconv τ hτ
    refine ⟨N, δ0, hδ0, fun nIc nBc n0 n1 h1 h2 h3 h4 δ h5 h6 e he => ?_⟩
    obtain ⟨P, o, os, c, q1, q2, q3, q4⟩ := hN nIc nBc n0 n1 h1 h2 h3 h4 δ h5 h6 e he
    obtain rfl := Except.ok.inj (hP.symm.trans q1)
    exact ⟨o, os, c, q2, q3, fun t x h1 h2 => (q4 t x h1 h2).1⟩
  · obtain ⟨P, o, os, c, q1, q2, q3, q4⟩ := hreg nIc nBc n0 n1 δ h0 h1 e he
    obtain rfl := Except.ok.inj (hP.symm.trans q1)
    exact ⟨o, os, c, q2, q3, q4⟩

/-! ### Non-vacuity -/

/-- `test_heat.py`: Matérn-3/2 in time and Matérn-5/2 in space with length scales 2.5 and 2, the sine series with coefficients 1 and 2,
noise of variance `1e-5` on the boundary values. -/
example {τ : ℝ} (hτ : 0 < τ) : ∃ (P : IBVP) (S : Fn) (u : ℝ → ℝ → ℝ), mkHeatProblem 0 (.dom (.interval (-1) 1)) 5 none 0.1 (some (.sine (-1) 1 [1, 2])) none = .ok P ∧
    P.bvp.solution = some S ∧ (∀ t x, S.call [2] [t, x] = .ok [u t x]) ∧ ∃ (N : ℕ) (δ : ℝ), 0 < δ ∧ ∀ n ≥ N, ∀ e : Env, e.CholOK →
      ∃ (o : Obs 2) (os : List (Obs 2)) (hp : HeatSmooth (n := 0) ![1, 2]) (c : Cond ((matern_jet ![1, 2] ![√3 / 2.5, √5 / 2]).prior 0)),
        heatObs P n n [n, n] δ (some 1e-5) = .ok (o, os) ∧ solve e (matern_jet ![1, 2] ![√3 / 2.5, √5 / 2]) 0 (heatCoefs hp 0.1) o os = .ok c ∧
        ∀ t x, 0 ≤ t ∧ t ≤ 5 → -1 ≤ x ∧ x ≤ 1 → |u t x - c.mean ![t, x]| ≤ τ := by
  have hp : HeatSmooth (n := 0) ![1, 2] := ⟨le_rfl, fun j => by fin_cases j; exact le_rfl⟩
  obtain ⟨P, S, u, h1, h2, h3, h4, -⟩ := heat_series hp (s := ![√3 / 2.5, √5 / 2]) (fun j => by
      fin_cases j
      · show √3 / 2.5 ≠ 0
        positivity
      · show √5 / 2 ≠ 0
        positivity) 0 contDiff_const (t0 := 0) (T := 5) (l := -1) (r := 1) (by norm_num) (by norm_num) (α := 0.1) (by norm_num) [1, 2] (some 1e-5)
    (fun v hv => by cases hv; norm_num)
  obtain ⟨N, δ, hδ, hN⟩ := h4 τ hτ
  refine ⟨P, S, u, h1, h2, h3, N, δ, hδ, fun n hn e he => ?_⟩
  obtain ⟨o, os, c, k1, k2, k3⟩ := hN n n n n hn hn hn hn δ hδ le_rfl e he
  exact ⟨o, os, hp, c, k1, k2, k3⟩

/-- The right-hand side `sin` with boundary values `1` and `2`. -/
example : ∃ u : ℝ → ℝ, u 0 = 1 ∧ u 3 = 2 ∧ ∀ τ > 0, ∃ (N : ℕ), ∀ n ≥ N, ∀ e : Env, e.CholOK →
    ∃ (P : BVP) (b o : Obs 1) (hI : _) (c : Cond ((matern_jet (fun _ : Fin 1 => 2) fun _ => 1).prior 0)),
      mkPoissonProblem (.dom (.interval 0 3)) (some (.other [] [] fun x => [Real.sin (x.getD 0 0)])) 1 (some (.array [2] [1, 2])) none = .ok P ∧
      poisson1Obs P n 0 = .ok (b, o) ∧
      solve e (matern_jet (fun _ : Fin 1 => 2) fun _ => 1) 0 (coefs (poissonOp 1 1) hI) b [o] = .ok c ∧ ∀ x, 0 ≤ x ∧ x ≤ 3 → |u x - c.mean ![x]| ≤ τ := by
  obtain ⟨u, u', -, -, h1, h2, h3⟩ := poisson1_smooth (k := 2) le_rfl (s := 1) one_ne_zero 0 contDiff_const (l := 0) (r := 3) (by norm_num) (α := 1) one_ne_zero
    (some (.other [] [] fun x => [Real.sin (x.getD 0 0)])) none (fun s hs => by cases hs; exact ⟨rfl, rfl⟩) (by simp) (g := Real.sin) (fun x => rfl)
    Real.contDiff_sin 1 2
  refine ⟨u, h1, h2, fun τ hτ => ?_⟩
  obtain ⟨hI, N, δ0, h0, hN⟩ := h3 τ hτ
  refine ⟨N, fun n hn e he => ?_⟩
  obtain ⟨P, b, o, c, k1, k2, k3, k4⟩ := hN n hn 0 le_rfl h0.le e he
  exact ⟨P, b, o, hI, c, k1, k2, k3, fun x hx => (k4 x hx).1⟩

/-- The solution `x² + x y` on a square. -/
example {τ : ℝ} (hτ : 0 < τ) : ∃ (N : ℕ) (ε : ℝ), 0 < ε ∧ ∀ n ≥ N, ∀ e : Env, e.CholOK →
    ∃ (P : BVP) (o : Obs 2) (os : List (Obs 2)) (hI : _) (c : Cond ((matern_jet ![2, 3] ![1, 2]).prior 0)),
      mkPoissonProblem (.dom (.box [(-1, 1), (-1, 1)])) (some (.other [2] [] fun _ => [-2])) 1
        (some (.fn (.other [2] [] fun x => [x.getD 0 0 ^ 2 + x.getD 0 0 * x.getD 1 0]))) none = .ok P ∧ poissonObs 2 P [n] [n] ε = .ok (o :: os) ∧
      solve e (matern_jet ![2, 3] ![1, 2]) 0 (coefs (poissonOp 2 1) hI) o os = .ok c ∧
      ∀ x y, -1 ≤ x ∧ x ≤ 1 → -1 ≤ y ∧ y ≤ 1 → |x ^ 2 + x * y - c.mean ![x, y]| ≤ τ := by
  obtain ⟨hI, N, ε, h0, hN⟩ := poisson_smooth (d := 2) ![2, 3] (fun j => by fin_cases j <;> simp) (s := ![1, 2]) (fun j => by fin_cases j <;> simp) 0
    contDiff_const (bs := [(-1, 1), (-1, 1)]) (by simp) rfl two_ne_zero (α := 1) one_ne_zero (.other [2] [] fun x => [x.getD 0 0 ^ 2 + x.getD 0 0 * x.getD 1 0])
    (.other [2] [] fun _ => [-2]) ⟨rfl, rfl⟩ rfl (fun x => rfl) (fun x => rfl) (F := fun z => z 0 ^ 2 + z 0 * z 1)
    (((contDiff_apply ℝ ℝ 0).pow 2).add ((contDiff_apply ℝ ℝ 0).mul (contDiff_apply ℝ ℝ 1))) (fun x _ => rfl) (fun x _ => by
      set z := toPt 2 x
      refine ⟨fun i t => if i = 0 then 2 * (z 0 + t) + z 1 else z 0, ![2, 0], fun i => Eventually.of_forall fun t => ?_, fun i => ?_, by simp⟩
      · fin_cases i
        · have h1 : HasDerivAt (fun t : ℝ => z 0 + t) 1 t := (hasDerivAt_id t).const_add _
          have := (h1.pow 2).add (h1.mul_const (z 1))
          refine (this.congr_of_eventuallyEq (Eventually.of_forall fun t => ?_)).congr_deriv ?_
          · simp
          · simp
        · have h1 : HasDerivAt (fun t : ℝ => z 1 + t) 1 t := (hasDerivAt_id t).const_add _
          have := (h1.const_mul (z 0)).const_add (z 0 ^ 2)
          refine (this.congr_of_eventuallyEq (Eventually.of_forall fun t => ?_)).congr_deriv ?_
          · simp
          · simp
      · fin_cases i
        · have h1 : HasDerivAt (fun t : ℝ => z 0 + t) 1 0 := (hasDerivAt_id (0 : ℝ)).const_add _
          have := (h1.const_mul 2).add_const (z 1)
          simpa using this
        · simpa using hasDerivAt_const (0 : ℝ) (z 0)) hτ
  refine ⟨N, ε, h0, fun n hn e he => ?_⟩
  obtain ⟨P, o, os, c, k1, k2, k3, k4⟩ := hN [n] [n] [n] [n, n] rfl rfl (by simpa using hn) (by simpa using hn) ε h0 le_rfl e he
  refine ⟨P, o, os, hI, c, k1, k2, k3, fun x y hx hy => ?_⟩
  have := (k4 [x, y] (.cons hx (.cons hy .nil))).1
  rwa [toPt_two] at this

end LinPDE.Solve
