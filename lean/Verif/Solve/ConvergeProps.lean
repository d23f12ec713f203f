import Verif.Solve.Converge

/-!
# C75: the solvers converge

For every function that solves the problem and has finite distance to the prior mean, the posterior mean computed by the scripts
is uniformly close to the function once the grids are fine enough; how fine depends only on the prior, the problem and the distance.
-/

namespace LinPDE.Solve
open LinPDE.Domains LinPDE.Pde LinPDE.GP LinPDE.Block LinPDE.PosDef Matrix
open LinPDE.Matern (DOp OpAt phi phi_of_nonneg phi_of_nonpos)

variable {d : ℕ} {I : Set (Ix d)} {K : Ix d → Pt d → Ix d → Pt d → ℝ}

lemma solves_mk {ι : Type} (h : JetKernel I K) (a : I →₀ ℝ) {f : jetF I} (pde : Bool) (X : List ι) (pt : ι → Pt d) (val : ι → ℝ)
    (hv : ∀ z ∈ X, ((opOf h a pde).sum fun α t => t * jet f α (pt z)) = val z) {w : Obs d} (hw : w = ⟨pde, X.map pt, X.map val, none⟩) :
    w.noise = none ∧ ∀ (i : ℕ) (hi : i < w.X.length), ((opOf h a w.pde).sum fun α t => t * jet f α w.X[i]) = w.Y.getD i 0 := by
  subst hw
  refine ⟨rfl, fun i hi => ?_⟩
  have hi' : i < X.length := by simpa using hi
  have := hv X[i] (List.getElem_mem _)
  simp only [List.getElem_map, List.getD_eq_getElem?_getD]
  rw [this]
  simp [hi']

lemma line2_of_jet (hI : IsLowerSet I) {j : Fin d} (hj : (Pi.single j 2 : Ix d) ∈ I) {f : Pt d → ℝ} {J : Ix d → Pt d → ℝ} (hJ : HasJet I f J) (x : Pt d) :
    Line2 f j x (J (Pi.single j 2) x) := by
  have hj1 : (Pi.single j 1 : Ix d) ∈ I := hI (fun i => by
    by_cases hi : i = j
    · subst hi; simp
    · simp [hi]) hj
  refine ⟨fun t => J (Pi.single j 1) (x + t • Pi.single j 1), fun t => ?_, ?_⟩
  · have h := hJ.partial (α := 0) (j := j) (by rw [zero_add]; exact hj1) (x + t • Pi.single j 1)
    rw [hJ.zero, zero_add] at h
    have h3 : HasDerivAt (fun s : ℝ => f (x + t • Pi.single j 1 + s • Pi.single j 1))
        (J (Pi.single j 1) (x + t • Pi.single j 1)) (t - t) := by rwa [sub_self]
    have h4 := h3.comp_sub_const t t
    refine h4.congr_of_eventuallyEq (Filter.Eventually.of_forall fun s => ?_)
    refine congrArg f ?_
    funext i
    simp only [Pi.add_apply, Pi.smul_apply, smul_eq_mul]
    ring
  · have h := hJ.partial (α := Pi.single j 1) (j := j) (by rw [← Pi.single_add]; exact hj) x
    rw [← Pi.single_add] at h
    exact h

lemma Line2.sub {f g : Pt d → ℝ} {j : Fin d} {x : Pt d} {D E : ℝ} (h : Line2 f j x D) (h' : Line2 g j x E) : Line2 (fun x => f x - g x) j x (D - E) := by
  obtain ⟨D1, h1, h2⟩ := h.ex
  obtain ⟨E1, k1, k2⟩ := h'.ex
  exact ⟨fun t => D1 t - E1 t, fun t => (h1 t).sub (k1 t), h2.sub k2⟩

/-- The maximum principle for the Poisson equation. -/
lemma poisson_close (hI : IsLowerSet I) {α : ℝ} (hα : α ≠ 0) (hO : orders (poissonOp d α) ⊆ I) (j0 : Fin d) {f g : Pt d → ℝ} {J J' : Ix d → Pt d → ℝ}
    (hJ : HasJet I f J) (hJ' : HasJet I g J') (hc : Continuous fun x => f x - g x) {lo hi : Pt d} {τ τ' : ℝ}
    (hL : ∀ x ∈ cbox lo hi, |((coefs (poissonOp d α) hO).sum fun β t => t * J β x) - (coefs (poissonOp d α) hO).sum fun β t => t * J' β x| ≤ τ)
    (hb : ∀ x ∈ cbox lo hi, (∃ j, x j = lo j ∨ x j = hi j) → |f x - g x| ≤ τ') {x : Pt d} (hx : x ∈ cbox lo hi) :
    |f x - g x| ≤ τ' + τ / |α| * ((hi j0 - lo j0) ^ 2 / 8) := by
  have hord : ∀ j : Fin d, (Pi.single j 2 : Ix d) ∈ I := fun j => hO ⟨j, rfl⟩
  refine elliptic_max hc j0 (D := fun j x => J (Pi.single j 2) x - J' (Pi.single j 2) x)
    (fun x _ j => (line2_of_jet hI (hord j) hJ x).sub (line2_of_jet hI (hord j) hJ' x)) (fun x hx => ?_) hb hx
  have h1 := hL x hx
  rw [coefs_sum, coefs_sum] at h1
  have h2 : opSum (poissonOp d α) J x - opSum (poissonOp d α) J' x = -α * ∑ j, (J (Pi.single j 2) x - J' (Pi.single j 2) x) := by
    simp only [opSum, poissonOp, Finset.sum_sub_distrib, ← Finset.mul_sum]
    ring
  rw [h2, abs_mul, abs_neg] at h1
  rw [le_div_iff₀ (abs_pos.mpr hα), mul_comm]
  exact h1

/-- The equation in terms of derivatives. -/
lemma poisson_jet (hI : IsLowerSet I) {α : ℝ} (hO : orders (poissonOp d α) ⊆ I) (f : jetF I) (x : Pt d) {y : ℝ} (hy : OpAt (poissonOp d α) f.1 x y) :
    ((coefs (poissonOp d α) hO).sum fun β t => t * jet f β x) = y := by
  rw [coefs_sum]
  exact (opAt_eq hI _ hO trivial (jet_spec f) x hy).symm

/-- C75: for the Poisson equation on an interval, let `f` be a solution with finite distance to the prior mean. Then for every
tolerance there is a number of points and a bound on the inset from which on the script computes, for every solution of the
Cholesky system, a posterior mean whose difference from `f` and whose residual in the equation stay below the tolerance on the
whole interval. -/
theorem poisson1_converges {I : Set (Ix 1)} {K : Ix 1 → Pt 1 → Ix 1 → Pt 1 → ℝ} (h : JetKernel I K) (hs : Strict I K) (hK : ContK I K) (m : jetF I)
    {l r : ℝ} (hlr : l < r) {α : ℝ} (hα : α ≠ 0) (hI : orders (poissonOp 1 α) ⊆ I) (q sol : Option Fn)
    (hq : ∀ s, q = some s → s.inS = [] ∧ s.outS = []) (hsol : ∀ s, sol = some s → s.inS = [] ∧ s.outS = []) {g : ℝ → ℝ}
    (hg : ∀ x, (q.getD (.zero [] [])).ev [x] = [g x]) {f : jetF I} {B : ℝ} (hB : 0 ≤ B) (hf : Within (h.prior m) f B)
    (hpde : ∀ x, l ≤ x ∧ x ≤ r → OpAt (poissonOp 1 α) f.1 ![x] (g x)) {τ : ℝ} (hτ : 0 < τ) :
    ∃ (N : ℕ) (δ0 : ℝ), 0 < δ0 ∧ ∀ (n : ℕ), n ≥ N → ∀ δ : ℝ, 0 ≤ δ → δ ≤ δ0 → ∀ e : Env, e.CholOK →
      ∃ (P : BVP) (b o : Obs 1) (c : Cond (h.prior m)),
        mkPoissonProblem (.dom (.interval l r)) q α (some (.array [2] [f.1 ![l], f.1 ![r]])) sol = .ok P ∧ poisson1Obs P n δ = .ok (b, o) ∧
        solve e h m (coefs (poissonOp 1 α) hI) b [o] = .ok c ∧ ∀ x, l ≤ x ∧ x ≤ r →
          |f.1 ![x] - c.mean ![x]| ≤ τ ∧ ∃ y, OpAt (poissonOp 1 α) c.mean ![x] y ∧ |g x - y| ≤ τ := by
  set C : ℝ := 1 / |α| * ((r - l) ^ 2 / 8) with hC
  have hC0 : 0 ≤ C := mul_nonneg (by positivity) (by positivity)
  set τ1 : ℝ := τ / (1 + C) with hτ1
  have h1C : 0 < 1 + C := by linarith
  have hτ1p : 0 < τ1 := div_pos hτ h1C
  have hτ1e : τ1 * (1 + C) = τ := div_mul_cancel₀ _ h1C.ne'
  have hτ1le : τ1 ≤ τ := by nlinarith
  obtain ⟨η, hη, hclose⟩ := solve_close h hs hK m (poisson_indep h hα one_ne_zero hI) hB hf (cbox_compact ![l] ![r]) hτ1p
  obtain ⟨N, hN⟩ := grid_dense l r hη
  refine ⟨N, min (η / 2) ((r - l) / 3), lt_min (by linarith) (by linarith), fun n hn δ h0 hδ e he => ?_⟩
  have hδ1 : δ ≤ η / 2 := hδ.trans (min_le_left _ _)
  have hδ2 : 2 * δ < r - l := by have := hδ.trans (min_le_right _ _); linarith
  obtain ⟨s, hP⟩ := mkPoissonProblem_interval hlr hα q sol (f.1 ![l]) (f.1 ![r]) hq hsol
  have hq' : (q.getD (.zero [] [])).inS = [] := by
    cases q with
    | none => rfl
    | some s => exact (hq s rfl).1
  have inj : Function.Injective fun x : ℝ => (![x] : Pt 1) := fun x y hxy => by simpa using congrFun hxy 0
  set b : Obs 1 := ⟨false, [(l, f.1 ![l]), (r, f.1 ![r])].map fun z => ![z.1], [(l, f.1 ![l]), (r, f.1 ![r])].map fun z => z.2, none⟩ with hb
  set o : Obs 1 := ⟨true, (intervalGrid l r n δ).map fun x => ![x], (intervalGrid l r n δ).map g, none⟩ with ho
  have hnd : ∀ pde, (ptsOf pde [b, o]).Nodup := by
    intro pde
    cases pde
    · change ([![l], ![r]] ++ [] : List (Pt 1)).Nodup
      simp only [List.append_nil, List.nodup_cons, List.mem_singleton, List.not_mem_nil, not_false_eq_true, List.nodup_nil, and_true]
      exact fun hh => hlr.ne (inj hh)
    · change (((intervalGrid l r n δ).map fun x => (![x] : Pt 1)) ++ []).Nodup
      rw [List.append_nil]
      exact (intervalGrid_nodup (by intro hh; linarith) n).map inj
  have hbounds : ∀ x ∈ intervalGrid l r n δ, l ≤ x ∧ x ≤ r := fun x hx => intervalGrid_bounds h0 (by linarith) hx
  have hsolves : Solves h (coefs (poissonOp 1 α) hI) f [b, o] := by
    intro w hw
    simp only [List.mem_cons, List.not_mem_nil, or_false] at hw
    rcases hw with rfl | rfl
    · refine solves_mk h _ false [(l, f.1 ![l]), (r, f.1 ![r])] (fun z => ![z.1]) (fun z => z.2) (fun z hz => ?_) rfl
      rw [value_sum h _ (jet_spec f)]
      simp only [List.mem_cons, List.not_mem_nil, or_false] at hz
      rcases hz with rfl | rfl <;> rfl
    · refine solves_mk h _ true (intervalGrid l r n δ) (fun x => ![x]) g (fun z hz => ?_) rfl
      exact poisson_jet h.lower hI f _ (hpde z (hbounds z hz))
  obtain ⟨c, hc, J, hJ, hcont, hcl⟩ := hclose e he b [o] hnd hsolves
  have hmem : ∀ x, l ≤ x ∧ x ≤ r → (![x] : Pt 1) ∈ cbox ![l] ![r] := fun x hx j => by fin_cases j; exact hx
  have hpt : ∀ x : Pt 1, x = ![x 0] := fun x => by funext j; fin_cases j; rfl
  have hres : ∀ x ∈ cbox ![l] ![r], |((coefs (poissonOp 1 α) hI).sum fun β t => t * jet f β x) - (coefs (poissonOp 1 α) hI).sum fun β t => t * J β x| < τ1 := by
    intro x hx
    have hx0 : l ≤ x 0 ∧ x 0 ≤ r := hx 0
    obtain ⟨z, hz, hzx⟩ := hN n hn δ h0 hδ1 hδ2 (x 0) hx0
    exact hcl true x hx ⟨o, by simp, rfl, ![z], List.mem_map_of_mem (f := fun x : ℝ => (![x] : Pt 1)) hz, by
      rw [dist_pi_lt_iff hη]
      intro j
      fin_cases j
      exact hzx⟩
  have hbd : ∀ x ∈ cbox ![l] ![r], (∃ j, x j = (![l] : Pt 1) j ∨ x j = (![r] : Pt 1) j) → |f.1 x - c.mean x| ≤ τ1 := by
    rintro x hx ⟨j, hj⟩
    obtain rfl : j = 0 := Subsingleton.elim _ _
    have hj : x 0 = l ∨ x 0 = r := hj
    have hin : x ∈ b.X := by
      rw [hpt x]
      show (![x 0] : Pt 1) ∈ ([![l], ![r]] : List (Pt 1))
      rcases hj with hj | hj <;> simp [hj]
    have := hcl false x hx ⟨b, by simp, rfl, x, hin, by rw [dist_self]; exact hη⟩
    rw [value_sum h _ (jet_spec f), value_sum h _ hJ] at this
    exact this.le
  refine ⟨_, b, o, c, hP, poisson1Obs_eq _ hq' hg _ _ s n δ, hc, fun x hx => ⟨?_, ?_⟩⟩
  · have := poisson_close h.lower hα hI 0 (jet_spec f) hJ hcont (fun x hx => (hres x hx).le) hbd (hmem x hx)
    refine this.trans (le_of_eq ?_)
    rw [← hτ1e, hC]
    simp only [Matrix.cons_val_zero]
    ring
  · refine ⟨_, poisson_sum h hI hJ ![x] rfl, ?_⟩
    have := hres ![x] (hmem x hx)
    rw [poisson_jet h.lower hI f _ (hpde x hx)] at this
    exact this.le.trans hτ1le

/-- The heat operator in terms of derivatives. -/
lemma heat_jet {p : Fin 2 → ℕ} (hp : HeatSmooth (n := 0) p) (α : ℝ) (f : jetF (box fun j => (p j : ℕ∞))) (x : Pt 2) {y : ℝ} (hy : HeatAt (n := 0) α f.1 x y) :
    ((heatCoefs hp α).sum fun β t => t * jet f β x) = y := by
  rw [heatCoefs_sum hp α fun β => jet f β x]
  obtain ⟨Dt, D1, D2, h1, h2, rfl⟩ := hy
  obtain ⟨Et, E1, E2, k1, k2, k3⟩ := heatAt_of_jet hp α (jet_spec f) x
  rw [← k3, h1.unique k1]
  congr 2
  refine Finset.sum_congr rfl fun j _ => ?_
  have e : D1 j = E1 j := funext fun t => ((h2 j).1 t).unique ((k2 j).1 t)
  have := (h2 j).2
  rw [e] at this
  exact (k2 j).2.unique this

lemma fits_mk {ι : Type} (h : JetKernel I K) (a : I →₀ ℝ) {f : jetF I} (pde : Bool) (X : List ι) (pt : ι → Pt d) (val : ι → ℝ) (noise : Option ℝ)
    (hv : ∀ z ∈ X, ((opOf h a pde).sum fun α t => t * jet f α (pt z)) = val z) {w : Obs d} (hw : w = ⟨pde, X.map pt, X.map val, noise⟩) :
    ∀ (i : ℕ) (hi : i < w.X.length), ((opOf h a w.pde).sum fun α t => t * jet f α w.X[i]) = w.Y.getD i 0 := by
  subst hw
  exact (solves_mk h a pde X pt val hv rfl).2

/-- The observations of the script are at distinct points, and a function that satisfies the initial condition, the boundary conditions
and the equation fits them. -/
lemma heat_fits {p : Fin 2 → ℕ} (hp : HeatSmooth (n := 0) p) {K : Ix 2 → Pt 2 → Ix 2 → Pt 2 → ℝ} (h : JetKernel (box fun j => (p j : ℕ∞)) K)
    {t0 T l r : ℝ} (ht : t0 < T) (hlr : l < r) {α : ℝ} {u0 : ℝ → ℝ} {g : ℝ → ℝ → ℝ} {f : jetF (box fun j => (p j : ℕ∞))}
    (hic : ∀ x, l ≤ x ∧ x ≤ r → f.1 ![t0, x] = u0 x) (hbc : ∀ t, t0 ≤ t ∧ t ≤ T → f.1 ![t, l] = 0 ∧ f.1 ![t, r] = 0)
    (hpde : ∀ t x, t0 ≤ t ∧ t ≤ T → l ≤ x ∧ x ≤ r → HeatAt (n := 0) α f.1 ![t, x] (g t x)) (noise : Option ℝ)
    (nIc nBc n0 n1 : ℕ) {δ : ℝ} (h0 : 0 < δ) (hδ2 : 2 * δ < r - l) {o0 o1 o2 o3 : Obs 2}
    (ho0 : o0 = ⟨false, (intervalGrid l r nIc δ).map fun x => ![t0, x], (intervalGrid l r nIc δ).map u0, none⟩)
    (ho1 : o1 = ⟨false, (intervalGrid t0 T nBc 0).map fun t => ![t, l], (intervalGrid t0 T nBc 0).map fun _ => 0, noise⟩)
    (ho2 : o2 = ⟨false, (intervalGrid t0 T nBc 0).map fun t => ![t, r], (intervalGrid t0 T nBc 0).map fun _ => 0, noise⟩)
    (ho3 : o3 = ⟨true, (intervalGrid t0 T n0 0 ×ˢ intervalGrid l r n1 0).map fun z => ![z.1, z.2],
        (intervalGrid t0 T n0 0 ×ˢ intervalGrid l r n1 0).map fun z => g z.1 z.2, none⟩) :
    (∀ pde, (ptsOf pde [o0, o1, o2, o3]).Nodup) ∧ Fits h (heatCoefs hp α) f [o0, o1, o2, o3] := by
  have inj0 : ∀ a : ℝ, Function.Injective fun x : ℝ => (![a, x] : Pt 2) := fun a x y hxy => by simpa using congrFun hxy 1
  have inj1 : ∀ a : ℝ, Function.Injective fun t : ℝ => (![t, a] : Pt 2) := fun a x y hxy => by simpa using congrFun hxy 0
  have nd0 : ∀ n, (intervalGrid t0 T n 0).Nodup := intervalGrid_nodup (by simp [ht.ne])
  have nd1 : ∀ n, (intervalGrid l r n 0).Nodup := intervalGrid_nodup (by simp [hlr.ne])
  have nd2 : (intervalGrid l r nIc δ).Nodup := intervalGrid_nodup (by intro hh; linarith) _
  have hin : ∀ x ∈ intervalGrid l r nIc δ, l < x ∧ x < r := fun x hx => intervalGrid_inside h0 (by linarith) hx
  have hbT : ∀ {n : ℕ}, ∀ t ∈ intervalGrid t0 T n 0, t0 ≤ t ∧ t ≤ T := fun t h => intervalGrid_bounds le_rfl (by linarith) h
  have hbX : ∀ {n : ℕ}, ∀ x ∈ intervalGrid l r n 0, l ≤ x ∧ x ≤ r := fun t h => intervalGrid_bounds le_rfl (by linarith) h
  have hnd : ∀ pde, (ptsOf pde [o0, o1, o2, o3]).Nodup := by
    intro b
    subst ho0 ho1 ho2 ho3
    cases b
    · change ((intervalGrid l r nIc δ).map (fun x => ![t0, x]) ++ ((intervalGrid t0 T nBc 0).map (fun t => ![t, l]) ++
        ((intervalGrid t0 T nBc 0).map (fun t => ![t, r]) ++ []))).Nodup
      rw [List.append_nil, List.nodup_append', List.nodup_append']
      refine ⟨nd2.map (inj0 t0), ⟨(nd0 _).map (inj1 l), (nd0 _).map (inj1 r), ?_⟩, ?_⟩
      · intro z hz hz'
        obtain ⟨t, -, rfl⟩ := List.mem_map.mp hz
        obtain ⟨t', -, ht'⟩ := List.mem_map.mp hz'
        exact hlr.ne' (by simpa using congrFun ht' 1)
      · intro z hz hz'
        obtain ⟨x, hx, rfl⟩ := List.mem_map.mp hz
        obtain ⟨hx1, hx2⟩ := hin x hx
        rcases List.mem_append.mp hz' with hz' | hz' <;> obtain ⟨t', -, ht'⟩ := List.mem_map.mp hz'
        · exact hx1.ne (by simpa using congrFun ht' 1)
        · exact hx2.ne' (by simpa using congrFun ht' 1)
    · change ((List.product (intervalGrid t0 T n0 0) (intervalGrid l r n1 0)).map (fun z : ℝ × ℝ => (![z.1, z.2] : Pt 2)) ++ []).Nodup
      rw [List.append_nil]
      refine ((nd0 n0).product (nd1 n1)).map fun z w hzw => Prod.ext ?_ ?_
      · simpa using congrFun hzw 0
      · simpa using congrFun hzw 1
  have hsolves : Fits h (heatCoefs hp α) f [o0, o1, o2, o3] := by
    subst ho0 ho1 ho2 ho3
    intro w hw
    simp only [List.mem_cons, List.not_mem_nil, or_false] at hw
    rcases hw with rfl | rfl | rfl | rfl
    · refine fits_mk h _ false (intervalGrid l r nIc δ) (fun x => ![t0, x]) u0 none (fun z hz => ?_) rfl
      rw [value_sum h _ (jet_spec f)]
      exact hic z ⟨(hin z hz).1.le, (hin z hz).2.le⟩
    · refine fits_mk h _ false (intervalGrid t0 T nBc 0) (fun t => ![t, l]) (fun _ => 0) noise (fun z hz => ?_) rfl
      rw [value_sum h _ (jet_spec f)]
      exact (hbc z (hbT z hz)).1
    · refine fits_mk h _ false (intervalGrid t0 T nBc 0) (fun t => ![t, r]) (fun _ => 0) noise (fun z hz => ?_) rfl
      rw [value_sum h _ (jet_spec f)]
      exact (hbc z (hbT z hz)).2
    · refine fits_mk h _ true (intervalGrid t0 T n0 0 ×ˢ intervalGrid l r n1 0) (fun z => ![z.1, z.2]) (fun z => g z.1 z.2) none (fun z hz => ?_) rfl
      obtain ⟨h1, h2⟩ := List.mem_product.mp hz
      exact heat_jet hp α f _ (hpde _ _ (hbT _ h1) (hbX _ h2))
  exact ⟨hnd, hsolves⟩

/-- The maximum principle for the heat equation. -/
lemma heat_close {p : Fin 2 → ℕ} (hp : HeatSmooth (n := 0) p) (hlow : IsLowerSet (box fun j => (p j : ℕ∞))) {α : ℝ} (hα : 0 ≤ α) {f g : Pt 2 → ℝ}
    {J J' : Ix 2 → Pt 2 → ℝ} (hJ : HasJet (box fun j => (p j : ℕ∞)) f J) (hJ' : HasJet (box fun j => (p j : ℕ∞)) g J')
    (hc : Continuous fun x => f x - g x) {t0 T l r τ τ' : ℝ}
    (hL : ∀ x ∈ cbox ![t0, l] ![T, r], |((heatCoefs hp α).sum fun β t => t * J β x) - (heatCoefs hp α).sum fun β t => t * J' β x| ≤ τ)
    (hb : ∀ x ∈ cbox ![t0, l] ![T, r], x 0 = t0 ∨ x 1 = l ∨ x 1 = r → |f x - g x| ≤ τ') {x : Pt 2} (hx : x ∈ cbox ![t0, l] ![T, r]) :
    |f x - g x| ≤ τ' + τ * (T - t0) := by
  have hI0 : (Pi.single 0 1 : Ix 2) ∈ box fun j => (p j : ℕ∞) := single_box hp.1
  have hI1 : (Pi.single 1 2 : Ix 2) ∈ box fun j => (p j : ℕ∞) := single_box (hp.2 0)
  have hdt : ∀ {f : Pt 2 → ℝ} {J : Ix 2 → Pt 2 → ℝ}, HasJet (box fun j => (p j : ℕ∞)) f J → ∀ x,
      HasDerivAt (fun t : ℝ => f (x + t • Pi.single 0 1)) (J (Pi.single 0 1) x) 0 := by
    intro f J hJ x
    have h := hJ.partial (α := 0) (j := 0) (by rw [zero_add]; exact hI0) x
    rw [hJ.zero, zero_add] at h
    exact h
  exact parabolic_max hc (Dt := fun x => J (Pi.single 0 1) x - J' (Pi.single 0 1) x)
    (Dx := fun x => J (Pi.single 1 2) x - J' (Pi.single 1 2) x) (fun x _ => (hdt hJ x).sub (hdt hJ' x))
    (fun x _ => (line2_of_jet hlow hI1 hJ x).sub (line2_of_jet hlow hI1 hJ' x)) hα (τ := τ) (fun x hx => by
      have h1 := hL x hx
      rw [heatCoefs_sum hp α fun β => J β x, heatCoefs_sum hp α fun β => J' β x] at h1
      simp only [Fin.sum_univ_succ, Finset.univ_eq_empty, Finset.sum_empty, add_zero, Fin.succ_zero_eq_one] at h1
      convert! h1 using 2
      ring) hb hx

/-- C75: the same for the heat equation with zero boundary values, observed exactly or with independent noise of any variance: let `f`
be a solution with finite distance to the prior mean. Then for every tolerance there are numbers of points and a bound on the inset of the initial points from which on the script
computes a posterior mean whose difference from `f` and whose residual in the equation stay below the tolerance on the whole of
`[t0, T] × [l, r]`. -/
theorem heat_converges {p : Fin 2 → ℕ} (hp : HeatSmooth (n := 0) p) {K : Ix 2 → Pt 2 → Ix 2 → Pt 2 → ℝ} (h : JetKernel (box fun j => (p j : ℕ∞)) K)
    (hs : Strict (box fun j => (p j : ℕ∞)) K) (hK : ContK (box fun j => (p j : ℕ∞)) K) (m : jetF (box fun j => (p j : ℕ∞)))
    {t0 T l r : ℝ} (ht : t0 < T) (hlr : l < r) {α : ℝ} (hα : 0 ≤ α) (f0 q sol : Option Fn) (hf0 : ∀ s, f0 = some s → s.inS = [])
    (hq : ∀ s, q = some s → s.inS = [2] ∧ s.outS = []) (hsol : ∀ s, sol = some s → s.inS = [2] ∧ s.outS = []) {u0 : ℝ → ℝ} {g : ℝ → ℝ → ℝ}
    (hu : ∀ x, (f0.getD (.zero [] [])).ev [x] = [u0 x]) (hg : ∀ t x, (q.getD (.zero [2] [])).ev [t, x] = [g t x])
    {f : jetF (box fun j => (p j : ℕ∞))} {B : ℝ} (hB : 0 ≤ B) (hf : Within (h.prior m) f B)
    (hic : ∀ x, l ≤ x ∧ x ≤ r → f.1 ![t0, x] = u0 x) (hbc : ∀ t, t0 ≤ t ∧ t ≤ T → f.1 ![t, l] = 0 ∧ f.1 ![t, r] = 0)
    (hpde : ∀ t x, t0 ≤ t ∧ t ≤ T → l ≤ x ∧ x ≤ r → HeatAt (n := 0) α f.1 ![t, x] (g t x)) 
    (noise : Option ℝ) (hv : ∀ v, noise = some v → 0 ≤ v) {τ : ℝ} (hτ : 0 < τ) :
    ∃ (N : ℕ) (δ0 : ℝ), 0 < δ0 ∧ ∀ nIc nBc n0 n1 : ℕ, nIc ≥ N → nBc ≥ N → n0 ≥ N → n1 ≥ N → ∀ δ : ℝ, 0 < δ → δ ≤ δ0 → ∀ e : Env, e.CholOK →
      ∃ (P : IBVP) (o : Obs 2) (os : List (Obs 2)) (c : Cond (h.prior m)),
        mkHeatProblem t0 (.dom (.interval l r)) T q α f0 sol = .ok P ∧ heatObs P nIc nBc [n0, n1] δ noise = .ok (o, os) ∧
        solve e h m (heatCoefs hp α) o os = .ok c ∧ ∀ t x, t0 ≤ t ∧ t ≤ T → l ≤ x ∧ x ≤ r →
          |f.1 ![t, x] - c.mean ![t, x]| ≤ τ ∧ ∃ y, HeatAt (n := 0) α c.mean ![t, x] y ∧ |g t x - y| ≤ τ := by
  have h1C : 0 < 1 + (T - t0) := by linarith
  set τ1 : ℝ := τ / (1 + (T - t0)) with hτ1
  have hτ1p : 0 < τ1 := div_pos hτ h1C
  have hτ1e : τ1 * (1 + (T - t0)) = τ := div_mul_cancel₀ _ h1C.ne'
  have hτ1le : τ1 ≤ τ := by nlinarith
  obtain ⟨η, hη, γ, hγ, hclose⟩ := solve_close_noise h hs hK m (heat_independent hp α h.zero_mem) hB hf (cbox_compact ![t0, l] ![T, r]) hτ1p
  obtain ⟨N, hN⟩ := grid_dense l r hη
  obtain ⟨M, hM⟩ := grid_dense t0 T hη
  obtain ⟨k, hk⟩ := exists_nat_gt (noise.getD 0 / γ)
  obtain ⟨M', hM'⟩ := grid_many ht hη (k + 1)
  refine ⟨max N (max M M'), min (η / 2) ((r - l) / 3), lt_min (by linarith) (by linarith), fun nIc nBc n0 n1 hnI hnB hn0 hn1 δ h0 hδ e he => ?_⟩
  have hδ1 : δ ≤ η / 2 := hδ.trans (min_le_left _ _)
  have hδ2 : 2 * δ < r - l := by have := hδ.trans (min_le_right _ _); linarith
  obtain ⟨P, hP, hO⟩ := heatObs_eq ht hlr α f0 q sol hf0 hq hsol hu hg nIc nBc n0 n1 δ noise
  set o0 : Obs 2 := ⟨false, (intervalGrid l r nIc δ).map fun x => ![t0, x], (intervalGrid l r nIc δ).map u0, none⟩ with ho0
  set o1 : Obs 2 := ⟨false, (intervalGrid t0 T nBc 0).map fun t => ![t, l], (intervalGrid t0 T nBc 0).map fun _ => 0, noise⟩ with ho1
  set o2 : Obs 2 := ⟨false, (intervalGrid t0 T nBc 0).map fun t => ![t, r], (intervalGrid t0 T nBc 0).map fun _ => 0, noise⟩ with ho2
  set o3 : Obs 2 := ⟨true, (intervalGrid t0 T n0 0 ×ˢ intervalGrid l r n1 0).map fun z => ![z.1, z.2],
        (intervalGrid t0 T n0 0 ×ˢ intervalGrid l r n1 0).map fun z => g z.1 z.2, none⟩ with ho3
  obtain ⟨hnd, hfits⟩ := heat_fits hp h ht hlr hic hbc hpde noise nIc nBc n0 n1 h0 hδ2 ho0 ho1 ho2 ho3
  have hNO : NoiseOK [o0, o1, o2, o3] := by
    intro o ho v hov
    simp only [List.mem_cons, List.not_mem_nil, or_false] at ho
    rcases ho with rfl | rfl | rfl | rfl
    · cases hov
    · exact hv v hov
    · exact hv v hov
    · cases hov
  obtain ⟨c, hc, J, hJ, hcont, hcl⟩ := hclose e he o0 [o1, o2, o3] hnd hNO hfits
  have hmem : ∀ t x, t0 ≤ t ∧ t ≤ T → l ≤ x ∧ x ≤ r → (![t, x] : Pt 2) ∈ cbox ![t0, l] ![T, r] := fun t x ht hx j => by
    fin_cases j
    · exact ht
    · exact hx
  have single : ∀ {x : Pt 2} {pde : Bool} (w : Obs 2), w ∈ [o0, o1, o2, o3] → w.pde = pde → w.noise = none → ∀ z ∈ w.X, dist z x < η →
      ∃ w ∈ [o0, o1, o2, o3], w.pde = pde ∧ ∃ T : Finset (Pt 2), T.Nonempty ∧ w.noise.getD 0 ≤ γ * T.card ∧ ∀ z ∈ T, z ∈ w.X ∧ dist z x < η := by
    intro x pde w hw hpd hn z hz hd
    refine ⟨w, hw, hpd, {z}, Finset.singleton_nonempty z, ?_, fun z' hz' => ?_⟩
    · rw [hn]
      simpa using hγ.le
    · obtain rfl := Finset.mem_singleton.mp hz'
      exact ⟨hz, hd⟩
  have hself : ∀ a b : ℝ, a = b → dist a b < η := fun a b hab => by rw [hab, dist_self]; exact hη
  have many : ∀ {x : Pt 2} {b : ℝ} (w : Obs 2), w ∈ [o0, o1, o2, o3] → w.pde = false → w.noise = noise →
      w.X = (intervalGrid t0 T nBc 0).map (fun t => (![t, b] : Pt 2)) → (t0 ≤ x 0 ∧ x 0 ≤ T) → x 1 = b →
      ∃ w ∈ [o0, o1, o2, o3], w.pde = false ∧ ∃ T : Finset (Pt 2), T.Nonempty ∧ w.noise.getD 0 ≤ γ * T.card ∧ ∀ z ∈ T, z ∈ w.X ∧ dist z x < η := by
    classical
    intro x b w hw hpd hn hX hx hb
    obtain ⟨Z, hZ, hz⟩ := hM' nBc (((le_max_right _ _).trans (le_max_right _ _)).trans hnB) (x 0) hx
    have hcard : (Z.image fun t => (![t, b] : Pt 2)).card = k + 1 := by
      rw [Finset.card_image_of_injective _ fun a a' haa => by simpa using congrFun haa 0, hZ]
    refine ⟨w, hw, hpd, Z.image fun t => ![t, b], by rw [← Finset.card_pos, hcard]; omega, ?_, fun z hz' => ?_⟩
    · rw [hn, hcard]
      have h1 := (div_lt_iff₀ hγ).mp hk
      push_cast
      linarith
    · obtain ⟨t, ht', rfl⟩ := Finset.mem_image.mp hz'
      rw [hX]
      refine ⟨List.mem_map_of_mem (f := fun t => (![t, b] : Pt 2)) (hz t ht').1, ?_⟩
      rw [dist_pi_lt_iff hη]
      intro j
      fin_cases j
      · exact (hz t ht').2
      · exact hself _ _ hb.symm
  have hres : ∀ x ∈ cbox ![t0, l] ![T, r], |((heatCoefs hp α).sum fun β t => t * jet f β x) - (heatCoefs hp α).sum fun β t => t * J β x| < τ1 := by
    intro x hx
    obtain ⟨z, hz, hzx⟩ := hN n1 ((le_max_left _ _).trans hn1) 0 le_rfl (by linarith) (by linarith) (x 1) (hx 1)
    obtain ⟨s, hs, hsx⟩ := hM n0 (((le_max_left _ _).trans (le_max_right _ _)).trans hn0) 0 le_rfl (by linarith) (by linarith) (x 0) (hx 0)
    exact hcl true x hx (single o3 (by simp) rfl rfl ![s, z]
      (List.mem_map_of_mem (f := fun z : ℝ × ℝ => (![z.1, z.2] : Pt 2)) (List.mem_product.mpr ⟨hs, hz⟩ : (s, z) ∈ _)) (by
      rw [dist_pi_lt_iff hη]
      intro j
      fin_cases j
      · exact hsx
      · exact hzx))
  have hbd : ∀ x ∈ cbox ![t0, l] ![T, r], x 0 = t0 ∨ x 1 = l ∨ x 1 = r → |f.1 x - c.mean x| ≤ τ1 := by
    intro x hx hj
    have := hcl false x hx (by
      rcases hj with hj | hj | hj
      · obtain ⟨z, hz, hzx⟩ := hN nIc ((le_max_left _ _).trans hnI) δ h0.le hδ1 hδ2 (x 1) (hx 1)
        refine single o0 (by simp) rfl rfl ![t0, z] (List.mem_map_of_mem (f := fun z : ℝ => (![t0, z] : Pt 2)) hz) ?_
        rw [dist_pi_lt_iff hη]
        intro j
        fin_cases j
        · exact hself _ _ hj.symm
        · exact hzx
      · exact many o1 (by simp) rfl rfl rfl (hx 0) hj
      · exact many o2 (by simp) rfl rfl rfl (hx 0) hj)
    rw [value_sum h _ (jet_spec f), value_sum h _ hJ] at this
    exact this.le
  refine ⟨P, o0, [o1, o2, o3], c, hP, hO, hc, fun t x ht hx => ⟨?_, ?_⟩⟩
  · have := heat_close hp h.lower hα (jet_spec f) hJ hcont (fun x hx => (hres x hx).le) hbd (hmem t x ht hx)
    refine this.trans (le_of_eq ?_)
    rw [← hτ1e]
    ring
  · refine ⟨_, heatAt_of_jet hp α hJ ![t, x], ?_⟩
    have := hres ![t, x] (hmem t x ht hx)
    rw [heat_jet hp α f _ (hpde t x ht hx), heatCoefs_sum hp α fun β => J β ![t, x]] at this
    exact this.le.trans hτ1le

/-- C75: for every grid, every noise on the boundary values and every solution at distance `√B` from the prior mean, the error of the
posterior mean is at most `√B` times the posterior standard deviation, everywhere. -/
theorem heat_region {p : Fin 2 → ℕ} (hp : HeatSmooth (n := 0) p) {K : Ix 2 → Pt 2 → Ix 2 → Pt 2 → ℝ} (h : JetKernel (box fun j => (p j : ℕ∞)) K)
    (hs : Strict (box fun j => (p j : ℕ∞)) K) (m : jetF (box fun j => (p j : ℕ∞)))
    {t0 T l r : ℝ} (ht : t0 < T) (hlr : l < r) (α : ℝ) (f0 q sol : Option Fn) (hf0 : ∀ s, f0 = some s → s.inS = [])
    (hq : ∀ s, q = some s → s.inS = [2] ∧ s.outS = []) (hsol : ∀ s, sol = some s → s.inS = [2] ∧ s.outS = []) {u0 : ℝ → ℝ} {g : ℝ → ℝ → ℝ}
    (hu : ∀ x, (f0.getD (.zero [] [])).ev [x] = [u0 x]) (hg : ∀ t x, (q.getD (.zero [2] [])).ev [t, x] = [g t x])
    {f : jetF (box fun j => (p j : ℕ∞))} {B : ℝ} (hB : 0 ≤ B) (hf : Within (h.prior m) f B)
    (hic : ∀ x, l ≤ x ∧ x ≤ r → f.1 ![t0, x] = u0 x) (hbc : ∀ t, t0 ≤ t ∧ t ≤ T → f.1 ![t, l] = 0 ∧ f.1 ![t, r] = 0)
    (hpde : ∀ t x, t0 ≤ t ∧ t ≤ T → l ≤ x ∧ x ≤ r → HeatAt (n := 0) α f.1 ![t, x] (g t x))
    (noise : Option ℝ) (hv : ∀ v, noise = some v → 0 ≤ v) (nIc nBc n0 n1 : ℕ) {δ : ℝ} (h0 : 0 < δ) (h1 : 2 * δ < r - l) (e : Env) (he : e.CholOK) :
    ∃ (P : IBVP) (o : Obs 2) (os : List (Obs 2)) (c : Cond (h.prior m)),
      mkHeatProblem t0 (.dom (.interval l r)) T q α f0 sol = .ok P ∧ heatObs P nIc nBc [n0, n1] δ noise = .ok (o, os) ∧
      solve e h m (heatCoefs hp α) o os = .ok c ∧ ∀ z, ∃ V, c.covfunc e z z = .ok V ∧ (f.1 z - c.mean z) ^ 2 ≤ B * V := by
  obtain ⟨P, hP, hO⟩ := heatObs_eq ht hlr α f0 q sol hf0 hq hsol hu hg nIc nBc n0 n1 δ noise
  obtain ⟨hnd, hfits⟩ := heat_fits hp h ht hlr hic hbc hpde noise nIc nBc n0 n1 h0 h1 rfl rfl rfl rfl
  obtain ⟨c, hc, hr⟩ := solve_region h hs m (heat_independent hp α h.zero_mem) hB hf e he _ _ hnd (by
    intro o ho v hov
    simp only [List.mem_cons, List.not_mem_nil, or_false] at ho
    rcases ho with rfl | rfl | rfl | rfl
    · cases hov
    · exact hv v hov
    · exact hv v hov
    · cases hov) hfits
  exact ⟨P, _, _, c, hP, hO, hc, hr⟩

/-! ## Boxes -/

/-- Points of a closed box. -/
def InBox (bs : List (ℝ × ℝ)) (x : List ℝ) : Prop := List.Forall₂ (fun b y => b.1 ≤ y ∧ y ≤ b.2) bs x

/-- Points of a closed box with a coordinate at an end. -/
def OnSide (bs : List (ℝ × ℝ)) (x : List ℝ) : Prop := InBox bs x ∧ ∃ (i : ℕ) (hi : i < bs.length), x.getD i 0 = bs[i].1 ∨ x.getD i 0 = bs[i].2

lemma face_of : ∀ {bs : List (ℝ × ℝ)} {x : List ℝ}, OnSide bs x → ∃ F ∈ faces bs, InBox F x
  | [], _, ⟨_, i, hi, _⟩ => absurd hi (by simp)
  | b :: bs, _, ⟨.cons (b := y) (l₂ := x) hy hx, i, hi, he⟩ => by
    cases i with
    | zero =>
      rcases he with he | he
      · have he : y = b.1 := he
        exact ⟨(b.1, b.1) :: bs, by simp [faces], .cons ⟨he.ge, he.le⟩ hx⟩
      · have he : y = b.2 := he
        exact ⟨(b.2, b.2) :: bs, by simp [faces], .cons ⟨he.ge, he.le⟩ hx⟩
    | succ i =>
      obtain ⟨F, hF, hFx⟩ := face_of (bs := bs) (x := x) ⟨hx, i, by simpa using hi, by simpa using he⟩
      exact ⟨b :: F, by simp [faces, hF], .cons hy hFx⟩

lemma side_of : ∀ {bs : List (ℝ × ℝ)}, (∀ b ∈ bs, b.1 < b.2) → ∀ {x : List ℝ}, ∀ F ∈ faces bs, InBox F x → OnSide bs x
  | [], _, _, F, hF, _ => by cases hF
  | b :: bs, h, x, F, hF, hx => by
    have hb := (h b List.mem_cons_self).le
    simp only [faces, List.cons_append, List.nil_append, List.mem_cons, List.mem_map] at hF
    rcases hF with rfl | rfl | ⟨G, hG, rfl⟩
    · cases hx with
      | cons hy hx => exact ⟨.cons ⟨hy.1, hy.2.trans hb⟩ hx, 0, by simp, .inl (le_antisymm hy.2 hy.1)⟩
    · cases hx with
      | cons hy hx => exact ⟨.cons ⟨hb.trans hy.1, hy.2⟩ hx, 0, by simp, .inr (le_antisymm hy.2 hy.1)⟩
    · cases hx with
      | cons hy hx =>
        obtain ⟨h1, i, hi, h2⟩ := side_of (fun c hc => h c (List.mem_cons_of_mem _ hc)) G hG hx
        exact ⟨.cons hy h1, i + 1, by simpa using hi, by simpa using h2⟩

/-- The points of uniform grids lie in the box. -/
lemma boxUniform_in {bs : List (ℝ × ℝ)} {shape : List ℕ} {ε : ℝ} (hε : ∀ b ∈ bs, b.1 ≠ b.2 → 0 ≤ ε ∧ ε ≤ b.2 - b.1)
    {xs : List (List ℝ)} (h : boxUniform bs shape ε = .ok xs) : ∀ x ∈ xs, InBox bs x := by
  change (asShape (interior bs).length shape >>= fun s => liftDom (boxGrid bs s (List.replicate (interior bs).length ε)) : Except Pde.Err _) = _ at h
  cases hsh : asShape (interior bs).length shape with
  | error e => rw [hsh] at h; cases h
  | ok sh =>
    rw [hsh] at h
    obtain ⟨fs, e, hpr, hl⟩ := boxGridFactors_ok bs sh (List.replicate (interior bs).length ε) (asShape_length hsh) (by simp)
    have hF := factors_spec (ε := ε) bs sh _ fs (fun x hx => (List.mem_replicate.mp hx).2) e
    replace h : liftDom (boxGrid bs sh (List.replicate (interior bs).length ε)) = .ok xs := h
    unfold boxGrid at h
    rw [e] at h
    obtain rfl : gridPoints fs = xs := Except.ok.inj h
    clear h e hpr hl hsh
    intro x hx
    rw [gridPoints_spec] at hx
    induction hF generalizing x with
    | nil => cases hx; exact .nil
    | @cons b g bs fs hbg _ ih =>
      cases hx with
      | cons hy hx =>
        refine .cons ?_ (ih (fun c hc => hε c (List.mem_cons_of_mem _ hc)) _ hx)
        rcases hbg with ⟨h1, rfl⟩ | ⟨h1, n, rfl⟩
        · rw [List.mem_singleton] at hy
          exact ⟨hy.ge, (hy.trans h1).le⟩
        · obtain ⟨h2, h3⟩ := hε b List.mem_cons_self h1
          exact intervalGrid_bounds h2 h3 hy

lemma factors_fill {η ε : ℝ} (h0 : 0 < η) {N : ℕ} : ∀ (bs : List (ℝ × ℝ)) (shape : List ℕ) (inset : List ℝ) (fs : List (List ℝ)), (∀ x ∈ inset, x = ε) →
    (∀ n ∈ shape, n ≥ N) → boxGridFactors bs shape inset = .ok fs →
    (∀ b ∈ bs, b.1 ≠ b.2 → ∀ n ≥ N, ∀ x, b.1 ≤ x ∧ x ≤ b.2 → ∃ z ∈ intervalGrid b.1 b.2 n ε, |z - x| < η) → ∀ x, InBox bs x →
    ∃ z, List.Forall₂ (fun g y => y ∈ g) fs z ∧ List.Forall₂ (fun a b => |a - b| < η) z x
  | [], shape, inset, fs, _, _, e, _, x, hx => by
    cases shape <;> cases inset <;> simp [boxGridFactors] at e
    subst e
    cases hx
    exact ⟨[], .nil, .nil⟩
  | b :: bs, shape, inset, fs, hε, hn, e, hd, x, hx => by
    cases hx with
    | @cons _ y _ x hy hx =>
    by_cases hb : b.1 = b.2
    · rw [bgf_col hb] at e
      cases h3 : boxGridFactors bs shape inset with
      | error err => rw [h3] at e; cases e
      | ok r =>
        rw [h3] at e
        cases e
        obtain ⟨z, h4, h5⟩ := factors_fill h0 bs shape inset r hε hn h3 (fun c hc => hd c (List.mem_cons_of_mem _ hc)) x hx
        refine ⟨b.1 :: z, .cons (by simp) h4, .cons ?_ h5⟩
        have : b.1 = y := le_antisymm hy.1 (hy.2.trans hb.ge)
        rw [this, sub_self, abs_zero]
        exact h0
    · cases shape with
      | nil => rw [bgf_nil hb] at e; cases e
      | cons n shape =>
        cases inset with
        | nil => simp only [boxGridFactors, if_neg hb] at e; cases e
        | cons i inset =>
          rw [bgf_int hb] at e
          cases h3 : boxGridFactors bs shape inset with
          | error err => rw [h3] at e; cases e
          | ok r =>
            rw [h3] at e
            cases e
            obtain ⟨z, h4, h5⟩ := factors_fill h0 bs shape inset r (fun y hy => hε y (List.mem_cons_of_mem _ hy))
              (fun k hk => hn k (List.mem_cons_of_mem _ hk)) h3 (fun c hc => hd c (List.mem_cons_of_mem _ hc)) x hx
            obtain ⟨a, ha, hay⟩ := hd b List.mem_cons_self hb n (hn n List.mem_cons_self) y hy
            exact ⟨a :: z, .cons (by rw [hε i List.mem_cons_self]; exact ha) h4, .cons hay h5⟩

/-- Uniform grids of boxes become dense. -/
lemma boxUniform_fill {η ε : ℝ} (h0 : 0 < η) {N : ℕ} {bs : List (ℝ × ℝ)} {shape sh : List ℕ} (hsh : asShape (interior bs).length shape = .ok sh)
    (hn : ∀ n ∈ sh, n ≥ N) (hd : ∀ b ∈ bs, b.1 ≠ b.2 → ∀ n ≥ N, ∀ x, b.1 ≤ x ∧ x ≤ b.2 → ∃ z ∈ intervalGrid b.1 b.2 n ε, |z - x| < η)
    {xs : List (List ℝ)} (h : boxUniform bs shape ε = .ok xs) {x : List ℝ} (hx : InBox bs x) :
    ∃ z ∈ xs, List.Forall₂ (fun a b => |a - b| < η) z x := by
  change (asShape (interior bs).length shape >>= fun s => liftDom (boxGrid bs s (List.replicate (interior bs).length ε)) : Except Pde.Err _) = _ at h
  rw [hsh] at h
  obtain ⟨fs, e, hpr, hl⟩ := boxGridFactors_ok bs sh (List.replicate (interior bs).length ε) (asShape_length hsh) (by simp)
  have h : liftDom (boxGrid bs sh (List.replicate (interior bs).length ε)) = .ok xs := h
  unfold boxGrid at h
  rw [e] at h
  obtain rfl : gridPoints fs = xs := Except.ok.inj h
  obtain ⟨z, h1, h2⟩ := factors_fill h0 bs sh _ fs (fun x hx => (List.mem_replicate.mp hx).2) hn e hd x hx
  exact ⟨z, (gridPoints_spec fs z).mpr h1, h2⟩

lemma grid_dense_list {η : ℝ} (hη : 0 < η) : ∀ bs : List (ℝ × ℝ), ∃ N : ℕ, ∀ b ∈ bs, ∀ n ≥ N, ∀ δ, 0 ≤ δ → δ ≤ η / 2 → 2 * δ < b.2 - b.1 →
    ∀ x, b.1 ≤ x ∧ x ≤ b.2 → ∃ z ∈ intervalGrid b.1 b.2 n δ, |z - x| < η
  | [] => ⟨0, by simp⟩
  | b :: bs => by
    obtain ⟨N, hN⟩ := grid_dense b.1 b.2 hη
    obtain ⟨M, hM⟩ := grid_dense_list hη bs
    refine ⟨max N M, fun c hc n hn => ?_⟩
    rcases List.mem_cons.mp hc with rfl | hc
    · exact hN n ((le_max_left _ _).trans hn)
    · exact hM c hc n ((le_max_right _ _).trans hn)

lemma min_extent : ∀ {bs : List (ℝ × ℝ)}, (∀ b ∈ bs, b.1 < b.2) → ∃ w : ℝ, 0 < w ∧ ∀ b ∈ bs, w ≤ b.2 - b.1
  | [], _ => ⟨1, one_pos, by simp⟩
  | b :: bs, h => by
    obtain ⟨w, h0, hw⟩ := min_extent fun c hc => h c (List.mem_cons_of_mem _ hc)
    refine ⟨min (b.2 - b.1) w, lt_min (by linarith [h b List.mem_cons_self]) h0, fun c hc => ?_⟩
    rcases List.mem_cons.mp hc with rfl | hc
    · exact min_le_left _ _
    · exact (min_le_right _ _).trans (hw c hc)

lemma toPt_ofFn (z : Pt d) : toPt d (List.ofFn z) = z := by
  funext i
  simp [toPt]

lemma inBox_iff {bs : List (ℝ × ℝ)} (hd : bs.length = d) (x : List ℝ) :
    InBox bs x ↔ x.length = d ∧ ∀ i : Fin d, (bs.getD i (0, 0)).1 ≤ x.getD i 0 ∧ x.getD i 0 ≤ (bs.getD i (0, 0)).2 := by
  unfold InBox
  rw [List.forall₂_iff_get]
  constructor
  · rintro ⟨h1, h2⟩
    refine ⟨h1.symm.trans hd, fun i => ?_⟩
    have hi : i.1 < bs.length := by rw [hd]; exact i.2
    have hi' : i.1 < x.length := h1 ▸ hi
    have := h2 i.1 hi hi'
    simpa [List.getD_eq_getElem?_getD, hi, hi'] using this
  · rintro ⟨h1, h2⟩
    refine ⟨hd.trans h1.symm, fun i hi hi' => ?_⟩
    have := h2 ⟨i, hd ▸ hi⟩
    simpa [List.getD_eq_getElem?_getD, hi, hi'] using this

lemma dist_toPt {η : ℝ} (hη : 0 < η) {z x : List ℝ} (h : List.Forall₂ (fun a b => |a - b| < η) z x) : dist (toPt d z) (toPt d x) < η := by
  rw [dist_pi_lt_iff hη]
  intro i
  show |z.getD i 0 - x.getD i 0| < η
  rw [List.forall₂_iff_get] at h
  by_cases hi : i.1 < z.length
  · have hi' : i.1 < x.length := h.1 ▸ hi
    have := h.2 i.1 hi hi'
    simpa [List.getD_eq_getElem?_getD, hi, hi'] using this
  · have hi' : ¬ i.1 < x.length := h.1 ▸ hi
    simpa [List.getD_eq_getElem?_getD, hi, hi'] using hη

/-- The lower corner of a box. -/
def boxLo (d : ℕ) (bs : List (ℝ × ℝ)) : Pt d := fun i => (bs.getD i (0, 0)).1

/-- The upper corner of a box. -/
def boxHi (d : ℕ) (bs : List (ℝ × ℝ)) : Pt d := fun i => (bs.getD i (0, 0)).2

/-- The Poisson equation on a box, with grids that come within `η` of every point. -/
lemma poisson_of_close (h : JetKernel I K) (m : jetF I)
    {bs : List (ℝ × ℝ)} (hbs : ∀ b ∈ bs, b.1 < b.2) (hd : bs.length = d) (j0 : Fin d) {α : ℝ} (hα : α ≠ 0) (hI : orders (poissonOp d α) ⊆ I)
    (fb rhs : Fn) (hr : rhs.inS = [d] ∧ rhs.outS = []) (hfb : fb.inS = [d]) {u g : List ℝ → ℝ} (hu : ∀ x, fb.ev x = [u x]) (hg : ∀ x, rhs.ev x = [g x])
    {f : jetF I} (hside : ∀ x, OnSide bs x → f.1 (toPt d x) = u x)
    (hpde : ∀ x, InBox bs x → OpAt (poissonOp d α) f.1 (toPt d x) (g x)) {η τ : ℝ} (hη : 0 < η)
    (hclose : Close h m (coefs (poissonOp d α) hI) f (cbox (boxLo d bs) (boxHi d bs)) η τ)
    {ε : ℝ} (hε : 0 < ε) (hε2 : ∀ b ∈ bs, 2 * ε < b.2 - b.1) {N : ℕ}
    (hN : ∀ δ, δ = 0 ∨ δ = ε → ∀ b ∈ bs, ∀ n ≥ N, ∀ x, b.1 ≤ x ∧ x ≤ b.2 → ∃ z ∈ intervalGrid b.1 b.2 n δ, |z - x| < η)
    {nBc nPde sB sP : List ℕ} (hsB : asShape (d - 1) nBc = .ok sB) (hsP : asShape d nPde = .ok sP) (hnB : ∀ n ∈ sB, n ≥ N) (hnP : ∀ n ∈ sP, n ≥ N)
    (e : Env) (he : e.CholOK) : ∃ (P : BVP) (o : Obs d) (os : List (Obs d)) (c : Cond (h.prior m)),
        mkPoissonProblem (.dom (.box bs)) (some rhs) α (some (.fn fb)) none = .ok P ∧ poissonObs d P nBc nPde ε = .ok (o :: os) ∧
        solve e h m (coefs (poissonOp d α) hI) o os = .ok c ∧ ∀ x, InBox bs x →
          |f.1 (toPt d x) - c.mean (toPt d x)| ≤ τ + τ / |α| * ((boxHi d bs j0 - boxLo d bs j0) ^ 2 / 8) ∧
          ∃ y, OpAt (poissonOp d α) c.mean (toPt d x) y ∧ |g x - y| ≤ τ := by
  have h0 : d ≠ 0 := fun h => by subst h; exact j0.elim0
  have hii : interior bs = bs := List.filter_eq_self.mpr fun c hc => by simpa using (hbs c hc).ne
  obtain ⟨lo, hlo⟩ : ∃ lo, lo = boxLo d bs := ⟨_, rfl⟩
  obtain ⟨hi, hhi⟩ : ∃ hi, hi = boxHi d bs := ⟨_, rfl⟩
  rw [← hlo, ← hhi] at hclose ⊢
  obtain ⟨O, hOdef⟩ : ∃ O : List (ℝ × ℝ) → Obs d,
      O = fun F => ⟨false, (pointsOf (boxUniform F nBc ε)).map (toPt d), (pointsOf (boxUniform F nBc ε)).map u, none⟩ := ⟨_, rfl⟩
  obtain ⟨P, xp, hPP, hO, hface, hgrid, p1, p2, hn⟩ := poissonObs_spec hbs hd h0 α fb rhs hr hfb hu hg nBc nPde sB sP hsB hsP hε
    (fun b hb => ⟨by have := hε2 b hb; linarith, (hε2 b hb).ne⟩) hOdef
  set o1 : Obs d := ⟨true, xp.map (toPt d), xp.map g, none⟩ with ho1
  have hlen : ∀ x : List ℝ, x.length = d → List.ofFn (toPt d x) = x := fun x hx => by
    subst hx
    refine List.ext_getElem (by simp) fun i h1 h2 => ?_
    simp [toPt, h2]
  have hinF : ∀ F ∈ faces bs, ∀ z ∈ pointsOf (boxUniform F nBc ε), OnSide bs z := fun F hF z hz => by
    refine side_of hbs F hF (boxUniform_in (fun b hb hne => ?_) (hgrid F hF).1 z hz)
    have := hε2 b (((hface F hF).2.2.2.2 b hb).resolve_left hne)
    exact ⟨hε.le, by linarith⟩
  have hsolves : Solves h (coefs (poissonOp d α) hI) f ((faces bs).map O ++ [o1]) := by
    intro w hw
    rw [List.mem_append, List.mem_map, List.mem_singleton] at hw
    rcases hw with ⟨F, hF, rfl⟩ | rfl
    · refine solves_mk h _ false (pointsOf (boxUniform F nBc ε)) (toPt d) u (fun z hz => ?_) (by rw [hOdef])
      rw [value_sum h _ (jet_spec f)]
      exact hside z (hinF F hF z hz)
    · refine solves_mk h _ true xp (toPt d) g (fun z hz => ?_) rfl
      exact poisson_jet h.lower hI f _ (hpde z (boxUniform_in (fun b hb _ => ⟨le_rfl, by linarith [hbs b hb]⟩) p1 z hz))
  obtain ⟨o, os, hos⟩ : ∃ o os, (faces bs).map O ++ [o1] = o :: os := by
    cases h : (faces bs).map O ++ [o1] with
    | nil => simp at h
    | cons o os => exact ⟨o, os, rfl⟩
  obtain ⟨c, hc, J, hJ, hcont, hcl⟩ := hclose e he o os (by rw [← hos]; exact hn) (by rw [← hos]; exact hsolves)
  rw [← hos] at hcl
  have hbox : ∀ x : Pt d, x ∈ cbox lo hi → InBox bs (List.ofFn x) := fun x hx => by
    rw [inBox_iff hd]
    refine ⟨by simp, fun i => ?_⟩
    have : lo i ≤ x i ∧ x i ≤ hi i := hx i
    simp only [hlo, hhi, boxLo, boxHi] at this
    simpa using this
  have hmem : ∀ x, InBox bs x → toPt d x ∈ cbox lo hi := fun x hx i => by
    rw [hlo, hhi]
    exact ((inBox_iff hd x).mp hx).2 i
  have hres : ∀ x ∈ cbox lo hi, |((coefs (poissonOp d α) hI).sum fun β t => t * jet f β x) - (coefs (poissonOp d α) hI).sum fun β t => t * J β x| ≤ τ := by
    intro x hx
    obtain ⟨z, hz, hzx⟩ := boxUniform_fill hη (by rw [hii, hd]; exact hsP) hnP
      (fun b hb _ n hn x hx => hN 0 (.inl rfl) b hb n hn x hx) p1 (hbox x hx)
    have hdz := dist_toPt (d := d) hη hzx
    rw [toPt_ofFn] at hdz
    exact hcl true x hx ⟨o1, by simp, rfl, toPt d z, List.mem_map_of_mem hz,
      hmem z (boxUniform_in (fun b hb _ => ⟨le_rfl, by linarith [hbs b hb]⟩) p1 z hz), hdz⟩
  have hbd : ∀ x ∈ cbox lo hi, (∃ j, x j = lo j ∨ x j = hi j) → |f.1 x - c.mean x| ≤ τ := by
    rintro x hx ⟨j, hj⟩
    have hjl : j.1 < bs.length := by rw [hd]; exact j.2
    obtain ⟨F, hF, hFx⟩ := face_of (bs := bs) (x := List.ofFn x) ⟨hbox x hx, j, hjl, by
      have e1 : lo j = bs[j.1].1 := by simp [hlo, boxLo, hjl]
      have e2 : hi j = bs[j.1].2 := by simp [hhi, boxHi, hjl]
      rw [← e1, ← e2]
      simpa using hj⟩
    have hsF : asShape (interior F).length nBc = .ok sB := by rw [(hface F hF).2.2.1]; exact hsB
    obtain ⟨z, hz, hzx⟩ := boxUniform_fill hη hsF hnB (fun b hb hne n hn x hx => by
      have hb' := ((hface F hF).2.2.2.2 b hb).resolve_left hne
      exact hN ε (.inr rfl) b hb' n hn x hx) (hgrid F hF).1 hFx
    have hdz := dist_toPt (d := d) hη hzx
    rw [toPt_ofFn] at hdz
    have := hcl false x hx ⟨O F, List.mem_append_left _ (List.mem_map_of_mem hF), by rw [hOdef], toPt d z, by
      rw [hOdef]
      exact List.mem_map_of_mem hz, hmem z (hinF F hF z hz).1, hdz⟩
    rw [value_sum h _ (jet_spec f), value_sum h _ hJ] at this
    exact this
  refine ⟨P, o, os, c, hPP, hO.trans (by rw [hos]), hc, fun x hx => ⟨?_, ?_⟩⟩
  · exact poisson_close h.lower hα hI j0 (jet_spec f) hJ hcont hres hbd (hmem x hx)
  · refine ⟨_, poisson_sum h hI hJ (toPt d x) rfl, ?_⟩
    have := hres (toPt d x) (hmem x hx)
    rw [poisson_jet h.lower hI f _ (hpde x hx)] at this
    exact this

/-- C75: the same for the Poisson equation on a box of any dimension with boundary values given by a function: the grids of all
sides and of the domain have to be fine enough in every axis. -/
theorem poisson_converges (h : JetKernel I K) (hs : Strict I K) (hK : ContK I K) (m : jetF I)
    {bs : List (ℝ × ℝ)} (hbs : ∀ b ∈ bs, b.1 < b.2) (hd : bs.length = d) (h0 : d ≠ 0) {α : ℝ} (hα : α ≠ 0) (hI : orders (poissonOp d α) ⊆ I)
    (fb rhs : Fn) (hr : rhs.inS = [d] ∧ rhs.outS = []) (hfb : fb.inS = [d]) {u g : List ℝ → ℝ} (hu : ∀ x, fb.ev x = [u x]) (hg : ∀ x, rhs.ev x = [g x])
    {f : jetF I} {B : ℝ} (hB : 0 ≤ B) (hf : Within (h.prior m) f B) (hside : ∀ x, OnSide bs x → f.1 (toPt d x) = u x)
    (hpde : ∀ x, InBox bs x → OpAt (poissonOp d α) f.1 (toPt d x) (g x)) {τ : ℝ} (hτ : 0 < τ) :
    ∃ (N : ℕ) (ε0 : ℝ), 0 < ε0 ∧ ∀ nBc nPde sB sP : List ℕ, asShape (d - 1) nBc = .ok sB → asShape d nPde = .ok sP → (∀ n ∈ sB, n ≥ N) → (∀ n ∈ sP, n ≥ N) →
      ∀ ε : ℝ, 0 < ε → ε ≤ ε0 → ∀ e : Env, e.CholOK → ∃ (P : BVP) (o : Obs d) (os : List (Obs d)) (c : Cond (h.prior m)),
        mkPoissonProblem (.dom (.box bs)) (some rhs) α (some (.fn fb)) none = .ok P ∧ poissonObs d P nBc nPde ε = .ok (o :: os) ∧
        solve e h m (coefs (poissonOp d α) hI) o os = .ok c ∧ ∀ x, InBox bs x →
          |f.1 (toPt d x) - c.mean (toPt d x)| ≤ τ ∧ ∃ y, OpAt (poissonOp d α) c.mean (toPt d x) y ∧ |g x - y| ≤ τ := by
  have j0 : Fin d := ⟨0, Nat.pos_of_ne_zero h0⟩
  set C : ℝ := 1 / |α| * ((boxHi d bs j0 - boxLo d bs j0) ^ 2 / 8) with hC
  have hC0 : 0 ≤ C := mul_nonneg (by positivity) (by positivity)
  set τ1 : ℝ := τ / (1 + C) with hτ1
  have h1C : 0 < 1 + C := by linarith
  have hτ1p : 0 < τ1 := div_pos hτ h1C
  have hτ1e : τ1 * (1 + C) = τ := div_mul_cancel₀ _ h1C.ne'
  have hτ1le : τ1 ≤ τ := by nlinarith
  obtain ⟨η, hη, hclose⟩ := exists_close h hs hK m (poisson_indep h hα h0 hI) hB hf (cbox_compact (boxLo d bs) (boxHi d bs)) hτ1p
  obtain ⟨N, hN⟩ := grid_dense_list hη bs
  obtain ⟨w, hw0, hw⟩ := min_extent hbs
  refine ⟨N, min (η / 2) (w / 3), lt_min (by linarith) (by linarith), fun nBc nPde sB sP hsB hsP hnB hnP ε hε hεle e he => ?_⟩
  have hε1 : ε ≤ η / 2 := hεle.trans (min_le_left _ _)
  have hε2 : ∀ b ∈ bs, 2 * ε < b.2 - b.1 := fun b hb => by have := hεle.trans (min_le_right _ _); have := hw b hb; linarith
  obtain ⟨P, o, os, c, k1, k2, k3, k4⟩ := poisson_of_close h m hbs hd j0 hα hI fb rhs hr hfb hu hg hside hpde hη hclose hε hε2 (N := N) (by
    rintro δ (rfl | rfl) b hb n hn x hx
    · exact hN b hb n hn 0 le_rfl (by linarith) (by linarith [hbs b hb]) x hx
    · exact hN b hb n hn δ hε.le hε1 (hε2 b hb) x hx) hsB hsP hnB hnP e he
  refine ⟨P, o, os, c, k1, k2, k3, fun x hx => ⟨(k4 x hx).1.trans (le_of_eq ?_), ?_⟩⟩
  · rw [← hτ1e, hC]
    ring
  · obtain ⟨y, h1, h2⟩ := (k4 x hx).2
    exact ⟨y, h1, h2.trans hτ1le⟩

/-! ## Solutions at finite distance -/

/-- Matérn-5/2 process on an interval: a kernel function solves the equation for the right-hand side it determines. -/
example {τ : ℝ} (hτ : 0 < τ) : ∃ (q : Fn) (f : Pt 1 → ℝ), f ![0] ≠ 0 ∧ ∃ N : ℕ, ∀ n ≥ N, ∀ e : Env, e.CholOK →
    ∃ (P : BVP) (b o : Obs 1) (c : Cond ((matern_jet (fun _ : Fin 1 => 2) fun _ => 1).prior 0)) (hI : _),
      mkPoissonProblem (.dom (.interval (-1) 1)) (some q) 1 (some (.array [2] [f ![-1], f ![1]])) none = .ok P ∧ poisson1Obs P n 0 = .ok (b, o) ∧
      solve e (matern_jet (fun _ : Fin 1 => 2) fun _ => 1) 0 (coefs (poissonOp 1 1) hI) b [o] = .ok c ∧ ∀ x, -1 ≤ x ∧ x ≤ 1 → |f ![x] - c.mean ![x]| ≤ τ := by
  set h := matern_jet (fun _ : Fin 1 => 2) fun _ => (1 : ℝ) with hh
  have hI : orders (poissonOp 1 1) ⊆ box fun _ : Fin 1 => ((2 : ℕ) : ℕ∞) := by
    rintro _ ⟨j, rfl⟩ k
    obtain rfl : k = j := Subsingleton.elim _ _
    simp
  set P := h.prior 0 with hP
  set L := (jet_regular h 0).ev ![0] with hL
  set f : jetF _ := P.m + P.cross L with hf
  obtain ⟨N, δ0, h0, hN⟩ := poisson1_converges h (matern_strict _ fun _ => one_ne_zero) (matern_cont _ _) 0 (l := -1) (r := 1) (by norm_num)
    (α := 1) one_ne_zero hI (some (.other [] [] fun x => [opSum (poissonOp 1 1) (jet f) ![x.getD 0 0]])) none (by rintro _ ⟨⟩; exact ⟨rfl, rfl⟩)
    (by simp) (g := fun x => opSum (poissonOp 1 1) (jet f) ![x]) (fun x => rfl) (f := f) ((jet_regular h 0).nonneg L) (within_cross (jet_regular h 0) L)
    (fun x _ => opAt_of_jet h.lower _ hI trivial (jet_spec f) _) hτ
  refine ⟨.other [] [] fun x => [opSum (poissonOp 1 1) (jet f) ![x.getD 0 0]], f.1, ?_, N, fun n hn e he => ?_⟩
  · intro h0
    have h1 : f.1 ![0] = 0 + matK (fun _ : Fin 1 => 2) (fun _ => 1) 0 ![0] 0 ![0] := rfl
    rw [h1, zero_add] at h0
    have := (matern_strict (fun _ : Fin 1 => 2) (s := fun _ => 1) fun _ => one_ne_zero).definite 1 ![(⟨0, h.zero_mem⟩, ![0])]
      (fun i j _ => Subsingleton.elim _ _) ![1] (by simpa using h0)
    simpa using congrFun this 0
  · obtain ⟨P, b, o, c, k1, k2, k3, k4⟩ := hN n hn 0 le_rfl h0.le e he
    exact ⟨P, b, o, c, hI, k1, k2, k3, fun x hx => (k4 x hx).1⟩

/-- Matérn-3/2 process in time and Matérn-5/2 process in space: a combination of three kernel functions that vanishes at the
ends of the interval solves the heat equation for the initial values and the right-hand side it determines. -/
example {τ : ℝ} (hτ : 0 < τ) : ∃ (f0 q : Fn) (f : Pt 2 → ℝ), f ![0, 0] ≠ 0 ∧ ∃ (N : ℕ) (δ0 : ℝ), 0 < δ0 ∧ ∀ n ≥ N, ∀ e : Env, e.CholOK →
    ∃ (P : IBVP) (o : Obs 2) (os : List (Obs 2)) (c : Cond ((matern_jet ![1, 2] ![1, 1]).prior 0)) (hp : HeatSmooth (n := 0) ![1, 2]),
      mkHeatProblem 0 (.dom (.interval (-1) 1)) 5 (some q) 0.1 (some f0) none = .ok P ∧ heatObs P n n [n, n] δ0 none = .ok (o, os) ∧
      solve e (matern_jet ![1, 2] ![1, 1]) 0 (heatCoefs hp 0.1) o os = .ok c ∧ ∀ t x, 0 ≤ t ∧ t ≤ 5 → -1 ≤ x ∧ x ≤ 1 → |f ![t, x] - c.mean ![t, x]| ≤ τ := by
  set h := matern_jet ![1, 2] ![(1 : ℝ), 1] with hh
  have hp : HeatSmooth (n := 0) ![1, 2] := ⟨le_rfl, fun j => by fin_cases j; exact le_rfl⟩
  have hs : Strict (box fun j => ((![1, 2] : Fin 2 → ℕ) j : ℕ∞)) (matK ![1, 2] ![(1 : ℝ), 1]) := matern_strict _ fun j => by fin_cases j <;> simp
  have hk : ∀ t x s y : ℝ, matK ![1, 2] ![(1 : ℝ), 1] 0 ![t, x] 0 ![s, y] = phi 1 0 (t - s) * phi 2 0 (x - y) := by
    intro t x s y
    simp [matK, prodK, jetK, Fin.prod_univ_two]
  have hev : ∀ t, phi 2 0 (-t) = phi 2 0 t := by
    intro t
    rcases lt_trichotomy t 0 with ht | rfl | ht
    · rw [phi_of_nonneg (by linarith), phi_of_nonpos ht.le (.inl (by norm_num))]; simp
    · simp
    · rw [phi_of_nonneg ht.le, phi_of_nonpos (by linarith) (.inl (by norm_num))]; simp
  set a : ℝ := phi 2 0 0 + phi 2 0 2 with ha
  set b : ℝ := -phi 2 0 1 with hb
  set P := h.prior 0 with hP
  set ev := (jet_regular h 0).ev with hevl
  set L := a • ev ![0, 0] + b • ev ![0, 1] + b • ev ![0, -1] with hL
  set f : jetF _ := P.m + P.cross L with hf
  have hfv : ∀ t x, f.1 ![t, x] = phi 1 0 t * (a * phi 2 0 x + b * phi 2 0 (x - 1) + b * phi 2 0 (x + 1)) := by
    intro t x
    have h1 : f.1 ![t, x] = 0 + (a * matK ![1, 2] ![(1 : ℝ), 1] 0 ![t, x] 0 ![0, 0] + b * matK ![1, 2] ![(1 : ℝ), 1] 0 ![t, x] 0 ![0, 1] +
      b * matK ![1, 2] ![(1 : ℝ), 1] 0 ![t, x] 0 ![0, -1]) := rfl
    rw [h1, hk, hk, hk]
    simp only [sub_zero, sub_neg_eq_add]
    ring
  have hr : ∀ t, f.1 ![t, 1] = 0 := by
    intro t
    rw [hfv, ha, hb]
    norm_num
    right
    ring
  have hl : ∀ t, f.1 ![t, -1] = 0 := by
    intro t
    rw [hfv, hev, show (-1 : ℝ) - 1 = -2 by norm_num, hev, ha, hb]
    norm_num
    right
    ring
  have hzero : (0 : Ix 2) ∈ box fun j => ((![1, 2] : Fin 2 → ℕ) j : ℕ∞) := h.zero_mem
  have hne : f.1 ![0, 0] ≠ 0 := by
    intro h0
    have h2 : a ≠ 0 := by
      intro ha0
      have := hs.definite 2 ![(⟨0, hzero⟩, ![0, 1]), (⟨0, hzero⟩, ![0, -1])] (by
        intro i j hij
        fin_cases i <;> fin_cases j
        · rfl
        · have := congrFun (congrArg Prod.snd hij) 1
          norm_num at this
        · have := congrFun (congrArg Prod.snd hij) 1
          norm_num at this
        · rfl) ![1, 1] (by
        simp only [Fin.sum_univ_two, Matrix.cons_val_zero, Matrix.cons_val_one, hk]
        have : phi 2 0 (-1 - 1) = phi 2 0 2 := by rw [show (-1 : ℝ) - 1 = -2 by norm_num, hev]
        rw [this]
        norm_num
        linear_combination (2 * phi 1 0 0) * ha0)
      simpa using congrFun this 0
    have := hs.definite 3 ![(⟨0, hzero⟩, ![0, 0]), (⟨0, hzero⟩, ![0, 1]), (⟨0, hzero⟩, ![0, -1])] (by
        intro i j hij
        fin_cases i <;> fin_cases j <;> first
        | rfl
        | have := congrFun (congrArg Prod.snd hij) 1
          norm_num at this) ![a, b, b] (by
        have e0 := h0
        have e1 := hr 0
        have e2 := hl 0
        rw [hfv] at e0 e1 e2
        simp only [Fin.sum_univ_three, Matrix.cons_val_zero, Matrix.cons_val_one, Matrix.cons_val, hk]
        norm_num [-mul_eq_zero] at e0 e1 e2 ⊢
        linear_combination a * e0 + b * e1 + b * e2)
    exact h2 (congrFun this 0)
  have hpde : ∀ t x, HeatAt (n := 0) 0.1 f.1 ![t, x] (jet f (Pi.single 0 1) ![t, x] - 0.1 * ∑ j : Fin 1, jet f (Pi.single j.succ 2) ![t, x]) :=
    fun t x => heatAt_of_jet hp 0.1 (jet_spec f) _
  obtain ⟨N, δ0, h0, hN⟩ := heat_converges hp h hs (matern_cont _ _) 0 (t0 := 0) (T := 5) (l := -1) (r := 1) (by norm_num) (by norm_num) (α := 0.1) (by norm_num)
    (some (.other [] [] fun x => [f.1 ![0, x.getD 0 0]]))
    (some (.other [2] [] fun x => [jet f (Pi.single 0 1) ![x.getD 0 0, x.getD 1 0] - 0.1 * ∑ j : Fin 1, jet f (Pi.single j.succ 2) ![x.getD 0 0, x.getD 1 0]])) none
    (by rintro _ ⟨⟩; rfl) (by rintro _ ⟨⟩; exact ⟨rfl, rfl⟩) (by simp) (u0 := fun x => f.1 ![0, x]) (fun x => rfl) (fun t x => rfl)
    (f := f) ((jet_regular h 0).nonneg L) (within_cross (jet_regular h 0) L) (fun x _ => rfl) (fun t _ => ⟨hl t, hr t⟩) (fun t x _ _ => hpde t x) none (by simp) hτ
  refine ⟨.other [] [] fun x => [f.1 ![0, x.getD 0 0]],
    .other [2] [] fun x => [jet f (Pi.single 0 1) ![x.getD 0 0, x.getD 1 0] - 0.1 * ∑ j : Fin 1, jet f (Pi.single j.succ 2) ![x.getD 0 0, x.getD 1 0]], f.1, hne, N, δ0, h0, fun n hn e he => ?_⟩
  obtain ⟨P, o, os, c, k1, k2, k3, k4⟩ := hN n n n n hn hn hn hn δ0 h0 le_rfl e he
  exact ⟨P, o, os, c, hp, k1, k2, k3, fun t x ht hx => (k4 t x ht hx).1⟩

/-- A square with boundary values and right-hand side of a kernel function. -/
example {τ : ℝ} (hτ : 0 < τ) : ∃ (fb q : Fn) (f : Pt 2 → ℝ), f ![0, 0] ≠ 0 ∧ ∃ (N : ℕ) (ε : ℝ), 0 < ε ∧ ∀ n ≥ N, ∀ e : Env, e.CholOK →
    ∃ (P : BVP) (o : Obs 2) (os : List (Obs 2)) (c : Cond ((matern_jet ![2, 2] ![1, 1]).prior 0)) (hI : _),
      mkPoissonProblem (.dom (.box [(-1, 1), (-1, 1)])) (some q) 1 (some (.fn fb)) none = .ok P ∧ poissonObs 2 P [n] [n] ε = .ok (o :: os) ∧
      solve e (matern_jet ![2, 2] ![1, 1]) 0 (coefs (poissonOp 2 1) hI) o os = .ok c ∧
      ∀ x y, -1 ≤ x ∧ x ≤ 1 → -1 ≤ y ∧ y ≤ 1 → |f ![x, y] - c.mean ![x, y]| ≤ τ := by
  set h := matern_jet ![2, 2] ![(1 : ℝ), 1] with hh
  have hI : orders (poissonOp 2 1) ⊆ box fun j => ((![2, 2] : Fin 2 → ℕ) j : ℕ∞) := by
    rintro _ ⟨j, rfl⟩
    fin_cases j <;> intro k <;> fin_cases k <;> simp
  have hs : Strict (box fun j => ((![2, 2] : Fin 2 → ℕ) j : ℕ∞)) (matK ![2, 2] ![(1 : ℝ), 1]) := matern_strict _ fun j => by fin_cases j <;> simp
  set P := h.prior 0 with hP
  set L := (jet_regular h 0).ev ![0, 0] with hL
  set f : jetF _ := P.m + P.cross L with hf
  have hne : f.1 ![0, 0] ≠ 0 := by
    intro h0
    have h1 : f.1 ![0, 0] = 0 + matK ![2, 2] ![(1 : ℝ), 1] 0 ![0, 0] 0 ![0, 0] := rfl
    rw [h1, zero_add] at h0
    have := hs.definite 1 ![(⟨0, h.zero_mem⟩, ![0, 0])] (fun i j _ => Subsingleton.elim _ _) ![1] (by simpa using h0)
    simpa using congrFun this 0
  obtain ⟨N, ε, h0, hN⟩ := poisson_converges h hs (matern_cont _ _) 0 (bs := [(-1, 1), (-1, 1)]) (by simp) rfl two_ne_zero
    (α := 1) one_ne_zero hI (.other [2] [] fun x => [f.1 (toPt 2 x)]) (.other [2] [] fun x => [opSum (poissonOp 2 1) (jet f) (toPt 2 x)]) ⟨rfl, rfl⟩ rfl
    (fun x => rfl) (fun x => rfl) (f := f) ((jet_regular h 0).nonneg L) (within_cross (jet_regular h 0) L)
    (fun x _ => rfl) (fun x _ => opAt_of_jet h.lower _ hI trivial (jet_spec f) _) hτ
  refine ⟨.other [2] [] fun x => [f.1 (toPt 2 x)], .other [2] [] fun x => [opSum (poissonOp 2 1) (jet f) (toPt 2 x)], f.1, hne, N, ε, h0, fun n hn e he => ?_⟩
  obtain ⟨P, o, os, c, k1, k2, k3, k4⟩ := hN [n] [n] [n] [n, n] rfl rfl (by simpa using hn) (by simpa using hn) ε h0 le_rfl e he
  refine ⟨P, o, os, c, hI, k1, k2, k3, fun x y hx hy => ?_⟩
  have := (k4 [x, y] (.cons hx (.cons hy .nil))).1
  rwa [toPt_two] at this

end LinPDE.Solve
