import Verif.Solve.Grid
import Verif.Pde.HeatProps

/-! # C69: the heat equation, from the problem to the posterior -/

namespace LinPDE.Solve
open LinPDE.Domains LinPDE.Pde LinPDE.GP LinPDE.Block Matrix

lemma toPt_two (t x : ℝ) : toPt 2 [t, x] = ![t, x] := by
  funext i
  fin_cases i <;> rfl

/-- Grid of the initial domain. -/
lemma grid_initial (t : ℝ) {l r : ℝ} (h : l < r) (n : ℕ) (δ : ℝ) :
    uniformGrid (.prod [.point0 t, .interval l r]) [n] δ = .ok ((intervalGrid l r n δ).map fun x => [t, x]) := by
  simp [uniformGrid, asBox, Dom.boxLike, asBoxBounds, mkBox, boxUniform, asShape, boxGrid, boxGridFactors, liftDom, bind, Except.bind,
    h.ne, h.le, gridPoints]
  rw [← List.map_eq_flatMap, List.map_map]
  rfl

/-- Grid of a part of the spatial boundary. -/
lemma grid_boundary {t0 T : ℝ} (h : t0 < T) (x : ℝ) (n : ℕ) (δ : ℝ) :
    uniformGrid (.prod [.interval t0 T, .point0 x]) [n] δ = .ok ((intervalGrid t0 T n δ).map fun t => [t, x]) := by
  simp [uniformGrid, asBox, Dom.boxLike, asBoxBounds, mkBox, boxUniform, asShape, boxGrid, boxGridFactors, liftDom, bind, Except.bind,
    h.ne, h.le, gridPoints]
  exact List.map_eq_flatMap.symm

/-- Grid of the whole domain. -/
lemma grid_domain {t0 T l r : ℝ} (ht : t0 < T) (h : l < r) (n0 n1 : ℕ) (δ : ℝ) :
    uniformGrid (.prod [.interval t0 T, .interval l r]) [n0, n1] δ =
      .ok ((intervalGrid t0 T n0 δ).flatMap fun t => (intervalGrid l r n1 δ).map fun x => [t, x]) := by
  simp [uniformGrid, asBox, Dom.boxLike, asBoxBounds, mkBox, boxUniform, asShape, boxGrid, boxGridFactors, liftDom, bind, Except.bind,
    ht.ne, ht.le, h.ne, h.le, gridPoints]
  rw [← List.map_eq_flatMap]
  simp only [List.map_map]
  rfl

/-- The observations of the script. -/
lemma heatObs_eq {t0 T l r : ℝ} (ht : t0 < T) (h : l < r) (α : ℝ) (f q sol : Option Fn) (hf : ∀ s, f = some s → s.inS = []) (hq : ∀ s, q = some s → s.inS = [2] ∧ s.outS = [])
    (hsol : ∀ s, sol = some s → s.inS = [2] ∧ s.outS = []) {u0 : ℝ → ℝ} {g : ℝ → ℝ → ℝ} (hu : ∀ x, (f.getD (.zero [] [])).ev [x] = [u0 x])
    (hg : ∀ t x, (q.getD (.zero [2] [])).ev [t, x] = [g t x]) (nIc nBc n0 n1 : ℕ) (δ : ℝ) (noise : Option ℝ) :
    ∃ p, mkHeatProblem t0 (.dom (.interval l r)) T q α f sol = .ok p ∧
      heatObs p nIc nBc [n0, n1] δ noise = .ok
        (⟨false, (intervalGrid l r nIc δ).map fun x => ![t0, x], (intervalGrid l r nIc δ).map u0, none⟩,
        [⟨false, (intervalGrid t0 T nBc 0).map fun t => ![t, l], (intervalGrid t0 T nBc 0).map fun _ => 0, noise⟩,
          ⟨false, (intervalGrid t0 T nBc 0).map fun t => ![t, r], (intervalGrid t0 T nBc 0).map fun _ => 0, noise⟩,
          ⟨true, (intervalGrid t0 T n0 0 ×ˢ intervalGrid l r n1 0).map fun z => ![z.1, z.2],
            (intervalGrid t0 T n0 0 ×ˢ intervalGrid l r n1 0).map fun z => g z.1 z.2, none⟩]) := by
  refine ⟨_, mkHeatProblem_interval ht.le α q f sol hq hf hsol, ?_⟩
  have hf' : (f.getD (.zero [] [])).inS = [] := by
    cases f with
    | none => rfl
    | some s => exact hf s rfl
  have hq' : (q.getD (.zero [2] [])).inS = [2] := by
    cases q with
    | none => rfl
    | some s => exact (hq s rfl).1
  have e1 := evalAt_ok hf' (v := fun x => u0 (x.getD 0 0)) (xs := (intervalGrid l r nIc δ).map fun x => [x]) (by
    intro x hx
    obtain ⟨y, -, rfl⟩ := List.mem_map.mp hx
    exact hu y)
  have e2 : ∀ b : ℝ, _ := fun b => evalAt_ok (f := .const [2] [] [0]) (shape := [2]) rfl (v := fun _ => 0)
    (xs := (intervalGrid t0 T nBc 0).map fun t => [t, b]) (fun _ _ => rfl)
  have e3 := evalAt_ok hq' (v := fun x => g (x.getD 0 0) (x.getD 1 0))
    (xs := (intervalGrid t0 T n0 0).flatMap fun t => (intervalGrid l r n1 0).map fun x => [t, x]) (by
    intro x hx
    obtain ⟨t, -, hx⟩ := List.mem_flatMap.mp hx
    obtain ⟨y, -, rfl⟩ := List.mem_map.mp hx
    exact hg t y)
  have e4 : ((intervalGrid l r nIc δ).map fun x => [t0, x]).map (fun x => [x.getD 1 0]) = (intervalGrid l r nIc δ).map fun x => [x] := by
    rw [List.map_map]
    rfl
  unfold heatObs
  have ht' : IBVP.times ⟨⟨⟨.prod [.interval t0 T, .interval l r], ⟨[2], [], [2], []⟩, q.getD (.zero [2] [])⟩,
        [⟨.prod [.interval t0 T, .point0 l], ⟨[2], [], [2], []⟩, .const [2] [] [0]⟩,
          ⟨.prod [.interval t0 T, .point0 r], ⟨[2], [], [2], []⟩, .const [2] [] [0]⟩],
        sol.orElse fun _ => heatSolution t0 [2] (.interval l r) (f.getD (.zero [] [])) α⟩,
        ⟨.interval l r, ⟨[], (f.getD (.zero [] [])).outS, [], (f.getD (.zero [] [])).outS⟩,
          f.getD (.zero [] [])⟩⟩ = .ok (t0, T, .interval l r, .prod [.point0 t0, .interval l r]) := rfl
  rw [ht']
  simp only [bind, Except.bind, grid_initial t0 h, e4, e1, List.mapM_cons, List.mapM_nil, grid_boundary ht, e2, grid_domain ht h, e3,
    pure, Except.pure]
  have hprod : ∀ {β : Type} (k : ℝ × ℝ → β), (intervalGrid t0 T n0 0 ×ˢ intervalGrid l r n1 0).map k =
      (intervalGrid t0 T n0 0).flatMap fun t => (intervalGrid l r n1 0).map fun x => k (t, x) := fun k => by
    show ((intervalGrid t0 T n0 0).flatMap fun t => (intervalGrid l r n1 0).map (Prod.mk t)).map k = _
    simp only [List.map_flatMap, List.map_map]
    rfl
  simp only [hprod, List.map_map, List.map_flatMap, Function.comp_def, toPt_two, List.cons_append, List.nil_append]
  rfl

/-- C69: with a process that is once differentiable in time and twice in space, the script of the heat equation runs
through for every initial function, right-hand side, grid sizes and inset strictly between zero and half the interval: the
posterior mean has the initial values at the grid points of the initial domain, the boundary values at the grid points of
the boundary (if these are observed without noise), and solves the heat equation at the grid points of the domain; the
exact observations are not left uncertain. -/
theorem heat_solved {p : Fin 2 → ℕ} (hp : HeatSmooth (n := 0) p) {K : Ix 2 → Pt 2 → Ix 2 → Pt 2 → ℝ} (h : JetKernel (box fun j => (p j : ℕ∞)) K)
    (hs : Strict (box fun j => (p j : ℕ∞)) K) (m : jetF (box fun j => (p j : ℕ∞))) (e : Env) (he : e.CholOK)
    {t0 T l r : ℝ} (ht : t0 < T) (hlr : l < r) (α : ℝ) (f q sol : Option Fn) (hf : ∀ s, f = some s → s.inS = []) (hq : ∀ s, q = some s → s.inS = [2] ∧ s.outS = [])
    (hsol : ∀ s, sol = some s → s.inS = [2] ∧ s.outS = []) {u0 : ℝ → ℝ} {g : ℝ → ℝ → ℝ} (hu : ∀ x, (f.getD (.zero [] [])).ev [x] = [u0 x])
    (hg : ∀ t x, (q.getD (.zero [2] [])).ev [t, x] = [g t x]) (nIc nBc n0 n1 : ℕ) {δ : ℝ} (h0 : 0 < δ) (h1 : 2 * δ < r - l) (noise : Option ℝ)
    (hv : ∀ v, noise = some v → 0 ≤ v) :
    ∃ (P : IBVP) (o : Obs 2) (os : List (Obs 2)) (c : Cond (h.prior m)),
      mkHeatProblem t0 (.dom (.interval l r)) T q α f sol = .ok P ∧
      heatObs P nIc nBc [n0, n1] δ noise = .ok (o, os) ∧ solve e h m (heatCoefs hp α) o os = .ok c ∧
      (∀ x ∈ intervalGrid l r nIc δ, c.mean ![t0, x] = u0 x ∧
        c.functlCov e (fun _ : Fin 1 => h.op m (Finsupp.single ⟨0, h.zero_mem⟩ 1) ![t0, x]) = .ok 0) ∧
      (noise = none → ∀ t ∈ intervalGrid t0 T nBc 0, ∀ x, x = l ∨ x = r → c.mean ![t, x] = 0 ∧
        c.functlCov e (fun _ : Fin 1 => h.op m (Finsupp.single ⟨0, h.zero_mem⟩ 1) ![t, x]) = .ok 0) ∧
      ∀ t ∈ intervalGrid t0 T n0 0, ∀ x ∈ intervalGrid l r n1 0, HeatAt (n := 0) α c.mean ![t, x] (g t x) ∧
        c.functlCov e (fun _ : Fin 1 => h.op m (heatCoefs hp α) ![t, x]) = .ok 0 := by
  obtain ⟨P, hP, hO⟩ := heatObs_eq ht hlr α f q sol hf hq hsol hu hg nIc nBc n0 n1 δ noise
  have inj0 : ∀ a : ℝ, Function.Injective fun x : ℝ => (![a, x] : Pt 2) := fun a x y hxy => by simpa using congrFun hxy 1
  have inj1 : ∀ a : ℝ, Function.Injective fun t : ℝ => (![t, a] : Pt 2) := fun a x y hxy => by simpa using congrFun hxy 0
  have nd0 : ∀ n, (intervalGrid t0 T n 0).Nodup := intervalGrid_nodup (by simp [ht.ne])
  have nd1 : ∀ n, (intervalGrid l r n 0).Nodup := intervalGrid_nodup (by simp [hlr.ne])
  have nd2 : (intervalGrid l r nIc δ).Nodup := intervalGrid_nodup (by intro hh; linarith) _
  have hin : ∀ x ∈ intervalGrid l r nIc δ, l < x ∧ x < r := fun x hx => intervalGrid_inside h0 (by linarith) hx
  obtain ⟨c, hc, J, hJ, hi⟩ := solve_spec h hs m e he (a := heatCoefs hp α) (heat_independent hp α h.zero_mem)
    ⟨false, (intervalGrid l r nIc δ).map fun x => ![t0, x], (intervalGrid l r nIc δ).map u0, none⟩
    [⟨false, (intervalGrid t0 T nBc 0).map fun t => ![t, l], (intervalGrid t0 T nBc 0).map fun _ => 0, noise⟩,
      ⟨false, (intervalGrid t0 T nBc 0).map fun t => ![t, r], (intervalGrid t0 T nBc 0).map fun _ => 0, noise⟩,
      ⟨true, (intervalGrid t0 T n0 0 ×ˢ intervalGrid l r n1 0).map fun z => ![z.1, z.2],
        (intervalGrid t0 T n0 0 ×ˢ intervalGrid l r n1 0).map fun z => g z.1 z.2, none⟩] (by
      intro b
      cases b
      · change ((intervalGrid l r nIc δ).map (fun x => ![t0, x]) ++ ((intervalGrid t0 T nBc 0).map (fun t => ![t, l]) ++
          ((intervalGrid t0 T nBc 0).map (fun t => ![t, r]) ++ []))).Nodup
        rw [List.append_nil, List.nodup_append', List.nodup_append']
        refine ⟨nd2.map (inj0 t0), ⟨(nd0 _).map (inj1 l), (nd0 _).map (inj1 r), ?_⟩, ?_⟩
        · intro z hz hz'
          obtain ⟨t, -, rfl⟩ := List.mem_map.mp hz
          obtain ⟨t', -, ht'⟩ := List.mem_map.mp hz'
          exact hlr.ne' (by simpa using congrFun ht' 1)
        · intro z hz hz'
          obtain ⟨x, hx, rfl⟩ := List.mem_map.mp hz
          obtain ⟨hx1, hx2⟩ := hin x hx
          rcases List.mem_append.mp hz' with hz' | hz' <;> obtain ⟨t', -, ht'⟩ := List.mem_map.mp hz'
          · exact hx1.ne (by simpa using congrFun ht' 1)
          · exact hx2.ne' (by simpa using congrFun ht' 1)
      · change ((List.product (intervalGrid t0 T n0 0) (intervalGrid l r n1 0)).map (fun z : ℝ × ℝ => (![z.1, z.2] : Pt 2)) ++ []).Nodup
        rw [List.append_nil]
        refine ((nd0 n0).product (nd1 n1)).map fun z w hzw => Prod.ext ?_ ?_
        · simpa using congrFun hzw 0
        · simpa using congrFun hzw 1) (by
      intro o ho v hov
      simp only [List.mem_cons, List.not_mem_nil, or_false] at ho
      rcases ho with rfl | rfl | rfl | rfl
      · cases hov
      · exact hv v hov
      · exact hv v hov
      · cases hov)
  refine ⟨P, _, _, c, hP, hO, hc, fun x hx => ?_, fun hn t ht x hx => ?_, fun t ht x hx => ?_⟩
  · have := obs_mem hi false (intervalGrid l r nIc δ) (fun x => ![t0, x]) u0 rfl (by simp) hx
    rw [value_sum h _ hJ] at this
    exact this
  · rcases hx with rfl | rfl
    · have := obs_mem hi false (intervalGrid t0 T nBc 0) (fun t => ![t, x]) (fun _ => 0) hn (by simp) ht
      rw [value_sum h _ hJ] at this
      exact this
    · have := obs_mem hi false (intervalGrid t0 T nBc 0) (fun t => ![t, x]) (fun _ => 0) hn (by simp) ht
      rw [value_sum h _ hJ] at this
      exact this
  · have := obs_mem hi true (intervalGrid t0 T n0 0 ×ˢ intervalGrid l r n1 0) (fun z => ![z.1, z.2]) (fun z => g z.1 z.2) rfl (by simp)
      (List.mem_product.mpr ⟨ht, hx⟩)
    obtain ⟨k1, k2⟩ := this
    refine ⟨?_, k2⟩
    have k1 : ((heatCoefs hp α).sum fun β t' => t' * J β ![t, x]) = g t x := k1
    rw [heatCoefs_sum hp α fun β => J β ![t, x]] at k1
    rw [← k1]
    exact heatAt_of_jet hp α hJ ![t, x]

/-- C69: for initial values given by a sine series on the spatial interval and no right-hand side, the posterior mean agrees
with the attached solution at the grid points of the initial domain and of the boundary, and satisfies the same equation at
the grid points of the domain. -/
theorem heat_solved_sine {p : Fin 2 → ℕ} (hp : HeatSmooth (n := 0) p) {K : Ix 2 → Pt 2 → Ix 2 → Pt 2 → ℝ} (h : JetKernel (box fun j => (p j : ℕ∞)) K)
    (hs : Strict (box fun j => (p j : ℕ∞)) K) (m : jetF (box fun j => (p j : ℕ∞))) (e : Env) (he : e.CholOK)
    {t0 T l r : ℝ} (ht : t0 < T) (hlr : l < r) (α : ℝ) (cs : List ℝ) (nIc nBc n0 n1 : ℕ) {δ : ℝ} (h0 : 0 < δ) (h1 : 2 * δ < r - l) :
    ∃ (P : IBVP) (s : Fn) (u : ℝ → ℝ → ℝ) (o : Obs 2) (os : List (Obs 2)) (c : Cond (h.prior m)),
      mkHeatProblem t0 (.dom (.interval l r)) T none α (some (.sine l r cs)) none = .ok P ∧
      P.bvp.solution = some s ∧ (∀ t x, s.call [2] [t, x] = .ok [u t x]) ∧
      heatObs P nIc nBc [n0, n1] δ none = .ok (o, os) ∧ solve e h m (heatCoefs hp α) o os = .ok c ∧
      (∀ x ∈ intervalGrid l r nIc δ, c.mean ![t0, x] = u t0 x) ∧
      (∀ t ∈ intervalGrid t0 T nBc 0, c.mean ![t, l] = u t l ∧ c.mean ![t, r] = u t r) ∧
      ∀ t ∈ intervalGrid t0 T n0 0, ∀ x ∈ intervalGrid l r n1 0, HeatAt (n := 0) α c.mean ![t, x] 0 ∧
        HeatAt (n := 0) α (fun z => u (z 0) (z 1)) ![t, x] 0 := by
  obtain ⟨P, o, os, c, hP, hO, hc, k1, k2, k3⟩ := heat_solved hp h hs m e he ht hlr α (some (.sine l r cs)) none none
    (fun s hs => by cases hs; rfl) (by simp) (by simp) (u0 := sineEval l r cs) (g := fun _ _ => 0) (fun x => rfl) (fun t x => rfl)
    nIc nBc n0 n1 h0 h1 none (by simp)
  obtain ⟨P', s, u, hP', hs', hu, hpde, ⟨b0, b1, hb, hb0, hb1, hbv⟩, -, hini⟩ := heatProblem_sine_partial ht.le hlr α cs none (.inl rfl)
  obtain rfl : P = P' := by rw [hP] at hP'; exact Except.ok.inj hP'
  have hP2 := mkHeatProblem_interval ht.le α none (some (.sine l r cs)) none (l := l) (r := r) (by simp) (fun s hs => by cases hs; rfl) (by simp)
  rw [hP] at hP2
  have hP2 := Except.ok.inj hP2
  refine ⟨P, s, u, o, os, c, hP, hs', hu, hO, hc, fun x hx => ?_, fun t ht' => ?_, fun t ht' x hx => ⟨(k3 t ht' x hx).1, ?_⟩⟩
  · rw [(k1 x hx).1]
    have := hini x
    rw [hP2] at this
    have := Except.ok.inj this
    exact (List.cons.inj this).1
  · have e0 := (k2 rfl t ht' l (.inl rfl)).1
    have e1 := (k2 rfl t ht' r (.inr rfl)).1
    obtain ⟨v0, v1⟩ := hbv t
    rw [hP2] at hb
    have r0 := (List.cons.inj hb).1
    have r1 := (List.cons.inj (List.cons.inj hb).2).1
    rw [← r0] at v0
    rw [← r1] at v1
    rw [e0, e1]
    exact ⟨(List.cons.inj (Except.ok.inj v0)).1, (List.cons.inj (Except.ok.inj v1)).1⟩
  · obtain ⟨ut, ux, uxx, d1, d2, d3, d4⟩ := hpde t x
    rw [hP2] at d4
    have d4 : (0 : ℝ) = ut - α * uxx := (List.cons.inj (Except.ok.inj d4)).1
    refine ⟨ut, fun _ t => ux (x + t), fun _ => uxx, ?_, fun j => ⟨fun t' => ?_, ?_⟩, ?_⟩
    · have := HasDerivAt.comp_const_add (f := fun t => u t x) (f' := ut) t 0 (by simpa using d1)
      refine this.congr_of_eventuallyEq (Filter.Eventually.of_forall fun t' => ?_)
      simp
    · obtain rfl : j = 0 := Fin.ext (by omega)
      have := HasDerivAt.comp_const_add (f := fun y => u t y) (f' := ux (x + t')) x t' (d2 _)
      refine this.congr_of_eventuallyEq (Filter.Eventually.of_forall fun t' => ?_)
      simp
    · exact HasDerivAt.comp_const_add (f := ux) (f' := uxx) x 0 (by simpa using d3)
    · simp [← d4]

/-- C69 (the inset is necessary): without inset, the corner of the initial domain and the boundary is observed twice, and
the Gram matrix of the exact observations is not positive definite. -/
theorem heat_corner_singular {p : Fin 2 → ℕ} (hp : HeatSmooth (n := 0) p) {K : Ix 2 → Pt 2 → Ix 2 → Pt 2 → ℝ} (h : JetKernel (box fun j => (p j : ℕ∞)) K)
    (hs : Strict (box fun j => (p j : ℕ∞)) K) (m : jetF (box fun j => (p j : ℕ∞)))
    {t0 T l r : ℝ} (ht : t0 < T) (hlr : l < r) (α : ℝ) (f q sol : Option Fn) (hf : ∀ s, f = some s → s.inS = [])
    (hq : ∀ s, q = some s → s.inS = [2] ∧ s.outS = []) (hsol : ∀ s, sol = some s → s.inS = [2] ∧ s.outS = []) {u0 : ℝ → ℝ} {g : ℝ → ℝ → ℝ}
    (hu : ∀ x, (f.getD (.zero [] [])).ev [x] = [u0 x]) (hg : ∀ t x, (q.getD (.zero [2] [])).ev [t, x] = [g t x])
    (nIc nBc n0 n1 : ℕ) (hi : 1 ≤ nIc) (hb : 1 ≤ nBc) :
    ∃ (P : IBVP) (o : Obs 2) (os : List (Obs 2)), mkHeatProblem t0 (.dom (.interval l r)) T q α f sol = .ok P ∧
      heatObs P nIc nBc [n0, n1] 0 none = .ok (o, os) ∧
      ¬ (jG ((o :: os).map (Obs.batch h m (heatCoefs hp α)))).PosDef := by
  obtain ⟨P, hP, hO⟩ := heatObs_eq ht hlr α f q sol hf hq hsol hu hg nIc nBc n0 n1 0 none
  refine ⟨P, _, _, hP, hO, fun hG => ?_⟩
  rw [solvable_iff h hs m (heat_independent hp α h.zero_mem) _ (by simp)] at hG
  have h1 := hG false
  change ((intervalGrid l r nIc 0).map (fun x => ![t0, x]) ++ ((intervalGrid t0 T nBc 0).map (fun t => ![t, l]) ++
          ((intervalGrid t0 T nBc 0).map (fun t => ![t, r]) ++ []))).Nodup at h1
  rw [List.nodup_append'] at h1
  have e0 : l ∈ intervalGrid l r nIc 0 := by
    have := (intervalGrid_spec l r nIc 0).2.1 hi
    rw [add_zero] at this
    exact List.mem_of_mem_head? this
  have e1 : t0 ∈ intervalGrid t0 T nBc 0 := by
    have := (intervalGrid_spec t0 T nBc 0).2.1 hb
    rw [add_zero] at this
    exact List.mem_of_mem_head? this
  exact h1.2.2 (List.mem_map_of_mem (f := fun x => ![t0, x]) e0)
    (List.mem_append_left _ (List.mem_map_of_mem (f := fun t => ![t, l]) e1))

/-- The setting of `test_heat.py:57-97`: Matérn-3/2 in time and Matérn-5/2 in space. -/
example (e : Env) (he : e.CholOK) : ∃ (m : jetF (box fun j => (((![1, 2] : Fin 2 → ℕ) j : ℕ) : ℕ∞)))
    (c : Cond ((smul_jet (matern_jet ![1, 2] ![2, 3]) (zero_le_one' ℝ)).prior m)),
    (∀ x ∈ intervalGrid (-1) 1 5 (1 / 1000000), c.mean ![0, x] = sineEval (-1) 1 [1, 2] x) ∧
      ∀ t ∈ intervalGrid (0 : ℝ) 5 100 0, ∀ x ∈ intervalGrid (-1 : ℝ) 1 20 0, HeatAt (n := 0) 0.1 c.mean ![t, x] 0 := by
  have hp : HeatSmooth (n := 0) ![1, 2] := ⟨le_rfl, fun j => by fin_cases j; exact le_rfl⟩
  obtain ⟨P, o, os, c, -, -, -, k1, -, k3⟩ := heat_solved hp (smul_jet (matern_jet ![1, 2] ![2, 3]) (zero_le_one' ℝ))
    (smul_strict (matern_strict ![1, 2] fun j => by fin_cases j <;> simp) one_pos) 0 e he (t0 := 0) (T := 5) (l := -1) (r := 1) (by norm_num)
    (by norm_num) 0.1 (some (.sine (-1) 1 [1, 2])) none none (fun s hs => by cases hs; rfl) (by simp) (by simp)
    (u0 := sineEval (-1) 1 [1, 2]) (g := fun _ _ => 0) (fun x => rfl) (fun t x => rfl)
    5 50 100 20 (δ := 1 / 1000000) (by norm_num) (by norm_num) (some 0.00001) (fun v hv => by cases hv; norm_num)
  exact ⟨0, c, fun x hx => (k1 x hx).1, fun t ht x hx => (k3 t ht x hx).1⟩

end LinPDE.Solve
