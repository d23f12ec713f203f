import Verif.Cpu.Notebook
import Verif.Cpu.PowerProps
import Verif.Solve.OperatorsProps
import Verif.Solve.PoissonProps

/-! # C73: the two-dimensional notebook -/

namespace LinPDE.Cpu
open LinPDE.Piecewise LinPDE.GP LinPDE.Block LinPDE.Domains LinPDE.Solve
open LinPDE.Matern (DOp OpAt)

/-- The kinds of observations: values, first derivatives along the axes, the differential equation. -/
inductive Kind
  | value | dx | dy | pde
deriving DecidableEq

instance : Fintype Kind := ⟨{.value, .dx, .dy, .pde}, fun k => by cases k <;> decide⟩

variable {c : Chip} {I : Set (Ix 2)} {K : Ix 2 → Pt 2 → Ix 2 → Pt 2 → ℝ}

/-- One operator of each kind. -/
noncomputable def kindOp (h0 : (0 : Ix 2) ∈ I) (hΔ : orders (diffop 2 c.kappa) ⊆ I) (hD : ∀ u : Fin 2 → ℝ, orders (.dd u) ⊆ I) : Kind → I →₀ ℝ
  | .value => Finsupp.single ⟨0, h0⟩ 1
  | .dx => coefs (.dd ![1, 0]) (hD _)
  | .dy => coefs (.dd ![0, 1]) (hD _)
  | .pde => coefs (diffop 2 c.kappa) hΔ

lemma kind_sum (f : Kind → ℝ) : ∑ k, f k = f .value + f .dx + f .dy + f .pde := by
  have : (Finset.univ : Finset Kind) = {.value, .dx, .dy, .pde} := rfl
  rw [this]
  simp [add_assoc]

lemma kindOp_indep (hk : c.kappa ≠ 0) (h0 : (0 : Ix 2) ∈ I) (hΔ : orders (diffop 2 c.kappa) ⊆ I) (hD : ∀ u : Fin 2 → ℝ, orders (.dd u) ⊆ I) :
    LinearIndependent ℝ (kindOp h0 hΔ hD) := by
  rw [Fintype.linearIndependent_iff]
  intro g hg
  have ev : ∀ β : I, g .value * kindOp h0 hΔ hD .value β + g .dx * kindOp h0 hΔ hD .dx β + g .dy * kindOp h0 hΔ hD .dy β +
      g .pde * kindOp h0 hΔ hD .pde β = 0 := by
    intro β
    have := DFunLike.congr_fun hg β
    rw [Finsupp.finsetSum_apply, kind_sum] at this
    simpa using this
  have ne1 : ∀ j k : Fin 2, (Pi.single j 2 : Ix 2) ≠ Pi.single k 1 := by decide
  have ne2 : ∀ j : Fin 2, ∀ n : ℕ, n ≠ 0 → (Pi.single j n : Ix 2) ≠ 0 := fun j n hn h => hn (by simpa using congrFun h j)
  have ne3 : (Pi.single 0 1 : Ix 2) ≠ Pi.single 1 1 := by decide
  have ne4 : (Pi.single 0 2 : Ix 2) ≠ Pi.single 1 2 := by decide
  have e0 := ev ⟨0, h0⟩
  have e1 := ev ⟨Pi.single 0 1, hD 0 ⟨0, rfl⟩⟩
  have e2 := ev ⟨Pi.single 1 1, hD 0 ⟨1, rfl⟩⟩
  have e3 := ev ⟨Pi.single 0 2, hΔ ⟨0, rfl⟩⟩
  simp [kindOp, coefs, diffop, Fin.sum_univ_two, ne1, ne2, ne3, ne4, ne3.symm, (ne1 _ _).symm, (ne2 _ _ _).symm, hk] at e0 e1 e2 e3
  intro k
  cases k
  · exact e0
  · exact e1
  · exact e2
  · exact e3

/-- The sides of the die. -/
lemma boundary2D (h : c.Ok) : c.domain2D.boundary = [.prod [.point0 0, .interval 0 c.height], .prod [.point0 c.width, .interval 0 c.height],
    .prod [.interval 0 c.width, .point0 0], .prod [.interval 0 c.width, .point0 c.height]] := by
  have hne : c.width ≠ 0 := h.width.ne'
  have hne' : c.height ≠ 0 := h.height.ne'
  simp [Chip.domain2D, Dom.boundary, boxBoundary, leafBoundary, boxFactor, hne, hne', hne.symm, hne'.symm]

lemma grid_vertical {l r : ℝ} (hlr : l < r) (z : ℝ) (n : ℕ) :
    uniformGrid (.prod [.point0 z, .interval l r]) [n] 0 = .ok ((intervalGrid l r n 0).map fun y => [z, y]) := by
  have := uniformGrid_face (f := [(z, z), (l, r)]) (by simp) (by simp [hlr.le]) [n] 0
  rw [show [(z, z), (l, r)].map boxFactor = [.point0 z, .interval l r] by simp [boxFactor, hlr.ne]] at this
  rw [this]
  simp [boxUniform, asShape, boxGrid, boxGridFactors, hlr.ne, gridPoints, Pde.liftDom, bind, Except.bind, List.map_eq_flatMap, List.flatMap_assoc]

lemma grid_horizontal {l r : ℝ} (hlr : l < r) (z : ℝ) (n : ℕ) :
    uniformGrid (.prod [.interval l r, .point0 z]) [n] 0 = .ok ((intervalGrid l r n 0).map fun x => [x, z]) := by
  have := uniformGrid_face (f := [(l, r), (z, z)]) (by simp) (by simp [hlr.le]) [n] 0
  rw [show [(l, r), (z, z)].map boxFactor = [.interval l r, .point0 z] by simp [boxFactor, hlr.ne]] at this
  rw [this]
  simp [boxUniform, asShape, boxGrid, boxGridFactors, hlr.ne, gridPoints, Pde.liftDom, bind, Except.bind, List.map_eq_flatMap]

/-- The points of the grid with an inset. -/
lemma grid_inner (h : c.Ok) (n : ℕ) : ∃ xs, boxGrid [(0, c.width), (0, c.height)] [n, n] [0.03 * c.width, 0.03 * c.height] = .ok xs ∧
    xs.length = n * n ∧ xs.Nodup ∧ ∀ x ∈ xs, x.length = 2 := by
  have h1 := h.width
  have h2 := h.height
  refine ⟨gridPoints [intervalGrid 0 c.width n (0.03 * c.width), intervalGrid 0 c.height n (0.03 * c.height)], ?_, ?_, ?_, ?_⟩
  · simp [boxGrid, boxGridFactors, h1.ne, h2.ne, bind, Except.bind]
  · rw [gridPoints_length]
    simp [intervalGrid, linspace]
  · refine gridPoints_nodup fun f hf => ?_
    simp only [List.mem_cons, List.not_mem_nil, or_false] at hf
    rcases hf with rfl | rfl
    · exact intervalGrid_nodup (by intro h; linarith) n
    · exact intervalGrid_nodup (by intro h; linarith) n
  · intro x hx
    simp only [gridPoints, List.mem_flatMap, List.mem_map, List.mem_singleton, List.map_cons, List.map_nil] at hx
    obtain ⟨a, -, b, ⟨d, -, rfl⟩, rfl⟩ := hx
    rfl

lemma centersX_nodup (h : c.Ok) : c.centersX.Nodup := by
  have h1 := h.coreWidth
  have h2 := h.dist
  unfold Chip.centersX
  refine List.Nodup.map_on ?_ List.nodup_range
  intro i _ j _ hij
  have h3 : (c.coreWidth + c.dist) * ((i : ℝ) - j) = 0 := by linear_combination hij
  have h4 := (mul_eq_zero.mp h3).resolve_left (by positivity)
  exact_mod_cast sub_eq_zero.mp h4

lemma centers_nodup (h : c.Ok) : (c.centers.map fun p => (![p.1, p.2] : Pt 2)).Nodup := by
  have hy : c.centersY.1 ≠ c.centersY.2 := by
    have := h.gap
    have := h.coreHeight
    simp only [Chip.centersY]
    intro h
    linarith
  refine List.Nodup.map (fun p q hpq => Prod.ext (congrFun hpq 0) (congrFun hpq 1)) ?_
  unfold Chip.centers
  simp only [List.flatMap_cons, List.flatMap_nil, List.append_nil]
  refine List.Nodup.append ?_ ?_ ?_
  · exact (centersX_nodup h).map fun x y hxy => (Prod.mk.inj hxy).1
  · exact (centersX_nodup h).map fun x y hxy => (Prod.mk.inj hxy).1
  · intro p hp hp'
    obtain ⟨x, -, rfl⟩ := List.mem_map.mp hp
    obtain ⟨x', -, hx⟩ := List.mem_map.mp hp'
    exact hy (Prod.mk.inj hx).2.symm

lemma smul_sum {d : ℕ} {I : Set (Ix d)} (s : ℝ) (a : I →₀ ℝ) (J : Ix d → Pt d → ℝ) (x : Pt d) :
    ((s • a).sum fun α t => t * J α x) = s * a.sum fun α t => t * J α x := by
  rw [Finsupp.sum_smul_index fun i => zero_mul _, Finsupp.mul_sum]
  exact Finsupp.sum_congr fun i _ => mul_assoc _ _ _

/-- What an observation of a multiple of an operator says about the function. -/
lemma opAt_smul {d : ℕ} {I : Set (Ix d)} (hI : IsLowerSet I) {L : DOp d} (hL : orders L ⊆ I) (hu : Univ L) {f : Pt d → ℝ}
    {J : Ix d → Pt d → ℝ} (hJ : HasJet I f J) (x : Pt d) {s y : ℝ} (hy : ((s • coefs L hL).sum fun α t => t * J α x) = y) :
    ∃ z, OpAt L f x z ∧ s * z = y := by
  rw [smul_sum, coefs_sum] at hy
  exact ⟨_, opAt_of_jet hI L hL hu hJ x, hy⟩

lemma coefs_dd_smul {d : ℕ} {I : Set (Ix d)} (hD : ∀ u : Fin d → ℝ, orders (.dd u) ⊆ I) (s : ℝ) (u v : Fin d → ℝ) (h : u = s • v) :
    coefs (.dd u) (hD u) = s • coefs (.dd v) (hD v) := by
  subst h
  simp only [coefs, Finset.smul_sum, Finsupp.smul_single, Pi.smul_apply]

/-- The side of the die, the direction and the kind of the four boundary observations. -/
lemma flux_cases (h : c.Ok) (nb : ℕ × ℕ) : c.flux2D.zip [nb.1, nb.2, nb.1, nb.2] =
    [((.prod [.interval 0 c.width, .point0 c.height], (0, -1), c.qA2D), nb.1), ((.prod [.point0 c.width, .interval 0 c.height], (-1, 0), c.qA2D), nb.2),
     ((.prod [.interval 0 c.width, .point0 0], (0, 1), c.qA2D), nb.1), ((.prod [.point0 0, .interval 0 c.height], (-1, 0), c.qA2D), nb.2)] := by
  simp [Chip.flux2D, boundary2D h]

/-- A boundary observation as an explicit list. -/
noncomputable def sideObs (c : Chip) (hD : ∀ u : Fin 2 → ℝ, orders (.dd u) ⊆ I) (u : ℝ × ℝ) (q : ℝ) (xs : List (List ℝ)) : OpObs I :=
  ⟨-c.kappa • coefs (.dd ![u.1, u.2]) (hD _), xs.map (toPt 2), xs.map fun _ => 0, some (xs.map fun _ => -q, 0)⟩

/-- C73: the process of the two-dimensional notebook, with any twice differentiable strict covariance function, any prior mean, grid
sizes and readings, can be conditioned on all the observations. The posterior mean solves the heat equation at the inner grid points,
it has the fluxes given by the boundary operators at the grid points of the four sides, including the corners, and neither is left uncertain. -/
theorem notebook_2d (h : c.Ok) {rel : List ℝ} (hrel : (rel.take c.nx).sum ≠ 0) (hK : JetKernel I K) (hs : Strict I K) (m : jetF I) (e : Env)
    (he : e.CholOK) (hΔ : orders (diffop 2 c.kappa) ⊆ I) (hD : ∀ u : Fin 2 → ℝ, orders (.dd u) ⊆ I) (n : ℕ) (nb : ℕ × ℕ) (y : List ℝ) {v : ℝ} (hv : 0 ≤ v) :
    ∃ o os post, c.obs2D hΔ hD hK.zero_mem rel n nb y v = .ok (o, os) ∧ condAll e hK m o os = .ok post ∧
      (∃ xs, boxGrid [(0, c.width), (0, c.height)] [n, n] [0.03 * c.width, 0.03 * c.height] = .ok xs ∧ xs.length = n * n ∧
        ∀ x ∈ xs, ∃ r, c.rhs2D rel (x.getD 0 0) (x.getD 1 0) = .ok r ∧ OpAt (.wl fun _ => -c.kappa) post.mean (toPt 2 x) r ∧
          post.functlCov e (fun _ : Fin 1 => hK.op m (coefs (diffop 2 c.kappa) hΔ) (toPt 2 x)) = .ok 0) ∧
      ∀ b ∈ c.flux2D.zip [nb.1, nb.2, nb.1, nb.2], ∃ xs, uniformGrid b.1.1 [b.2] 0 = .ok xs ∧ xs.length = b.2 ∧
        ∀ x ∈ xs, ∃ z, OpAt (.dd ![b.1.2.1.1, b.1.2.1.2]) post.mean (toPt 2 x) z ∧ -c.kappa * z = b.1.2.2 ∧
          post.functlCov e (fun _ : Fin 1 => hK.op m (-c.kappa • coefs (.dd ![b.1.2.1.1, b.1.2.1.2]) (hD _)) (toPt 2 x)) = .ok 0 := by
  have hκ := h.kappa
  have hw := h.width
  have hh := h.height
  obtain ⟨r, hr, -⟩ := power_balance_2d h hrel
  obtain ⟨xs, g1, g2, g3, g4⟩ := grid_inner h n
  have hp : c.pdeObs2D hΔ rel n = .ok ⟨coefs (diffop 2 c.kappa) hΔ, xs.map (toPt 2), xs.map fun _ => 0,
      some (xs.map fun x => -r (x.getD 0 0) (x.getD 1 0), 0)⟩ := by
    have hm := Pde.mapM_ok (fun x : List ℝ => Chip.liftPW (c.rhs2D rel (x.getD 0 0) (x.getD 1 0))) (fun x => r (x.getD 0 0) (x.getD 1 0)) xs
      fun x _ => by rw [hr]; rfl
    unfold Chip.pdeObs2D
    simp only [g1, Pde.liftDom, bind, Except.bind, hm, List.map_map, Function.comp_def]
  have hgv : ∀ z, uniformGrid (.prod [.point0 z, .interval 0 c.height]) [nb.2] 0 = .ok ((intervalGrid 0 c.height nb.2 0).map fun y => [z, y]) :=
    fun z => grid_vertical hh z nb.2
  have hgh : ∀ z, uniformGrid (.prod [.interval 0 c.width, .point0 z]) [nb.1] 0 = .ok ((intervalGrid 0 c.width nb.1 0).map fun x => [x, z]) :=
    fun z => grid_horizontal hw z nb.1
  set N := sideObs c hD (0, -1) c.qA2D ((intervalGrid 0 c.width nb.1 0).map fun x => [x, c.height]) with hN
  set E := sideObs c hD (-1, 0) c.qA2D ((intervalGrid 0 c.height nb.2 0).map fun y => [c.width, y]) with hE
  set S := sideObs c hD (0, 1) c.qA2D ((intervalGrid 0 c.width nb.1 0).map fun x => [x, 0]) with hS
  set W := sideObs c hD (-1, 0) c.qA2D ((intervalGrid 0 c.height nb.2 0).map fun y => [0, y]) with hW
  set O : OpObs I := ⟨coefs (diffop 2 c.kappa) hΔ, xs.map (toPt 2), xs.map fun _ => 0, some (xs.map fun x => -r (x.getD 0 0) (x.getD 1 0), 0)⟩ with hO
  set T := c.dtsObs2D hK.zero_mem y v with hT
  have hobs : c.obs2D hΔ hD hK.zero_mem rel n nb y v = .ok (O, [N, E, S, W, T]) := by
    unfold Chip.obs2D
    rw [hp, flux_cases h nb]
    simp only [bind, Except.bind, List.mapM_cons, List.mapM_nil, Chip.fluxObs2D, hgv, hgh, pure, Except.pure]
    rfl
  have hkey : ∀ w ∈ [(O, Kind.pde), (N, .dy), (E, .dx), (S, .dy), (W, .dx), (T, .value)], Keyed (kindOp hK.zero_mem hΔ hD) w.1 w.2 := by
    intro w hw
    simp only [List.mem_cons, List.not_mem_nil, or_false] at hw
    have side : ∀ (u : ℝ × ℝ) (q : ℝ) (xs) (s : ℝ) (k : Kind), s ≠ 0 → coefs (.dd ![u.1, u.2]) (hD _) = s • kindOp hK.zero_mem hΔ hD k →
        Keyed (kindOp hK.zero_mem hΔ hD) (sideObs c hD u q xs) k := by
      intro u q xs s k hs0 hu
      refine ⟨⟨-c.kappa * s, mul_ne_zero (neg_ne_zero.mpr hκ.ne') hs0, ?_⟩, ?_⟩
      · show -c.kappa • coefs (.dd ![u.1, u.2]) (hD _) = _
        rw [hu, smul_smul]
      · rintro z hz
        obtain rfl := Option.some.inj hz
        exact le_rfl
    rcases hw with rfl | rfl | rfl | rfl | rfl | rfl
    · refine ⟨⟨1, one_ne_zero, (one_smul _ _).symm⟩, ?_⟩
      rintro z hz
      obtain rfl := Option.some.inj hz
      exact le_rfl
    · exact side _ _ _ (-1) _ (by norm_num) (coefs_dd_smul hD _ _ _ (by ext j; fin_cases j <;> simp))
    · exact side _ _ _ (-1) _ (by norm_num) (coefs_dd_smul hD _ _ _ (by ext j; fin_cases j <;> simp))
    · exact side _ _ _ 1 _ (by norm_num) (coefs_dd_smul hD _ _ _ (by ext j; fin_cases j <;> simp))
    · exact side _ _ _ (-1) _ (by norm_num) (coefs_dd_smul hD _ _ _ (by ext j; fin_cases j <;> simp))
    · refine ⟨⟨1, one_ne_zero, (one_smul _ _).symm⟩, ?_⟩
      rintro z hz
      obtain rfl := Option.some.inj hz
      exact hv
  have nodupW : (intervalGrid 0 c.width nb.1 0).Nodup := intervalGrid_nodup (by intro h; linarith) _
  have nodupH : (intervalGrid 0 c.height nb.2 0).Nodup := intervalGrid_nodup (by intro h; linarith) _
  have hnd : ∀ k, (keyPts [(O, Kind.pde), (N, .dy), (E, .dx), (S, .dy), (W, .dx), (T, .value)] k).Nodup := by
    have two : ∀ (A B : List (List ℝ)), A.Nodup → B.Nodup → (∀ x ∈ A, x.length = 2) → (∀ x ∈ B, x.length = 2) → List.Disjoint A B →
        (A.map (toPt 2) ++ B.map (toPt 2)).Nodup := by
      intro A B hA hB lA lB hAB
      rw [← List.map_append]
      refine toPt_nodup (List.Nodup.append hA hB hAB) fun x hx => ?_
      rcases List.mem_append.mp hx with hx | hx
      · exact lA x hx
      · exact lB x hx
    intro k
    cases k
    · simp only [keyPts, List.filter_cons, List.filter_nil, reduceCtorEq, decide_false, decide_true, if_true, if_false, List.flatMap_cons, List.flatMap_nil, List.append_nil,
        Bool.false_eq_true]
      exact centers_nodup h
    · simp only [keyPts, List.filter_cons, List.filter_nil, reduceCtorEq, decide_false, decide_true, if_true, if_false, List.flatMap_cons, List.flatMap_nil, List.append_nil,
        Bool.false_eq_true]
      refine two _ _ (nodupH.map fun a b hab => ?_) (nodupH.map fun a b hab => ?_) ?_ ?_ ?_
      · simpa using hab
      · simpa using hab
      · intro x hx
        obtain ⟨y, -, rfl⟩ := List.mem_map.mp hx
        rfl
      · intro x hx
        obtain ⟨y, -, rfl⟩ := List.mem_map.mp hx
        rfl
      · intro x hx hx'
        obtain ⟨y, -, rfl⟩ := List.mem_map.mp hx
        obtain ⟨y', -, hy⟩ := List.mem_map.mp hx'
        exact hw.ne (List.cons.inj hy).1
    · simp only [keyPts, List.filter_cons, List.filter_nil, reduceCtorEq, decide_false, decide_true, if_true, if_false, List.flatMap_cons, List.flatMap_nil, List.append_nil,
        Bool.false_eq_true]
      refine two _ _ (nodupW.map fun a b hab => ?_) (nodupW.map fun a b hab => ?_) ?_ ?_ ?_
      · simpa using hab
      · simpa using hab
      · intro x hx
        obtain ⟨y, -, rfl⟩ := List.mem_map.mp hx
        rfl
      · intro x hx
        obtain ⟨y, -, rfl⟩ := List.mem_map.mp hx
        rfl
      · intro x hx hx'
        obtain ⟨y, -, rfl⟩ := List.mem_map.mp hx
        obtain ⟨y', -, hy⟩ := List.mem_map.mp hx'
        exact hh.ne (List.cons.inj (List.cons.inj hy).2).1
    · simp only [keyPts, List.filter_cons, List.filter_nil, reduceCtorEq, decide_false, decide_true, if_true, if_false, List.flatMap_cons, List.flatMap_nil, List.append_nil,
        Bool.false_eq_true]
      exact toPt_nodup g3 g4
  obtain ⟨post, hc, J, hJ, hi⟩ := operators_solved hK hs m e he (kindOp_indep hκ.ne' hK.zero_mem hΔ hD) (O, .pde)
    [(N, .dy), (E, .dx), (S, .dy), (W, .dx), (T, .value)] hkey hnd
  refine ⟨O, [N, E, S, W, T], post, hobs, hc, ⟨xs, g1, g2, fun x hx => ⟨_, hr _ _, ?_⟩⟩, ?_⟩
  · have := opObs_mem hi (coefs (diffop 2 c.kappa) hΔ) .pde xs (toPt 2) (fun _ => 0) (fun x => -r (x.getD 0 0) (x.getD 1 0)) (Or.inr rfl)
      List.mem_cons_self hx
    refine ⟨?_, this.2⟩
    obtain ⟨z, hz, hz'⟩ := opAt_smul (s := 1) (y := 0 - -r (x.getD 0 0) (x.getD 1 0)) hK.lower hΔ trivial hJ (toPt 2 x)
      (by rw [one_smul]; exact this.1)
    rw [one_mul, zero_sub, neg_neg] at hz'
    rwa [hz'] at hz
  · have fin : ∀ (u : ℝ × ℝ) (k : Kind) (ps : List (List ℝ)), (sideObs c hD u c.qA2D ps, k) ∈ [(O, Kind.pde), (N, .dy), (E, .dx), (S, .dy), (W, .dx), (T, .value)] →
        ∀ x ∈ ps, ∃ z, OpAt (.dd ![u.1, u.2]) post.mean (toPt 2 x) z ∧ -c.kappa * z = c.qA2D ∧
          post.functlCov e (fun _ : Fin 1 => hK.op m (-c.kappa • coefs (.dd ![u.1, u.2]) (hD _)) (toPt 2 x)) = .ok 0 := by
      intro u k ps hmem x hx
      have := opObs_mem hi (-c.kappa • coefs (.dd ![u.1, u.2]) (hD _)) k ps (toPt 2) (fun _ => 0) (fun _ => -c.qA2D) (Or.inr rfl) hmem hx
      obtain ⟨z, hz, hz'⟩ := opAt_smul hK.lower (hD _) trivial hJ (toPt 2 x) this.1
      exact ⟨z, hz, by rw [hz']; ring, this.2⟩
    rw [flux_cases h nb]
    intro b hb
    simp only [List.mem_cons, List.not_mem_nil, or_false] at hb
    rcases hb with rfl | rfl | rfl | rfl
    · exact ⟨_, hgh _, by simp [intervalGrid, linspace], fin (0, -1) .dy _ (by simp [hN])⟩
    · exact ⟨_, hgv _, by simp [intervalGrid, linspace], fin (-1, 0) .dx _ (by simp [hE])⟩
    · exact ⟨_, hgh _, by simp [intervalGrid, linspace], fin (0, 1) .dy _ (by simp [hS])⟩
    · exact ⟨_, hgv _, by simp [intervalGrid, linspace], fin (-1, 0) .dx _ (by simp [hW])⟩

/-- C73 (fails at the west side): the posterior mean of the notebook has the flux into the die at the west side where the other sides have
the flux out of the die: with the inner normal `(1, 0)`, `-κ ∂_ν u` is `-q_dot_A` instead of `q_dot_A`. -/
theorem notebook_2d_west_violated (h : c.Ok) (ht : c.tdp ≠ 0) {rel : List ℝ} (hrel : (rel.take c.nx).sum ≠ 0) (hK : JetKernel I K) (hs : Strict I K)
    (m : jetF I) (e : Env) (he : e.CholOK) (hΔ : orders (diffop 2 c.kappa) ⊆ I) (hD : ∀ u : Fin 2 → ℝ, orders (.dd u) ⊆ I) (n : ℕ) (nb : ℕ × ℕ)
    (y : List ℝ) {v : ℝ} (hv : 0 ≤ v) :
    ∃ o os post, c.obs2D hΔ hD hK.zero_mem rel n nb y v = .ok (o, os) ∧ condAll e hK m o os = .ok post ∧
      (∀ z ∈ intervalGrid 0 c.height nb.2 0, ∃ s, HasDerivAt (fun t => post.mean ![c.width - t, z]) s 0 ∧ -c.kappa * s = c.qA2D) ∧
      ∀ z ∈ intervalGrid 0 c.height nb.2 0, ∃ s, HasDerivAt (fun t => post.mean ![t, z]) s 0 ∧ -c.kappa * s = -c.qA2D ∧ -c.kappa * s ≠ c.qA2D := by
  obtain ⟨o, os, post, h1, h2, -, h3⟩ := notebook_2d h hrel hK hs m e he hΔ hD n nb y hv
  rw [flux_cases h nb] at h3
  have hq : c.qA2D ≠ 0 := by
    have h1 := h.width
    have h2 := h.height
    have h3 := h.depth
    rw [Chip.qA2D, Chip.aSink, Chip.aTopBottom, Chip.aSideEW, Chip.aSideNS]
    exact div_ne_zero (neg_ne_zero.mpr ht) (by positivity)
  refine ⟨o, os, post, h1, h2, fun z hz => ?_, fun z hz => ?_⟩
  · obtain ⟨xs, k1, -, k2⟩ := h3 ((.prod [.point0 c.width, .interval 0 c.height], (-1, 0), c.qA2D), nb.2) (by simp)
    rw [grid_vertical h.height] at k1
    obtain rfl := Except.ok.inj k1
    obtain ⟨s, s1, s2, -⟩ := k2 [c.width, z] (List.mem_map_of_mem (f := fun y => [c.width, y]) hz)
    refine ⟨s, ?_, s2⟩
    have s1 : HasDerivAt (fun t : ℝ => post.mean (toPt 2 [c.width, z] + t • ![-1, 0])) s 0 := s1
    convert s1 using 2 with t
    congr 1
    ext j
    fin_cases j <;> simp [toPt, sub_eq_add_neg]
  · obtain ⟨xs, k1, -, k2⟩ := h3 ((.prod [.point0 0, .interval 0 c.height], (-1, 0), c.qA2D), nb.2) (by simp)
    rw [grid_vertical h.height] at k1
    obtain rfl := Except.ok.inj k1
    obtain ⟨s, s1, s2, -⟩ := k2 [0, z] (List.mem_map_of_mem (f := fun y => [(0 : ℝ), y]) hz)
    refine ⟨-s, ?_, by linarith, fun h0 => hq (by linarith)⟩
    have s1 : HasDerivAt (fun t : ℝ => post.mean (toPt 2 [0, z] + t • ![-1, 0])) s 0 := s1
    have s3 : HasDerivAt (fun t : ℝ => -t) (-1) (0 : ℝ) := (hasDerivAt_id (0 : ℝ)).neg
    have s4 := HasDerivAt.comp (0 : ℝ) (h₂ := fun t : ℝ => post.mean (toPt 2 [0, z] + t • ![-1, 0])) (h := fun t : ℝ => -t) (by rw [neg_zero]; exact s1) s3
    rw [mul_neg, mul_one] at s4
    have e1 : (fun t => post.mean ![t, z]) = (fun t : ℝ => post.mean (toPt 2 [0, z] + t • ![-1, 0])) ∘ fun t : ℝ => -t := by
      funext t
      show _ = post.mean _
      congr 1
      ext j
      fin_cases j <;> simp [toPt]
    rw [e1]
    exact s4

lemma matern_orders (a : ℝ) : orders (diffop 2 a) ⊆ box (d := 2) fun j => (((![2, 2] : Fin 2 → ℕ) j : ℕ) : ℕ∞) := by
  rintro _ ⟨j, rfl⟩
  fin_cases j <;> intro k <;> fin_cases k <;> simp

lemma matern_orders_dd (u : Fin 2 → ℝ) : orders (.dd u) ⊆ box (d := 2) fun j => (((![2, 2] : Fin 2 → ℕ) j : ℕ) : ℕ∞) := by
  rintro _ ⟨j, rfl⟩
  fin_cases j <;> intro k <;> fin_cases k <;> simp

/-- Non-vacuity: the wrong flux occurs at the corner of the die of the notebook. -/
example (e : Env) (he : e.CholOK) (y : List ℝ) : ∃ post : Cond ((smul_jet (matern_jet ![2, 2] ![√5 / 16.28, √5 / 9.19]) (show (0 : ℝ) ≤ 3 ^ 2 by norm_num)).prior 0),
    ∃ s, HasDerivAt (fun t => post.mean ![t, 0]) s 0 ∧ -coffeeLake.kappa * s ≠ coffeeLake.qA2D := by
  have hl : ∀ j : Fin 2, (![√5 / 16.28, √5 / 9.19] : Fin 2 → ℝ) j ≠ 0 := fun j => by fin_cases j <;> simp <;> norm_num
  obtain ⟨-, -, post, -, -, -, h3⟩ := notebook_2d_west_violated (c := coffeeLake) coffeeLake_ok (by norm_num [coffeeLake]) (rel := [0.9, 0.75, 1])
    (by norm_num [coffeeLake]) (smul_jet (matern_jet ![2, 2] ![√5 / 16.28, √5 / 9.19]) (show (0 : ℝ) ≤ 3 ^ 2 by norm_num)) (smul_strict (matern_strict _ hl) (by norm_num))
    0 e he (matern_orders _) matern_orders_dd 15 (10, 8) y (v := 0.5 ^ 2) (by norm_num)
  have h0 : (0 : ℝ) ∈ intervalGrid 0 coffeeLake.height 8 0 := by
    have := (intervalGrid_spec 0 coffeeLake.height 8 0).2.1 (by norm_num)
    rw [add_zero] at this
    exact List.mem_of_mem_head? this
  obtain ⟨s, s1, -, s3⟩ := h3 0 h0
  exact ⟨post, s, s1, s3⟩

/-- Non-vacuity: the chip, the relative heights, the prior (up to its constant mean) and the grids of the notebook. -/
example (e : Env) (he : e.CholOK) (y : List ℝ) : ∃ (post : Cond ((smul_jet (matern_jet ![2, 2] ![√5 / 16.28, √5 / 9.19]) (show (0 : ℝ) ≤ 3 ^ 2 by norm_num)).prior 0))
    (xs : List (List ℝ)), xs.length = 15 * 15 ∧ ∀ x ∈ xs, ∃ r, coffeeLake.rhs2D [0.9, 0.75, 1] (x.getD 0 0) (x.getD 1 0) = .ok r ∧
      OpAt (.wl fun _ => -coffeeLake.kappa) post.mean (toPt 2 x) r := by
  have hl : ∀ j : Fin 2, (![√5 / 16.28, √5 / 9.19] : Fin 2 → ℝ) j ≠ 0 := fun j => by fin_cases j <;> simp <;> norm_num
  obtain ⟨-, -, post, -, -, ⟨xs, -, h2, h3⟩, -⟩ := notebook_2d (c := coffeeLake) coffeeLake_ok (rel := [0.9, 0.75, 1]) (by norm_num [coffeeLake])
    (smul_jet (matern_jet ![2, 2] ![√5 / 16.28, √5 / 9.19]) (show (0 : ℝ) ≤ 3 ^ 2 by norm_num)) (smul_strict (matern_strict _ hl) (by norm_num)) 0 e he
    (matern_orders _) matern_orders_dd 15 (10, 8) y (v := 0.5 ^ 2) (by norm_num)
  exact ⟨post, xs, h2, fun x hx => let ⟨r, a, b, _⟩ := h3 x hx; ⟨r, a, b⟩⟩

end LinPDE.Cpu
