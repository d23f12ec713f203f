import Verif.Cpu.Notebook2DProps

/-! # C73: the one-dimensional notebook, with known right-hand side -/

namespace LinPDE.Cpu
open LinPDE.Piecewise LinPDE.GP LinPDE.Block LinPDE.Domains LinPDE.Solve
open LinPDE.Matern (DOp OpAt)
open LinPDE.Pde (val)

/-- The kinds of observations in one dimension. -/
inductive Kind1
  | value | deriv | pde
deriving DecidableEq

instance : Fintype Kind1 := ⟨{.value, .deriv, .pde}, fun k => by cases k <;> decide⟩

variable {c : Chip} {I : Set (Ix 1)} {K : Ix 1 → Pt 1 → Ix 1 → Pt 1 → ℝ}

/-- One operator of each kind. -/
noncomputable def kindOp1 (h0 : (0 : Ix 1) ∈ I) (hΔ : orders (diffop 1 c.kappa) ⊆ I) (hD : ∀ u : Fin 1 → ℝ, orders (.dd u) ⊆ I) : Kind1 → I →₀ ℝ
  | .value => Finsupp.single ⟨0, h0⟩ 1
  | .deriv => coefs (.dd fun _ => 1) (hD _)
  | .pde => coefs (diffop 1 c.kappa) hΔ

lemma kind1_sum (f : Kind1 → ℝ) : ∑ k, f k = f .value + f .deriv + f .pde := by
  have : (Finset.univ : Finset Kind1) = {.value, .deriv, .pde} := rfl
  rw [this]
  simp [add_assoc]

lemma kindOp1_indep (hk : c.kappa ≠ 0) (h0 : (0 : Ix 1) ∈ I) (hΔ : orders (diffop 1 c.kappa) ⊆ I) (hD : ∀ u : Fin 1 → ℝ, orders (.dd u) ⊆ I) :
    LinearIndependent ℝ (kindOp1 h0 hΔ hD) := by
  rw [Fintype.linearIndependent_iff]
  intro g hg
  have ev : ∀ β : I, g .value * kindOp1 h0 hΔ hD .value β + g .deriv * kindOp1 h0 hΔ hD .deriv β + g .pde * kindOp1 h0 hΔ hD .pde β = 0 := by
    intro β
    have := DFunLike.congr_fun hg β
    rw [Finsupp.finsetSum_apply, kind1_sum] at this
    simpa using this
  have ne1 : ∀ j k : Fin 1, (Pi.single j 2 : Ix 1) ≠ Pi.single k 1 := by decide
  have ne2 : ∀ j : Fin 1, ∀ n : ℕ, n ≠ 0 → (Pi.single j n : Ix 1) ≠ 0 := fun j n hn h => hn (by simpa using congrFun h j)
  have e0 := ev ⟨0, h0⟩
  have e1 := ev ⟨Pi.single 0 1, hD 0 ⟨0, rfl⟩⟩
  have e2 := ev ⟨Pi.single 0 2, hΔ ⟨0, rfl⟩⟩
  simp [kindOp1, coefs, diffop, ne1, ne2, (ne1 _ _).symm, (ne2 _ _ _).symm, hk] at e0 e1 e2
  intro k
  cases k
  · exact e0
  · exact e1
  · exact e2

lemma pt1_injective : Function.Injective fun (x : ℝ) (_ : Fin 1) => x := fun _ _ h => congrFun h 0

lemma boundary1D : (Dom.interval 0 c.width).boundary = [.point0 0, .point0 c.width] := rfl

/-- The observation of the differential equation as an explicit list. -/
noncomputable def pdeObs (c : Chip) (hΔ : orders (diffop 1 c.kappa) ⊆ I) (g : PW) (n : ℕ) : OpObs I :=
  ⟨coefs (diffop 1 c.kappa) hΔ, (intervalGrid 0 c.width n (0.03 * c.width)).map fun x _ => x,
    (intervalGrid 0 c.width n (0.03 * c.width)).map (val g), none⟩

lemma pdeObs1D_eq (hΔ : orders (diffop 1 c.kappa) ⊆ I) {rel : List ℝ} {g : PW} (hg : c.rhs1D rel = .ok g)
    (hev : ∀ x, g.evaluate x = .ok (val g x)) (n : ℕ) : c.pdeObs1D hΔ rel n = .ok (pdeObs c hΔ g n) := by
  have hm := Pde.mapM_ok (fun x : ℝ => Chip.liftPW (g.evaluate x)) (val g) (intervalGrid 0 c.width n (0.03 * c.width)) fun x _ => by rw [hev]; rfl
  unfold Chip.pdeObs1D
  rw [hg]
  simp only [Chip.liftPW, bind, Except.bind] at hm ⊢
  rw [hm]
  rfl

lemma pdeObs_nodup (h : c.Ok) (n : ℕ) : ((intervalGrid 0 c.width n (0.03 * c.width)).map fun (x : ℝ) (_ : Fin 1) => x).Nodup := by
  have := h.width
  exact (intervalGrid_nodup (by intro h; linarith) n).map pt1_injective

/-- C73: the process of cells 28-48 can be conditioned on the heat equation at the grid points, on the fluxes at both ends and on noisy temperature
readings. The posterior mean solves the equation at the grid points and has at both ends the same flux as the solution of the boundary value
problem; neither is left uncertain. -/
theorem notebook_1d (h : c.Ok) {rel : List ℝ} (hrel : (rel.take c.nx).sum ≠ 0) (hK : JetKernel I K) (hs : Strict I K) (m : jetF I) (e : Env)
    (he : e.CholOK) (hΔ : orders (diffop 1 c.kappa) ⊆ I) (hD : ∀ u : Fin 1 → ℝ, orders (.dd u) ⊆ I) (n : ℕ) (y : List ℝ) {v : ℝ} (hv : 0 ≤ v) :
    ∃ o os post rhs u u', c.obs1D hΔ hD hK.zero_mem rel n y v = .ok (o, os) ∧ condAll e hK m o os = .ok post ∧
      c.rhs1D rel = .ok rhs ∧ c.solution1D rel = .ok u ∧ Solves c.kappa c.width (val rhs) (val u) u' ∧
      (∀ x ∈ intervalGrid 0 c.width n (0.03 * c.width), OpAt (.wl fun _ => -c.kappa) post.mean (fun _ => x) (val rhs x) ∧
        post.functlCov e (fun _ : Fin 1 => hK.op m (coefs (diffop 1 c.kappa) hΔ) fun _ => x) = .ok 0) ∧
      (∀ x ∈ [0, c.width], HasDerivAt (fun t => post.mean fun _ => t) (u' x) x) ∧
      ∀ b ∈ c.flux1D, post.functlCov e (fun _ : Fin 1 => hK.op m (b.2.1 • coefs (.dd fun _ => 1) (hD _)) fun _ => Chip.ptOf b.1) = .ok 0 := by
  have hκ := h.kappa
  have hw := h.width
  obtain ⟨g, u, u', g1, g2, g3, -, g4, -, g5, -⟩ := solution_1d h hrel
  obtain ⟨g', k1, k2, -⟩ := power_balance_1d h hrel
  obtain rfl := Except.ok.inj (g1.symm.trans k1)
  have hflux : c.flux1D = [(.point0 0, -c.kappa * 1, c.qA1D), (.point0 c.width, -c.kappa * -1, c.qA1D)] := rfl
  set O := pdeObs c hΔ g n with hO
  set A : OpObs I := Chip.fluxObs1D hD (.point0 0, -c.kappa * 1, c.qA1D) with hA
  set B : OpObs I := Chip.fluxObs1D hD (.point0 c.width, -c.kappa * -1, c.qA1D) with hB
  set T : OpObs I := c.dtsObs1D hK.zero_mem y v with hT
  have hobs : c.obs1D hΔ hD hK.zero_mem rel n y v = .ok (O, [A, B, T]) := by
    unfold Chip.obs1D
    rw [pdeObs1D_eq hΔ g1 k2, hflux]
    rfl
  have hkey : ∀ w ∈ [(O, Kind1.pde), (A, .deriv), (B, .deriv), (T, .value)], Keyed (kindOp1 hK.zero_mem hΔ hD) w.1 w.2 := by
    intro w hw
    simp only [List.mem_cons, List.not_mem_nil, or_false] at hw
    rcases hw with rfl | rfl | rfl | rfl
    · exact ⟨⟨1, one_ne_zero, (one_smul _ _).symm⟩, fun z hz => by cases hz⟩
    · exact ⟨⟨-c.kappa * 1, by simpa using hκ.ne', rfl⟩, fun z hz => by cases hz⟩
    · exact ⟨⟨-c.kappa * -1, by simpa using hκ.ne', rfl⟩, fun z hz => by cases hz⟩
    · refine ⟨⟨1, one_ne_zero, (one_smul _ _).symm⟩, ?_⟩
      rintro z hz
      obtain rfl := Option.some.inj hz
      exact hv
  have hnd : ∀ k, (keyPts [(O, Kind1.pde), (A, .deriv), (B, .deriv), (T, .value)] k).Nodup := by
    intro k
    cases k
    · simp only [keyPts, List.filter_cons, List.filter_nil, reduceCtorEq, decide_false, decide_true, if_true, if_false, List.flatMap_cons, List.flatMap_nil, List.append_nil,
        Bool.false_eq_true]
      exact (centersX_nodup h).map pt1_injective
    · simp only [keyPts, List.filter_cons, List.filter_nil, reduceCtorEq, decide_false, decide_true, if_true, if_false, List.flatMap_cons, List.flatMap_nil, List.append_nil,
        Bool.false_eq_true]
      show ([fun _ => 0, fun _ => c.width] : List (Pt 1)).Nodup
      refine List.nodup_cons.mpr ⟨fun hm => ?_, List.nodup_singleton _⟩
      exact hw.ne (congrFun (List.mem_singleton.mp hm) 0)
    · simp only [keyPts, List.filter_cons, List.filter_nil, reduceCtorEq, decide_false, decide_true, if_true, if_false, List.flatMap_cons, List.flatMap_nil, List.append_nil,
        Bool.false_eq_true]
      exact pdeObs_nodup h n
  obtain ⟨post, hc, J, hJ, hi⟩ := operators_solved hK hs m e he (kindOp1_indep hκ.ne' hK.zero_mem hΔ hD) (O, .pde) [(A, .deriv), (B, .deriv), (T, .value)] hkey hnd
  have hend : ∀ (x s : ℝ), s ≠ 0 → (⟨s • coefs (.dd fun _ => 1) (hD _), [fun _ => x], [c.qA1D], none⟩, Kind1.deriv) ∈
        [(O, Kind1.pde), (A, .deriv), (B, .deriv), (T, .value)] → s * u' x = c.qA1D →
      HasDerivAt (fun t => post.mean fun _ => t) (u' x) x ∧
        post.functlCov e (fun _ : Fin 1 => hK.op m (s • coefs (.dd fun _ => 1) (hD _)) fun _ => x) = .ok 0 := by
    intro x s hs0 hmem hu
    have hm := opObs_mem hi (s • coefs (.dd fun _ => 1) (hD _)) .deriv [()] (fun _ _ => x) (fun _ => c.qA1D) (fun _ => 0)
      (Or.inl ⟨rfl, fun _ => rfl⟩) hmem (List.mem_singleton.mpr rfl : () ∈ [()])
    obtain ⟨z, hz, hz'⟩ := opAt_smul hK.lower (hD _) trivial hJ _ hm.1
    obtain rfl : z = u' x := mul_left_cancel₀ hs0 (by linarith)
    constructor
    · have hz : HasDerivAt (fun t : ℝ => post.mean ((fun _ => x) + t • fun _ => 1)) (u' x) 0 := hz
      have hz2 := HasDerivAt.comp x (h₂ := fun t : ℝ => post.mean ((fun _ => x) + t • fun _ => 1)) (h := fun t => t - x)
        (by rw [sub_self]; exact hz) ((hasDerivAt_id x).sub_const x)
      rw [mul_one] at hz2
      have e1 : (fun t => post.mean fun _ => t) = (fun t : ℝ => post.mean ((fun _ => x) + t • fun _ => 1)) ∘ fun t => t - x := by
        funext t
        show _ = post.mean _
        congr 1
        funext j
        simp
      rw [e1]
      exact hz2
    · exact hm.2
  have hl := hend 0 (-c.kappa * 1) (by simpa using hκ.ne') (by simp [hA, Chip.fluxObs1D, Chip.ptOf])
    (g5 (.point0 0, -c.kappa * 1, c.qA1D) (by simp [hflux]) 0 (by simp [Dom.den]))
  have hr := hend c.width (-c.kappa * -1) (by simpa using hκ.ne') (by simp [hB, Chip.fluxObs1D, Chip.ptOf])
    (g5 (.point0 c.width, -c.kappa * -1, c.qA1D) (by simp [hflux]) c.width (by simp [Dom.den]))
  refine ⟨O, [A, B, T], post, g, u, u', hobs, hc, g1, g2, g4, fun x hx => ?_, ?_, ?_⟩
  · have hm := opObs_mem hi (coefs (diffop 1 c.kappa) hΔ) .pde (intervalGrid 0 c.width n (0.03 * c.width)) (fun x _ => x) (val g) (fun _ => 0)
      (Or.inl ⟨rfl, fun _ => rfl⟩) List.mem_cons_self hx
    refine ⟨?_, hm.2⟩
    obtain ⟨z, hz, hz'⟩ := opAt_smul (s := 1) (y := val g x - 0) hK.lower hΔ trivial hJ (fun _ => x) (by rw [one_smul]; exact hm.1)
    rw [one_mul, sub_zero] at hz'
    rwa [hz'] at hz
  · intro x hx
    simp only [List.mem_cons, List.not_mem_nil, or_false] at hx
    rcases hx with rfl | rfl
    · exact hl.1
    · exact hr.1
  · intro b hb
    rw [hflux] at hb
    simp only [List.mem_cons, List.not_mem_nil, or_false] at hb
    rcases hb with rfl | rfl
    · exact hl.2
    · exact hr.2

/-- C73: the process of cells 7-21 can be conditioned on the heat equation at the grid points and on the boundary values. The posterior mean solves
the equation at the grid points and has the boundary values of the solution attached to the problem; neither is left uncertain. -/
theorem notebook_1d_dbc (h : c.Ok) {rel : List ℝ} (hrel : (rel.take c.nx).sum ≠ 0) (ht : c.tdp ≠ 0) (hK : JetKernel I K) (hs : Strict I K) (m : jetF I) (e : Env)
    (he : e.CholOK) (hΔ : orders (diffop 1 c.kappa) ⊆ I) (hD : ∀ u : Fin 1 → ℝ, orders (.dd u) ⊆ I) (n : ℕ) :
    ∃ o os post rhs u u', c.obs1Ddbc hΔ hK.zero_mem rel n = .ok (o, os) ∧ condAll e hK m o os = .ok post ∧
      c.rhs1D rel = .ok rhs ∧ c.solution1Ddbc rel = .ok u ∧ Solves c.kappa c.width (val rhs) (val u) u' ∧
      (∀ x ∈ intervalGrid 0 c.width n (0.03 * c.width), OpAt (.wl fun _ => -c.kappa) post.mean (fun _ => x) (val rhs x) ∧
        post.functlCov e (fun _ : Fin 1 => hK.op m (coefs (diffop 1 c.kappa) hΔ) fun _ => x) = .ok 0) ∧
      ∀ x ∈ [0, c.width], (post.mean fun _ => x) = val u x ∧
        post.functlCov e (fun _ : Fin 1 => hK.op m (Finsupp.single ⟨0, hK.zero_mem⟩ 1) fun _ => x) = .ok 0 := by
  have hκ := h.kappa
  have hw := h.width
  obtain ⟨g, u, u', g1, g2, g3, -, g4, -⟩ := solution_dbc_flux h ht hrel
  obtain ⟨g', k1, k2, -⟩ := power_balance_1d h hrel
  obtain rfl := Except.ok.inj (g1.symm.trans k1)
  set O := pdeObs c hΔ g n with hO
  set B : OpObs I := ⟨Finsupp.single ⟨0, hK.zero_mem⟩ 1, [0, c.width].map fun x _ => x, [0, c.width].map (val u), none⟩ with hB
  have hobs : c.obs1Ddbc hΔ hK.zero_mem rel n = .ok (O, [B]) := by
    have hm := Pde.mapM_ok (fun x : ℝ => Chip.liftPW (u.evaluate x)) (val u) [0, c.width] fun x _ => by rw [g3]; rfl
    unfold Chip.obs1Ddbc Chip.dbcObs1D
    rw [pdeObs1D_eq hΔ g1 k2, boundary1D, g2]
    simp only [bind, Except.bind, List.map_cons, List.map_nil, Chip.ptOf] at hm ⊢
    rw [hm]
    rfl
  have hkey : ∀ w ∈ [(O, Kind1.pde), (B, .value)], Keyed (kindOp1 hK.zero_mem hΔ hD) w.1 w.2 := by
    intro w hw
    simp only [List.mem_cons, List.not_mem_nil, or_false] at hw
    rcases hw with rfl | rfl
    · exact ⟨⟨1, one_ne_zero, (one_smul _ _).symm⟩, fun z hz => by cases hz⟩
    · exact ⟨⟨1, one_ne_zero, (one_smul _ _).symm⟩, fun z hz => by cases hz⟩
  have hnd : ∀ k, (keyPts [(O, Kind1.pde), (B, .value)] k).Nodup := by
    intro k
    cases k
    · simp only [keyPts, List.filter_cons, List.filter_nil, reduceCtorEq, decide_false, decide_true, if_true, if_false, List.flatMap_cons, List.flatMap_nil, List.append_nil,
        Bool.false_eq_true]
      refine List.Nodup.map pt1_injective (List.nodup_cons.mpr ⟨fun hm => ?_, List.nodup_singleton _⟩)
      exact hw.ne (List.mem_singleton.mp hm)
    · simp [keyPts]
    · simp only [keyPts, List.filter_cons, List.filter_nil, reduceCtorEq, decide_false, decide_true, if_true, if_false, List.flatMap_cons, List.flatMap_nil, List.append_nil,
        Bool.false_eq_true]
      exact pdeObs_nodup h n
  obtain ⟨post, hc, J, hJ, hi⟩ := operators_solved hK hs m e he (kindOp1_indep hκ.ne' hK.zero_mem hΔ hD) (O, .pde) [(B, .value)] hkey hnd
  refine ⟨O, [B], post, g, u, u', hobs, hc, g1, g2, g4, fun x hx => ?_, fun x hx => ?_⟩
  · have hm := opObs_mem hi (coefs (diffop 1 c.kappa) hΔ) .pde (intervalGrid 0 c.width n (0.03 * c.width)) (fun x _ => x) (val g) (fun _ => 0)
      (Or.inl ⟨rfl, fun _ => rfl⟩) List.mem_cons_self hx
    refine ⟨?_, hm.2⟩
    obtain ⟨z, hz, hz'⟩ := opAt_smul (s := 1) (y := val g x - 0) hK.lower hΔ trivial hJ (fun _ => x) (by rw [one_smul]; exact hm.1)
    rw [one_mul, sub_zero] at hz'
    rwa [hz'] at hz
  · have hm := opObs_mem hi (Finsupp.single ⟨0, hK.zero_mem⟩ 1) .value [0, c.width] (fun x _ => x) (val u) (fun _ => 0)
      (Or.inl ⟨rfl, fun _ => rfl⟩) (by simp [hB]) hx
    refine ⟨?_, hm.2⟩
    have := hm.1
    rw [Finsupp.sum_single_index (zero_mul _), one_mul, hJ.zero, sub_zero] at this
    exact this

lemma matern1_orders (a : ℝ) : orders (diffop 1 a) ⊆ box (d := 1) fun j => (((![2] : Fin 1 → ℕ) j : ℕ) : ℕ∞) := by
  rintro _ ⟨j, rfl⟩
  fin_cases j
  intro k
  fin_cases k
  simp

lemma matern1_orders_dd (u : Fin 1 → ℝ) : orders (.dd u) ⊆ box (d := 1) fun j => (((![2] : Fin 1 → ℕ) j : ℕ) : ℕ∞) := by
  rintro _ ⟨j, rfl⟩
  fin_cases j
  intro k
  fin_cases k
  simp

/-- Non-vacuity: the chip, the relative heights, the prior (up to its constant mean) and the grid of the notebook. -/
example (e : Env) (he : e.CholOK) (y : List ℝ) :
    ∃ (post : Cond ((smul_jet (matern_jet ![2] ![√5 / (0.75 * 16.28)]) (show (0 : ℝ) ≤ 3 ^ 2 by norm_num)).prior 0)) (u' : ℝ → ℝ) (rhs : PW),
      (∀ x ∈ intervalGrid 0 16.28 17 (0.03 * 16.28), OpAt (.wl fun _ => -15.6) post.mean (fun _ => x) (val rhs x)) ∧
      HasDerivAt (fun t => post.mean fun _ => t) (u' 0) 0 ∧ HasDerivAt (fun t => post.mean fun _ => t) (u' 16.28) 16.28 := by
  have hl : ∀ j : Fin 1, (![√5 / (0.75 * 16.28)] : Fin 1 → ℝ) j ≠ 0 := fun j => by fin_cases j; simp; norm_num
  obtain ⟨-, -, post, rhs, u, u', -, -, -, -, -, h1, h2, -⟩ := notebook_1d (c := coffeeLake) coffeeLake_ok (rel := [0.9, 0.75, 1]) (by norm_num [coffeeLake])
    (smul_jet (matern_jet ![2] ![√5 / (0.75 * 16.28)]) (show (0 : ℝ) ≤ 3 ^ 2 by norm_num)) (smul_strict (matern_strict _ hl) (by norm_num)) 0 e he
    (matern1_orders _) matern1_orders_dd 17 y (v := 0.5 ^ 2) (by norm_num)
  refine ⟨post, u', rhs, fun x hx => ?_, h2 _ (by simp), h2 16.28 (by simp [coffeeLake])⟩
  have := (h1 x hx).1
  rwa [show coffeeLake.kappa = 15.6 by norm_num [coffeeLake]] at this

/-- Non-vacuity: cells 7-21. -/
example (e : Env) (he : e.CholOK) :
    ∃ (post : Cond ((smul_jet (matern_jet ![2] ![√5 / (0.75 * 16.28)]) (show (0 : ℝ) ≤ 3 ^ 2 by norm_num)).prior 0)) (u : PW),
      coffeeLake.solution1Ddbc [0.9, 0.75, 1] = .ok u ∧ (post.mean fun _ => 0) = val u 0 := by
  have hl : ∀ j : Fin 1, (![√5 / (0.75 * 16.28)] : Fin 1 → ℝ) j ≠ 0 := fun j => by fin_cases j; simp; norm_num
  obtain ⟨-, -, post, rhs, u, u', -, -, -, h0, -, -, h2⟩ := notebook_1d_dbc (c := coffeeLake) coffeeLake_ok (rel := [0.9, 0.75, 1]) (by norm_num [coffeeLake])
    (by norm_num [coffeeLake]) (smul_jet (matern_jet ![2] ![√5 / (0.75 * 16.28)]) (show (0 : ℝ) ≤ 3 ^ 2 by norm_num)) (smul_strict (matern_strict _ hl) (by norm_num)) 0 e he
    (matern1_orders _) matern1_orders_dd 17
  exact ⟨post, u, h0, (h2 0 (by simp)).1⟩

end LinPDE.Cpu
