import Verif.Cpu.HeatProps
import Mathlib.MeasureTheory.Integral.DivergenceTheorem
import Mathlib.Analysis.Calculus.FDeriv.Extend

/-! # C72: power balance and the one-dimensional solutions of `cpu.py` -/

namespace LinPDE.Cpu
open LinPDE.Piecewise LinPDE.Pde MeasureTheory Set Filter Topology

/-! ## The initial value problem with a continuous right-hand side -/

lemma ivp_full {rhs : PW} {pts : List (ℝ × ℝ)} (hI : Interp rhs pts) {w : ℝ} (hw : 0 < w) (h0 : rhs.X 0 = 0)
    (h1 : rhs.X rhs.fns.length = w) (u0 u1 : ℝ) {α : ℝ} (hα : α ≠ 0) :
    ∃ u u' : PW, mkIvpPiecewise (.scalars 0 w) (some rhs) [u0, u1] α = .ok u ∧ (∀ x, u.evaluate x = .ok (val u x)) ∧
      val u 0 = u0 ∧ ContinuousOn (val u) (Icc 0 w) ∧
      (∀ x ∈ Icc 0 w, val u' x = u1 - (∫ t in (0 : ℝ)..x, val rhs t) / α) ∧
      (∀ x ∈ Ioo 0 w, HasDerivAt (val u) (val u' x) x ∧ HasDerivAt (val u') (-(val rhs x) / α) x) ∧
      HasDerivWithinAt (val u) (val u' 0) (Ici 0) 0 ∧ HasDerivWithinAt (val u) (val u' w) (Iic w) w := by
  obtain ⟨u, u', e1, -, e2, e3, e4, ⟨e5, e6, e7⟩, e8, e9⟩ := ivpPiecewise_solves_partial (0, w) hw.le hI.ok hI.poly
    (by rw [hI.kind]; simp) u0 u1 hα
  have hc := hI.continuousOn
  rw [h0] at e3 e5 e6 e7 e8 e9 hc
  rw [h1] at e3 e8 e9 hc
  have key : ∀ x ∈ Icc 0 w, val u' x = u1 - (∫ t in (0 : ℝ)..x, val rhs t) / α := by
    intro x hx
    have := integral_eq_of_hasDerivAt_off_countable_of_le (val u') (fun t => -(val rhs t) / α) hx.1
      (s := {t | ∃ i ≤ rhs.fns.length, t = rhs.X i}) ?_ (e9.mono (Icc_subset_Icc_right hx.2)) ?_ ?_
    · rw [e6] at this
      have e : ∫ t in (0 : ℝ)..x, -(val rhs t) / α = -((∫ t in (0 : ℝ)..x, val rhs t) / α) := by
        rw [intervalIntegral.integral_div, intervalIntegral.integral_neg, neg_div]
      rw [e] at this
      linarith
    · have : {t : ℝ | ∃ i ≤ rhs.fns.length, t = rhs.X i} ⊆ Set.range rhs.X := by
        rintro t ⟨i, -, rfl⟩
        exact ⟨i, rfl⟩
      exact (Set.countable_range _).mono this
    · rintro t ⟨ht, hts⟩
      obtain ⟨i, ⟨hi, hin⟩, -⟩ := piecewise_cover hI.ok (x := t) (by rw [h0]; exact ht.1.le)
        (by rw [h1]; exact ht.2.le.trans hx.2)
      have hl := lt_of_le_of_ne hin.lower fun e => hts ⟨i, hi.le, e.symm⟩
      have hr := lt_of_le_of_ne hin.2 fun e => hts ⟨i + 1, hi, e⟩
      obtain ⟨d, hd, hev⟩ := e4 i hi t ⟨hl, hr⟩
      rw [hI.evaluate] at hev
      have : -(val rhs t) / α = d := by
        rw [Except.ok.inj hev]
        field_simp
      rw [this]
      exact hd
    · have : ContinuousOn (fun t => -(val rhs t) / α) (Icc 0 x) :=
        ((hc.mono (Icc_subset_Icc_right hx.2)).neg).div_const α
      exact this.intervalIntegrable_of_Icc hx.1
  refine ⟨u, u', e1, e2, e5, e8, key, fun x hx => ⟨(e3 x hx).1, ?_⟩, by rw [e6]; exact e7, ?_⟩
  · have hat : ContinuousAt (val rhs) x := hc.continuousAt (Icc_mem_nhds hx.1 hx.2)
    have hd := intervalIntegral.integral_hasDerivAt_right (a := 0) (b := x) (f := val rhs)
      ((hc.mono (Icc_subset_Icc_right hx.2.le)).intervalIntegrable_of_Icc hx.1.le)
      ((hc.mono Ioo_subset_Icc_self).stronglyMeasurableAtFilter isOpen_Ioo x hx) hat
    have hd' := ((hd.div_const α).const_sub u1)
    rw [← neg_div] at hd'
    refine hd'.congr_of_eventuallyEq ?_
    filter_upwards [Icc_mem_nhds hx.1 hx.2] with t ht using key t ht
  · refine hasDerivWithinAt_Iic_of_tendsto_deriv (s := Ioo 0 w)
      (fun x hx => (e3 x hx).1.differentiableAt.differentiableWithinAt)
      ((e8 w (right_mem_Icc.mpr hw.le)).mono Ioo_subset_Icc_self) (Ioo_mem_nhdsLT hw) ?_
    have hlim : Tendsto (val u') (𝓝[<] w) (𝓝 (val u' w)) :=
      ((e9 w (right_mem_Icc.mpr hw.le)).mono Ioo_subset_Icc_self).tendsto.mono_left (by rw [nhdsWithin_Ioo_eq_nhdsLT hw])
    refine hlim.congr' ?_
    filter_upwards [Ioo_mem_nhdsLT hw] with x hx using ((e3 x hx).1.deriv).symm

/-! ## Right-hand sides -/

variable {c : Chip}

lemma knotsX_first (c : Chip) (rel : List ℝ) : ((c.knotsX rel).map Prod.fst).getD 0 0 = 0 := rfl

lemma knotsX_last (c : Chip) (rel : List ℝ) :
    ((c.knotsX rel).map Prod.fst).getD (((c.knotsX rel).map Prod.fst).length - 1) 0 = c.width := by
  rw [knotsX_cons, ← List.cons_append, List.map_append]
  simp

lemma rhs_interp (h : c.Ok) {rel : List ℝ} (hrel : (rel.take c.nx).sum ≠ 0) (v : ℝ) :
    ∃ s g pts, c.src1D rel = .ok s ∧ s.addConst v = .ok g ∧ Interp g pts ∧ g.X 0 = 0 ∧ g.X g.fns.length = c.width ∧
      ∫ x in (0 : ℝ)..c.width, val g x = c.tdp / c.depth / c.height + v * c.width := by
  obtain ⟨-, f, -, hf, hI, -, hii, hint⟩ := heatDistX_interp h hrel
  obtain ⟨s, hs, hIs⟩ := hI.smul (c.tdp / c.depth / c.height)
  obtain ⟨g, hg, hIg⟩ := hIs.addConst v
  have hxs : ∀ {p : PW} {pts : List (ℝ × ℝ)}, Interp p pts → pts.map Prod.fst = (c.knotsX rel).map Prod.fst →
      p.X 0 = 0 ∧ p.X p.fns.length = c.width := by
    intro p pts hp hpt
    have hl := hp.ok.len
    refine ⟨by rw [PW.X, hp.xs, hpt, knotsX_first], ?_⟩
    rw [PW.X, hp.xs, hpt, show p.fns.length = ((c.knotsX rel).map Prod.fst).length - 1 by rw [← hpt, ← hp.xs]; omega, knotsX_last]
  obtain ⟨x0, x1⟩ := hxs hIg (by simp [Function.comp_def])
  obtain ⟨y0, y1⟩ := hxs hIs (by simp [Function.comp_def])
  refine ⟨s, g, _, ?_, hg, hIg, x0, x1, ?_⟩
  · unfold Chip.src1D
    simp only [hf, Bind.bind, Except.bind, hs]
  · have hv : ∀ x ∈ uIcc 0 c.width, val g x = c.tdp / c.depth / c.height * val f x + v := by
      intro x hx
      rw [uIcc_of_le h.width.le] at hx
      obtain ⟨_, g', _, hg', hev⟩ := add_eval_partial hIs.ok hIs.kind (.ofCoeffs []) v
      obtain rfl := Except.ok.inj (hg.symm.trans hg')
      obtain ⟨y, e1, -, e2⟩ := hev x (by rw [y0]; exact hx.1) (by rw [y1]; exact hx.2)
      rw [← Interp.smul_val hI hs]
      unfold val
      rw [e1, e2]
    rw [intervalIntegral.integral_congr hv, intervalIntegral.integral_add (hii.const_mul _) intervalIntegrable_const,
      intervalIntegral.integral_const_mul, hint, intervalIntegral.integral_const, smul_eq_mul]
    ring

/-- C72, power balance in one dimension: the heat produced in the volume, the heat taken out of it and the heat leaving through
the two side faces add up to zero. -/
theorem power_balance_1d (h : c.Ok) {rel : List ℝ} (hrel : (rel.take c.nx).sum ≠ 0) :
    ∃ g, c.rhs1D rel = .ok g ∧ (∀ x, g.evaluate x = .ok (val g x)) ∧
      c.height * c.depth * (∫ x in (0 : ℝ)..c.width, val g x) + 2 * (c.height * c.depth) * c.qA1D = 0 := by
  obtain ⟨s, g, pts, hs, hg, hI, -, -, hint⟩ := rhs_interp h hrel c.sink1D
  refine ⟨g, ?_, hI.evaluate, ?_⟩
  · unfold Chip.rhs1D
    simp only [hs, Bind.bind, Except.bind, hg]
  · have h1 := h.width
    have h2 := h.height
    have h3 := h.depth
    rw [hint, Chip.sink1D, Chip.qA1D, Chip.aSink1D, Chip.aTopBottom, Chip.aSideEW]
    have : 0 < c.width * c.height + 2 * (c.height * c.depth) := by positivity
    field_simp
    ring

/-- C72: the right-hand side of `pde_1D_dbc`, with the sink spread over the volume alone, is balanced by itself. -/
theorem rhs_dbc_balanced (h : c.Ok) {rel : List ℝ} (hrel : (rel.take c.nx).sum ≠ 0) :
    ∃ g, c.rhs1Ddbc rel = .ok g ∧ (∀ x, g.evaluate x = .ok (val g x)) ∧ ∫ x in (0 : ℝ)..c.width, val g x = 0 := by
  obtain ⟨s, g, pts, hs, hg, hI, -, -, hint⟩ := rhs_interp h hrel c.sink1Ddbc
  refine ⟨g, ?_, hI.evaluate, ?_⟩
  · unfold Chip.rhs1Ddbc
    simp only [hs, Bind.bind, Except.bind, hg]
  · have h1 := h.width
    have h2 := h.height
    have h3 := h.depth
    rw [hint, Chip.sink1Ddbc, Chip.vol]
    field_simp
    ring

/-! ## Solutions -/

/-- `u` solves `-κ u'' = r` on `[0, w]`, with one-sided first derivatives `u'` at the ends. -/
def Solves (κ w : ℝ) (r u u' : ℝ → ℝ) : Prop :=
  (∀ x ∈ Icc 0 w, HasDerivWithinAt u (u' x) (Icc 0 w) x) ∧ ∀ x ∈ Ioo 0 w, ∃ d, HasDerivAt u' d x ∧ -κ * d = r x

lemma ivp_solves (h : c.Ok) {rel : List ℝ} (hrel : (rel.take c.nx).sum ≠ 0) (u1 : ℝ) :
    ∃ rhs u u', c.rhs1D rel = .ok rhs ∧
      mkIvpPiecewise (.scalars 0 c.width) (some rhs) [60, u1] c.kappa = .ok u ∧ (∀ x, u.evaluate x = .ok (val u x)) ∧
      val u 0 = 60 ∧ Solves c.kappa c.width (val rhs) (val u) u' ∧ u' 0 = u1 ∧ c.kappa * u' c.width = c.kappa * u1 + 2 * c.qA1D := by
  obtain ⟨s, g, pts, hs, hg, hI, x0, x1, hint⟩ := rhs_interp h hrel c.sink1D
  have hκ := h.kappa
  obtain ⟨u, u', e1, e2, e3, -, e4, e5, e6, e7⟩ := ivp_full hI h.width x0 x1 60 u1 hκ.ne'
  have hg' : c.rhs1D rel = .ok g := by
    unfold Chip.rhs1D
    simp only [hs, Bind.bind, Except.bind, hg]
  refine ⟨g, u, val u', hg', e1, e2, e3, ⟨fun x hx => ?_, fun x hx => ⟨_, (e5 x hx).2, by field_simp⟩⟩, ?_, ?_⟩
  · rcases hx.1.eq_or_lt with rfl | hx0
    · exact e6.mono Icc_subset_Ici_self
    · rcases hx.2.eq_or_lt with rfl | hx1
      · exact e7.mono Icc_subset_Iic_self
      · exact (e5 x ⟨hx0, hx1⟩).1.hasDerivWithinAt
  · rw [e4 0 ⟨le_rfl, h.width.le⟩, intervalIntegral.integral_same]
    simp
  · obtain ⟨g', hg'', -, hb⟩ := power_balance_1d h hrel
    obtain rfl := Except.ok.inj (hg'.symm.trans hg'')
    have h2 := h.height
    have h3 := h.depth
    have hb' : (∫ x in (0 : ℝ)..c.width, val g x) = -(2 * c.qA1D) := by
      have : c.height * c.depth * ((∫ x in (0 : ℝ)..c.width, val g x) + 2 * c.qA1D) = 0 := by linarith
      have := (mul_eq_zero.mp this).resolve_left (by positivity)
      linarith
    rw [e4 c.width ⟨h.width.le, le_rfl⟩, hb']
    field_simp
    ring

/-- C72: the solution attached to `bvp_1D` solves the differential equation of `pde_1D` and satisfies both boundary conditions of
`bvp_1D`, although it is computed from initial values at the left end. -/
theorem solution_1d (h : c.Ok) {rel : List ℝ} (hrel : (rel.take c.nx).sum ≠ 0) :
    ∃ rhs u u', c.rhs1D rel = .ok rhs ∧ c.solution1D rel = .ok u ∧ (∀ x, u.evaluate x = .ok (val u x)) ∧ val u 0 = 60 ∧
      Solves c.kappa c.width (val rhs) (val u) u' ∧
      c.flux1D.length = 2 ∧ (∀ b ∈ c.flux1D, ∀ x, [x] ∈ b.1.den → b.2.1 * u' x = b.2.2) ∧
      ([0] ∈ (c.flux1D.map fun b => b.1.den).getD 0 ∅ ∧ [c.width] ∈ (c.flux1D.map fun b => b.1.den).getD 1 ∅) := by
  obtain ⟨rhs, u, u', e1, e2, e3, e4, e5, e6, e7⟩ := ivp_solves h hrel (-c.qA1D / c.kappa)
  have hκ := h.kappa
  refine ⟨rhs, u, u', e1, ?_, e3, e4, e5, rfl, fun b hb x hx => ?_, ?_⟩
  · unfold Chip.solution1D
    rw [e1]
    exact e2
  · simp only [Chip.flux1D, List.mem_cons, List.not_mem_nil, or_false] at hb
    rcases hb with rfl | rfl
    · obtain rfl : x = 0 := by simpa [Domains.Dom.boundary, Domains.Dom.den] using hx
      rw [e6]
      field_simp
    · obtain rfl : x = c.width := by simpa [Domains.Dom.boundary, Domains.Dom.den] using hx
      have : c.kappa * (-c.qA1D / c.kappa) = -c.qA1D := by field_simp
      rw [this] at e7
      linarith
  · simp [Chip.flux1D, Domains.Dom.boundary, Domains.Dom.den]

/-- C72: `_solution_1D_dbc` starts without flux, but is computed with the right-hand side of `pde_1D`: at the right end the flux
is the sum of both boundary fluxes of `bvp_1D`, and not zero as for the right-hand side of `pde_1D_dbc`, which is not used. -/
theorem solution_dbc_flux (h : c.Ok) (ht : c.tdp ≠ 0) {rel : List ℝ} (hrel : (rel.take c.nx).sum ≠ 0) :
    ∃ rhs u u', c.rhs1D rel = .ok rhs ∧ c.solution1Ddbc rel = .ok u ∧ (∀ x, u.evaluate x = .ok (val u x)) ∧ val u 0 = 60 ∧
      Solves c.kappa c.width (val rhs) (val u) u' ∧ u' 0 = 0 ∧ c.kappa * u' c.width = 2 * c.qA1D ∧ u' c.width ≠ 0 := by
  obtain ⟨rhs, u, u', e1, e2, e3, e4, e5, e6, e7⟩ := ivp_solves h hrel 0
  rw [mul_zero, zero_add] at e7
  refine ⟨rhs, u, u', e1, ?_, e3, e4, e5, e6, e7, fun h0 => ?_⟩
  · unfold Chip.solution1Ddbc
    rw [e1]
    exact e2
  · rw [h0, mul_zero, Chip.qA1D, Chip.aSink1D, Chip.aTopBottom, Chip.aSideEW] at e7
    have h1 := h.width
    have h2 := h.height
    have h3 := h.depth
    have : c.width * c.height + 2 * (c.height * c.depth) ≠ 0 := by positivity
    have := (mul_eq_zero.mp e7.symm).resolve_left two_ne_zero
    rw [div_eq_zero_iff] at this
    rcases this with h4 | h4
    · exact ht (neg_eq_zero.mp h4)
    · contradiction

/-- Non-vacuity: the solution of the script. -/
example : ∃ u u' : ℝ → ℝ, (∃ f, coffeeLake.solution1D [0.9, 0.75, 1] = .ok f ∧ ∀ x, f.evaluate x = .ok (u x)) ∧ u 0 = 60 ∧
    ∃ r, Solves coffeeLake.kappa coffeeLake.width r u u' := by
  obtain ⟨rhs, u, u', -, e1, e2, e3, e4, -⟩ := solution_1d (rel := [0.9, 0.75, 1]) coffeeLake_ok (by norm_num [coffeeLake])
  exact ⟨val u, u', ⟨u, e1, e2⟩, e3, _, e4⟩

/-! ## Two dimensions -/

/-- C72, power balance in two dimensions: the right-hand side of `pde_2D` and the flux `q_dot_A_2D` through the four side faces
add up to zero. -/
theorem power_balance_2d (h : c.Ok) {rel : List ℝ} (hrel : (rel.take c.nx).sum ≠ 0) :
    ∃ r : ℝ → ℝ → ℝ, (∀ x y, c.rhs2D rel x y = .ok (r x y)) ∧
      IntegrableOn (fun z : ℝ × ℝ => r z.1 z.2) (uIcc 0 c.width ×ˢ uIcc 0 c.height) ∧
      c.depth * (∫ x in (0 : ℝ)..c.width, ∫ y in (0 : ℝ)..c.height, r x y) + 2 * (c.width + c.height) * c.depth * c.qA2D = 0 := by
  obtain ⟨-, f, -, hf, hI, -, hii, hint⟩ := heatDistX_interp h hrel
  obtain ⟨g, hg, hgev, hgint, -⟩ := heat_dist_y h
  have hgi : IntervalIntegrable (val g) volume 0 c.height := by
    by_contra hc
    rw [intervalIntegral.integral_undef hc] at hgint
    exact zero_ne_one hgint
  refine ⟨fun x y => c.tdp / c.depth * val f x * val g y + c.sink2D, fun x y => ?_, ?_, ?_⟩
  · unfold Chip.rhs2D Chip.src2D
    simp only [hf, hg, Bind.bind, Except.bind, hI.evaluate, hgev]
  · rw [uIcc_of_le h.width.le, uIcc_of_le h.height.le, IntegrableOn, Measure.volume_eq_prod, ← Measure.prod_restrict]
    have i1 : Integrable (fun x => c.tdp / c.depth * val f x) (volume.restrict (Icc 0 c.width)) :=
      (((intervalIntegrable_iff_integrableOn_Icc_of_le h.width.le).mp hii).const_mul _)
    have i2 : Integrable (val g) (volume.restrict (Icc 0 c.height)) :=
      (intervalIntegrable_iff_integrableOn_Icc_of_le h.height.le).mp hgi
    exact (i1.mul_prod i2).add (integrable_const _)
  · have h1 := h.width
    have h2 := h.height
    have h3 := h.depth
    have e : ∀ x, ∫ y in (0 : ℝ)..c.height, (c.tdp / c.depth * val f x * val g y + c.sink2D) =
        c.tdp / c.depth * val f x + c.sink2D * c.height := fun x => by
      rw [intervalIntegral.integral_add (hgi.const_mul _) intervalIntegrable_const, intervalIntegral.integral_const_mul, hgint,
        intervalIntegral.integral_const, smul_eq_mul]
      ring
    simp only [e]
    rw [intervalIntegral.integral_add (hii.const_mul _) intervalIntegrable_const, intervalIntegral.integral_const_mul, hint,
      intervalIntegral.integral_const, smul_eq_mul, Chip.sink2D, Chip.qA2D, Chip.aSink, Chip.aTopBottom, Chip.aSideEW, Chip.aSideNS]
    have : 0 < c.width * c.height + 2 * (c.width * c.depth) + 2 * (c.height * c.depth) := by positivity
    field_simp
    ring

/-- `u` is a classical solution of the stationary problem in two dimensions with gradient `(p, q)`: inside of the die
`-κ (∂p/∂x + ∂q/∂y)` is the right-hand side of `pde_2D`, and on the boundary parts of the list the operator `-κ D_d` takes the
given value. -/
structure Neumann (c : Chip) (rel : List ℝ) (flux : List (Domains.Dom × (ℝ × ℝ) × ℝ)) (u p q : ℝ × ℝ → ℝ) : Prop where
  grad : ∀ z ∈ Ioo 0 c.width ×ˢ Ioo 0 c.height,
    HasFDerivAt u (p z • ContinuousLinearMap.fst ℝ ℝ ℝ + q z • ContinuousLinearMap.snd ℝ ℝ ℝ) z
  contp : ContinuousOn p (Icc 0 c.width ×ˢ Icc 0 c.height)
  contq : ContinuousOn q (Icc 0 c.width ×ˢ Icc 0 c.height)
  pde : ∃ p' q' : ℝ × ℝ → ℝ × ℝ →L[ℝ] ℝ, ∀ z ∈ Ioo 0 c.width ×ˢ Ioo 0 c.height,
    HasFDerivAt p (p' z) z ∧ HasFDerivAt q (q' z) z ∧ c.rhs2D rel z.1 z.2 = .ok (-c.kappa * (p' z (1, 0) + q' z (0, 1)))
  flux : ∀ b ∈ flux, ∀ x y, [x, y] ∈ b.1.den → -c.kappa * (b.2.1.1 * p (x, y) + b.2.1.2 * q (x, y)) = b.2.2

/-- The boundary observations with direction `(s, 0)` at the west side. -/
noncomputable def Chip.flux2Dwest (c : Chip) (s : ℝ) : List (Domains.Dom × (ℝ × ℝ) × ℝ) :=
  c.flux2D.take 3 ++ [(c.domain2D.boundary.getD 0 (.point0 0), (s, 0), c.qA2D)]

/-- C72: by the divergence theorem the boundary conditions are compatible with the right-hand side only if the derivative at the
west side is taken in the inner normal direction `(1, 0)`. -/
theorem neumann_west (h : c.Ok) (ht : c.tdp ≠ 0) {rel : List ℝ} (hrel : (rel.take c.nx).sum ≠ 0) {s : ℝ}
    {u p q : ℝ × ℝ → ℝ} (hN : Neumann c rel (c.flux2Dwest s) u p q) : s = 1 := by
  obtain ⟨r, hr, hri, hb⟩ := power_balance_2d h hrel
  obtain ⟨p', q', hd⟩ := hN.pde
  have h1 := h.width
  have h2 := h.height
  have h3 := h.depth
  have hκ := h.kappa
  have hne : c.width ≠ 0 := h1.ne'
  have hne' : c.height ≠ 0 := h2.ne'
  have hbd : c.domain2D.boundary = [.prod [.point0 0, .interval 0 c.height], .prod [.point0 c.width, .interval 0 c.height],
      .prod [.interval 0 c.width, .point0 0], .prod [.interval 0 c.width, .point0 c.height]] := by
    simp [Chip.domain2D, Domains.Dom.boundary, Domains.boxBoundary, Domains.leafBoundary, Domains.boxFactor, hne, hne',
      hne.symm, hne'.symm]
  have hf := hN.flux
  simp only [Chip.flux2Dwest, Chip.flux2D, hbd, List.take_succ_cons, List.take_zero, List.cons_append, List.nil_append,
    List.mem_cons, List.not_mem_nil, or_false, forall_eq_or_imp, forall_eq, List.getD_cons_succ, List.getD_cons_zero,
    Domains.Dom.den, Domains.denL] at hf
  obtain ⟨fn, fe, fs, fw⟩ := hf
  have fn' : ∀ x ∈ uIcc 0 c.width, c.kappa * q (x, c.height) = c.qA2D := fun x hx => by
    rw [uIcc_of_le h1.le] at hx
    have := fn x c.height ⟨[x], ⟨x, rfl, hx⟩, [c.height], ⟨[c.height], rfl, [], rfl, rfl⟩, rfl⟩
    linarith
  have fs' : ∀ x ∈ uIcc 0 c.width, c.kappa * q (x, 0) = -c.qA2D := fun x hx => by
    rw [uIcc_of_le h1.le] at hx
    have := fs x 0 ⟨[x], ⟨x, rfl, hx⟩, [0], ⟨[0], rfl, [], rfl, rfl⟩, rfl⟩
    linarith
  have fe' : ∀ y ∈ uIcc 0 c.height, c.kappa * p (c.width, y) = c.qA2D := fun y hy => by
    rw [uIcc_of_le h2.le] at hy
    have := fe c.width y ⟨[c.width], rfl, [y], ⟨[y], ⟨y, rfl, hy⟩, [], rfl, rfl⟩, rfl⟩
    linarith
  have fw' : ∀ y ∈ uIcc 0 c.height, s * (c.kappa * p (0, y)) = -c.qA2D := fun y hy => by
    rw [uIcc_of_le h2.le] at hy
    have := fw 0 y ⟨[0], rfl, [y], ⟨[y], ⟨y, rfl, hy⟩, [], rfl, rfl⟩, rfl⟩
    linarith
  classical
  have hsum : ∀ z : ℝ × ℝ,
      (if z ∈ Ioo 0 c.width ×ˢ Ioo 0 c.height then p' z else (-r z.1 z.2 / c.kappa) • ContinuousLinearMap.fst ℝ ℝ ℝ) (1, 0) +
      (if z ∈ Ioo 0 c.width ×ˢ Ioo 0 c.height then q' z else 0) (0, 1) = -r z.1 z.2 / c.kappa := by
    intro z
    by_cases hz : z ∈ Ioo 0 c.width ×ˢ Ioo 0 c.height
    · rw [if_pos hz, if_pos hz]
      have := Except.ok.inj ((hr z.1 z.2).symm.trans (hd z hz).2.2)
      rw [this]
      field_simp
    · rw [if_neg hz, if_neg hz]
      simp
  have hdiv := integral2_divergence_prod_of_hasFDerivAt p q
    (fun z => if z ∈ Ioo 0 c.width ×ˢ Ioo 0 c.height then p' z else (-r z.1 z.2 / c.kappa) • ContinuousLinearMap.fst ℝ ℝ ℝ)
    (fun z => if z ∈ Ioo 0 c.width ×ˢ Ioo 0 c.height then q' z else 0) 0 0 c.width c.height
    (by rw [uIcc_of_le h1.le, uIcc_of_le h2.le]; exact hN.contp) (by rw [uIcc_of_le h1.le, uIcc_of_le h2.le]; exact hN.contq)
    (fun z hz => by
      rw [min_eq_left h1.le, max_eq_right h1.le, min_eq_left h2.le, max_eq_right h2.le] at hz
      rw [if_pos hz]
      exact (hd z hz).1)
    (fun z hz => by
      rw [min_eq_left h1.le, max_eq_right h1.le, min_eq_left h2.le, max_eq_right h2.le] at hz
      rw [if_pos hz]
      exact (hd z hz).2.1)
    (by
      simp only [hsum]
      exact (hri.neg).div_const _)
  simp only [hsum] at hdiv
  have hmul := congrArg (fun t => s * (c.kappa * t)) hdiv
  have e1 : ∫ x in (0 : ℝ)..c.width, ∫ y in (0 : ℝ)..c.height, -r x y / c.kappa =
      -(∫ x in (0 : ℝ)..c.width, ∫ y in (0 : ℝ)..c.height, r x y) / c.kappa := by
    simp only [intervalIntegral.integral_div, intervalIntegral.integral_neg]
  have e2 : c.kappa * (∫ x in (0 : ℝ)..c.width, q (x, c.height)) = c.width * c.qA2D := by
    rw [← intervalIntegral.integral_const_mul, intervalIntegral.integral_congr fn', intervalIntegral.integral_const, smul_eq_mul,
      sub_zero]
  have e3 : c.kappa * (∫ x in (0 : ℝ)..c.width, q (x, 0)) = -(c.width * c.qA2D) := by
    rw [← intervalIntegral.integral_const_mul, intervalIntegral.integral_congr fs', intervalIntegral.integral_const, smul_eq_mul,
      sub_zero, mul_neg]
  have e4 : c.kappa * (∫ y in (0 : ℝ)..c.height, p (c.width, y)) = c.height * c.qA2D := by
    rw [← intervalIntegral.integral_const_mul, intervalIntegral.integral_congr fe', intervalIntegral.integral_const, smul_eq_mul,
      sub_zero]
  have e5 : s * (c.kappa * (∫ y in (0 : ℝ)..c.height, p (0, y))) = -(c.height * c.qA2D) := by
    rw [← intervalIntegral.integral_const_mul, ← intervalIntegral.integral_const_mul, intervalIntegral.integral_congr fw',
      intervalIntegral.integral_const, smul_eq_mul, sub_zero, mul_neg]
  have hq : c.qA2D ≠ 0 := by
    rw [Chip.qA2D, Chip.aSink, Chip.aTopBottom, Chip.aSideEW, Chip.aSideNS]
    exact div_ne_zero (neg_ne_zero.mpr ht) (by positivity)
  have e6 : (∫ x in (0 : ℝ)..c.width, ∫ y in (0 : ℝ)..c.height, r x y) = -(2 * (c.width + c.height) * c.qA2D) := by
    have : c.depth * ((∫ x in (0 : ℝ)..c.width, ∫ y in (0 : ℝ)..c.height, r x y) + 2 * (c.width + c.height) * c.qA2D) = 0 := by
      linarith
    have := (mul_eq_zero.mp this).resolve_left h3.ne'
    linarith
  have e7 : c.kappa * (-(∫ x in (0 : ℝ)..c.width, ∫ y in (0 : ℝ)..c.height, r x y) / c.kappa) = 2 * (c.width + c.height) * c.qA2D := by
    rw [e6]; field_simp
  rw [e1] at hmul
  rw [e7] at hmul
  have e8 : (s - 1) * (c.height * c.qA2D) = 0 := by
    linear_combination hmul + s * e2 - s * e3 + s * e4 - e5
  exact sub_eq_zero.mp ((mul_eq_zero.mp e8).resolve_right (mul_ne_zero hne' hq))

/-- C72 (fails): the boundary observations of `0001_cpu_stationary_2d.ipynb` use the outer normal direction `(-1, 0)` at the west
side, with the sign of the inner one: no function satisfies the differential equation and these boundary conditions. -/
theorem neumann_2d_violated (h : c.Ok) (ht : c.tdp ≠ 0) {rel : List ℝ} (hrel : (rel.take c.nx).sum ≠ 0) :
    ¬∃ u p q : ℝ × ℝ → ℝ, Neumann c rel c.flux2D u p q := by
  rintro ⟨u, p, q, hN⟩
  have : (-1 : ℝ) = 1 := neumann_west h ht hrel (s := -1) (u := u) (p := p) (q := q) hN
  norm_num at this

/-- Non-vacuity: the chip and the relative heights of the script. -/
example : ¬∃ u p q : ℝ × ℝ → ℝ, Neumann coffeeLake [0.9, 0.75, 1] coffeeLake.flux2D u p q :=
  neumann_2d_violated coffeeLake_ok (by norm_num [coffeeLake]) (by norm_num [coffeeLake])

end LinPDE.Cpu
