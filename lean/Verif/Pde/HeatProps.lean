import Verif.Pde.BvpProps
import Mathlib.Analysis.SpecialFunctions.Trigonometric.Deriv
import Mathlib.Analysis.SpecialFunctions.ExpDeriv
import Mathlib.Algebra.BigOperators.Fin

/-! # Sine series (C50) and the heat equation (C45, C46) -/

namespace LinPDE.Pde
open LinPDE.Domains LinPDE.Nd
open Set

/-! ## Helpers -/

lemma sum_zipWith_range (f : ℝ → ℝ → ℝ) (g : ℕ → ℝ) (cs : List ℝ) :
    (List.zipWith f cs ((List.range cs.length).map g)).sum = ∑ k ∈ Finset.range cs.length, f (cs.getD k 0) (g k) := by
  have e : List.zipWith f cs ((List.range cs.length).map g) = (List.range cs.length).map fun k => f (cs.getD k 0) (g k) :=
    List.ext_getElem (by simp) fun i h1 h2 => by
      have : i < cs.length := by simpa using h2
      simp [List.getD_eq_getElem?_getD, this]
  rw [e]
  rfl

/-- The `k`-th frequency, counted from zero. -/
noncomputable def freq (l r : ℝ) (k : ℕ) : ℝ := Real.pi * (k + 1) / (r - l)

lemma sineEval_eq (l r : ℝ) (cs : List ℝ) (x : ℝ) :
    sineEval l r cs x = ∑ k ∈ Finset.range cs.length, cs.getD k 0 * Real.sin (freq l r k * (x - l)) := by
  rw [sineEval, frequencies, sum_zipWith_range]
  simp [freq]

lemma heatEval_eq (t0 l r : ℝ) (cs : List ℝ) (α t x : ℝ) :
    heatEval t0 l r cs α t x = ∑ k ∈ Finset.range cs.length, cs.getD k 0 * Real.sin (freq l r k * (x - l)) *
      Real.exp (α * freq l r k ^ 2 * (t0 - t)) := by
  rw [heatEval, frequencies, sum_zipWith_range]
  simp [freq]

lemma sin_freq_right {l r : ℝ} (h : l < r) (k : ℕ) : Real.sin (freq l r k * (r - l)) = 0 := by
  have hne : r - l ≠ 0 := sub_ne_zero.mpr h.ne'
  have : freq l r k * (r - l) = ((k + 1 : ℕ) : ℝ) * Real.pi := by
    rw [freq]; field_simp; push_cast; ring
  rw [this]
  exact Real.sin_nat_mul_pi _

lemma hasDerivAt_sin_mode (c w l x : ℝ) :
    HasDerivAt (fun x => c * Real.sin (w * (x - l))) (c * (w * Real.cos (w * (x - l)))) x := by
  have h1 : HasDerivAt (fun x => w * (x - l)) w x := by
    have := ((hasDerivAt_id x).sub_const l).const_mul w
    rwa [mul_one] at this
  have := (h1.sin).const_mul c
  rwa [mul_comm (Real.cos _) w] at this

lemma hasDerivAt_cos_mode (c w l x : ℝ) :
    HasDerivAt (fun x => c * (w * Real.cos (w * (x - l)))) (-w ^ 2 * (c * Real.sin (w * (x - l)))) x := by
  have h1 : HasDerivAt (fun x => w * (x - l)) w x := by
    have := ((hasDerivAt_id x).sub_const l).const_mul w
    rwa [mul_one] at this
  have := ((h1.cos).const_mul w).const_mul c
  have e : c * (w * (-Real.sin (w * (x - l)) * w)) = -w ^ 2 * (c * Real.sin (w * (x - l))) := by ring
  rwa [e] at this

/-! ## C50 -/

/-- C50: a series is accepted exactly for an interval and a one-dimensional array of coefficients. -/
theorem mkSine_ok_iff (domain : DomainLike) (shape : Shp) (data : List ℝ) (f : Fn) :
    mkSine domain shape data = .ok f ↔ ∃ l r, asdomain domain = .ok (.interval l r) ∧ shape.length = 1 ∧ f = .sine l r data := by
  unfold mkSine
  constructor
  · intro h
    split at h
    next => cases h
    next l r hd =>
      split_ifs at h with h1
      cases h
      exact ⟨l, r, hd, by simpa using h1, rfl⟩
    next => cases h
  · rintro ⟨l, r, hd, h1, rfl⟩
    rw [hd]
    simp [h1]

/-- C50: the value of a series is its defining sum. -/
theorem sine_value (l r : ℝ) (cs : List ℝ) (x : ℝ) :
    (Fn.sine l r cs).call [] [x] = .ok [∑ k ∈ Finset.range cs.length,
      cs.getD k 0 * Real.sin (Real.pi * (k + 1) / (r - l) * (x - l))] := by
  rw [Fn.call, if_pos (show [] = (Fn.sine l r cs).inS from rfl), Fn.ev]
  simp [sineEval_eq, freq]

/-- C50: a series vanishes at both ends of its interval. -/
theorem sine_ends {l r : ℝ} (h : l < r) (cs : List ℝ) : sineEval l r cs l = 0 ∧ sineEval l r cs r = 0 := by
  constructor
  · rw [sineEval_eq]; simp
  · rw [sineEval_eq]; exact Finset.sum_eq_zero fun k _ => by rw [sin_freq_right h, mul_zero]

/-- C50: a series is twice differentiable and its second derivative is the series with coefficients `-ω_k² c_k`. -/
theorem sine_second_derivative (l r : ℝ) (cs : List ℝ) :
    ∃ u' : ℝ → ℝ, (∀ x, HasDerivAt (sineEval l r cs) (u' x) x) ∧
      ∀ x, HasDerivAt u' (sineEval l r (cs.mapIdx fun k c => -(Real.pi * (k + 1) / (r - l)) ^ 2 * c) x) x := by
  refine ⟨fun x => ∑ k ∈ Finset.range cs.length, cs.getD k 0 * (freq l r k * Real.cos (freq l r k * (x - l))),
    fun x => ?_, fun x => ?_⟩
  · rw [show sineEval l r cs = fun x => ∑ k ∈ Finset.range cs.length, cs.getD k 0 * Real.sin (freq l r k * (x - l)) from
      funext fun x => sineEval_eq l r cs x]
    exact HasDerivAt.fun_sum fun k _ => hasDerivAt_sin_mode _ _ _ _
  · have := HasDerivAt.fun_sum (u := Finset.range cs.length) (x := x)
      (A := fun k x => cs.getD k 0 * (freq l r k * Real.cos (freq l r k * (x - l)))) fun k _ => hasDerivAt_cos_mode _ _ _ _
    refine this.congr_deriv ?_
    rw [sineEval_eq, List.length_mapIdx]
    symm
    refine Finset.sum_congr rfl fun k hk => ?_
    have : k < cs.length := Finset.mem_range.mp hk
    simp [List.getD_eq_getElem?_getD, this, freq, mul_assoc]

example : sineEval 0 1 [1, 2] 1 = 0 ∧ sineEval 0 2 [3] 1 = 3 := by
  refine ⟨(sine_ends one_pos _).2, ?_⟩
  rw [sineEval_eq]
  simp [freq]

/-! ## C45 -/

/-- C45: the solution attached to a sine series satisfies the homogeneous heat equation `∂_t u = α ∂_x² u` everywhere, vanishes at
both ends of the interval at all times, and equals the series at the initial time. -/
theorem heatEval_solves {l r : ℝ} (h : l < r) (t0 : ℝ) (cs : List ℝ) (α : ℝ) :
    (∀ t x, ∃ (ut : ℝ) (ux : ℝ → ℝ) (uxx : ℝ), HasDerivAt (fun t => heatEval t0 l r cs α t x) ut t ∧
        (∀ y, HasDerivAt (fun y => heatEval t0 l r cs α t y) (ux y) y) ∧ HasDerivAt ux uxx x ∧ ut - α * uxx = 0) ∧
      (∀ t, heatEval t0 l r cs α t l = 0 ∧ heatEval t0 l r cs α t r = 0) ∧
      ∀ x, heatEval t0 l r cs α t0 x = sineEval l r cs x := by
  refine ⟨fun t x => ?_, fun t => ⟨?_, ?_⟩, fun x => ?_⟩
  · let E := fun (k : ℕ) (t : ℝ) => Real.exp (α * freq l r k ^ 2 * (t0 - t))
    refine ⟨∑ k ∈ Finset.range cs.length, cs.getD k 0 * Real.sin (freq l r k * (x - l)) * (E k t * (α * freq l r k ^ 2 * (-1))),
      fun y => ∑ k ∈ Finset.range cs.length, cs.getD k 0 * (freq l r k * Real.cos (freq l r k * (y - l))) * E k t,
      ∑ k ∈ Finset.range cs.length, -freq l r k ^ 2 * (cs.getD k 0 * Real.sin (freq l r k * (x - l))) * E k t, ?_, ?_, ?_, ?_⟩
    · rw [show (fun t => heatEval t0 l r cs α t x) = fun t => ∑ k ∈ Finset.range cs.length,
        cs.getD k 0 * Real.sin (freq l r k * (x - l)) * E k t from funext fun t => heatEval_eq t0 l r cs α t x]
      refine HasDerivAt.fun_sum fun k _ => ?_
      have h1 : HasDerivAt (fun t => α * freq l r k ^ 2 * (t0 - t)) (α * freq l r k ^ 2 * (-1)) t :=
        ((hasDerivAt_id t).const_sub t0).const_mul _
      exact (h1.exp).const_mul _
    · intro y
      rw [show (fun y => heatEval t0 l r cs α t y) = fun y => ∑ k ∈ Finset.range cs.length,
        cs.getD k 0 * Real.sin (freq l r k * (y - l)) * E k t from funext fun y => heatEval_eq t0 l r cs α t y]
      exact HasDerivAt.fun_sum fun k _ => (hasDerivAt_sin_mode _ _ _ _).mul_const _
    · exact HasDerivAt.fun_sum fun k _ => (hasDerivAt_cos_mode _ _ _ _).mul_const _
    · rw [Finset.mul_sum, ← Finset.sum_sub_distrib]
      exact Finset.sum_eq_zero fun k _ => by ring
  · rw [heatEval_eq]; simp
  · rw [heatEval_eq]
    exact Finset.sum_eq_zero fun k _ => by rw [sin_freq_right h, mul_zero, zero_mul]
  · rw [heatEval_eq, sineEval_eq]; simp

/-! ## Construction of heat problems -/

/-- The product of the time interval and the spatial domain has one axis. -/
lemma shapeOf_prod2 (a b : Dom) : shapeOf (.prod [a, b]) = [a.size + b.size] := by
  simp [shapeOf, Dom.ndims, Dom.size, sizeL]

lemma eq_refl_interval (l r : ℝ) : (Dom.interval l r).eq (.interval l r) = .ok true := by simp [Dom.eq]

/-- What the constructor does on an interval, with a scalar initial function. -/
lemma mkHeatProblem_interval {t0 T l r : ℝ} (ht : t0 ≤ T) (α : ℝ) (rhs initial solution : Option Fn)
    (hr : ∀ f, rhs = some f → f.inS = [2] ∧ f.outS = [])
    (hi : ∀ f, initial = some f → f.inS = [])
    (hs : ∀ f, solution = some f → f.inS = [2] ∧ f.outS = []) :
    mkHeatProblem t0 (.dom (.interval l r)) T rhs α initial solution = .ok
      ⟨⟨⟨.prod [.interval t0 T, .interval l r], ⟨[2], [], [2], []⟩, rhs.getD (.zero [2] [])⟩,
        [⟨.prod [.interval t0 T, .point0 l], ⟨[2], [], [2], []⟩, .const [2] [] [0]⟩,
          ⟨.prod [.interval t0 T, .point0 r], ⟨[2], [], [2], []⟩, .const [2] [] [0]⟩],
        solution.orElse fun _ => heatSolution t0 [2] (.interval l r) (initial.getD (.zero [] [])) α⟩,
        ⟨.interval l r, ⟨[], (initial.getD (.zero [] [])).outS, [], (initial.getD (.zero [] [])).outS⟩,
          initial.getD (.zero [] [])⟩⟩ := by
  obtain ⟨g, hg⟩ : ∃ g, initial.getD (.zero [] []) = g := ⟨_, rfl⟩
  have hgin : g.inS = [] := by
    rw [← hg]
    cases initial with
    | none => rfl
    | some f => exact hi f rfl
  have h1 : mkInterval t0 T = .ok (.interval t0 T) := by simp [mkInterval, not_lt.mpr ht]
  set D : Dom := .prod [.interval t0 T, .interval l r] with hD
  have hsh : shapeOf D = [2] := by rw [hD, shapeOf_prod2]; rfl
  have hp : mkHeat D rhs = .ok ⟨D, ⟨[2], [], [2], []⟩, rhs.getD (.zero [2] [])⟩ := by
    unfold mkHeat
    rw [if_neg (by simp [hsh]), mkPDE_ok_iff]
    exact ⟨D, rfl, rfl, rfl, fun f hf => by rw [hsh]; exact hr f hf, by rw [hsh]⟩
  have hic : mkDirichlet (.dom (.interval l r)) (.fn g) = .ok ⟨.interval l r, ⟨[], g.outS, [], g.outS⟩, g⟩ :=
    (mkDirichlet_ok_iff_partial _ _ _).mpr ⟨rfl, rfl, .inl ⟨g, rfl, hgin, rfl⟩⟩
  have hb : ∀ x, mkDirichlet (.dom (.prod [.interval t0 T, .point0 x])) (.array [] [0]) =
      .ok ⟨.prod [.interval t0 T, .point0 x], ⟨[2], [], [2], []⟩, .const [2] [] [0]⟩ := fun x => by
    have : shapeOf (.prod [.interval t0 T, .point0 x]) = [2] := by rw [shapeOf_prod2]; rfl
    exact (mkDirichlet_ok_iff_partial _ _ _).mpr ⟨rfl, by rw [this]; rfl, .inr ⟨[], [0], rfl, by rw [this]⟩⟩
  have hbs : (Dom.interval l r).boundary = [.point0 l, .point0 r] := by simp [Dom.boundary]
  obtain ⟨s, hs'⟩ : ∃ s, (solution.orElse fun _ => heatSolution t0 [2] (.interval l r) g α) = s := ⟨_, rfl⟩
  have hsok : ∀ f, s = some f → f.inS = [2] ∧ f.outS = [] := by
    intro f hf
    subst hf
    cases solution with
    | some u => cases hs'; exact hs _ rfl
    | none =>
      simp only [Option.orElse, heatSolution] at hs'
      split at hs'
      · cases hs'; exact ⟨rfl, rfl⟩
      · split_ifs at hs'
        cases hs'; exact ⟨rfl, rfl⟩
      · cases hs'
  have h2 : mkProd [.dom (.interval t0 T), .dom (.interval l r)] = .ok D := rfl
  unfold mkHeatProblem
  simp only [h1, h2, hp, liftDom, bind, Except.bind, hg, show shapeOf (.interval l r) = [] from rfl, hsh, hbs]
  rw [if_neg (by simp [hgin]), hic]
  simp only [List.mapM_cons, List.mapM_nil, hb, bind, Except.bind, pure, Except.pure]
  rw [hs', mkIBVP_ok_iff]
  refine ⟨t0, T, .interval l r, rfl, eq_refl_interval l r, rfl, (mkBVP_ok_iff _ _ _ _).mpr ⟨rfl, ?_, ?_⟩⟩
  · simp [hsh, shapeOf_prod2, Dom.size]
  · intro f hf
    rw [hsh]
    exact hsok f hf

/-- C45: without a right-hand side, the problem with a sine series on the spatial interval as initial values carries a solution `u`
of the heat equation with the problem's right-hand side that satisfies the problem's boundary conditions and its initial
condition. -/
theorem heatProblem_sine_partial {t0 T l r : ℝ} (ht : t0 ≤ T) (h : l < r) (α : ℝ) (cs : List ℝ) (rhs : Option Fn)
    (hrhs : rhs = none ∨ rhs = some (.zero [2] [])) :
    ∃ (p : IBVP) (s : Fn) (u : ℝ → ℝ → ℝ),
      mkHeatProblem t0 (.dom (.interval l r)) T rhs α (some (.sine l r cs)) none = .ok p ∧
      p.bvp.solution = some s ∧ (∀ t x, s.call [2] [t, x] = .ok [u t x]) ∧
      (∀ t x, ∃ (ut : ℝ) (ux : ℝ → ℝ) (uxx : ℝ), HasDerivAt (fun t => u t x) ut t ∧
        (∀ y, HasDerivAt (fun y => u t y) (ux y) y) ∧ HasDerivAt ux uxx x ∧
        p.bvp.pde.rhs.call [2] [t, x] = .ok [ut - α * uxx]) ∧
      (∃ b0 b1, p.bvp.bcs = [b0, b1] ∧ b0.boundary = .prod [.interval t0 T, .point0 l] ∧
        b1.boundary = .prod [.interval t0 T, .point0 r] ∧
        ∀ t, b0.values.call [2] [t, l] = .ok [u t l] ∧ b1.values.call [2] [t, r] = .ok [u t r]) ∧
      p.initial.boundary = .interval l r ∧ ∀ x, p.initial.values.call [] [x] = .ok [u t0 x] := by
  obtain ⟨k1, k2, k3⟩ := heatEval_solves h t0 cs α
  have hr0 : rhs.getD (.zero [2] []) = .zero [2] [] := by rcases hrhs with rfl | rfl <;> rfl
  refine ⟨_, .other [2] [] fun tx => [heatEval t0 l r cs α (tx.getD 0 0) (tx.getD 1 0)], heatEval t0 l r cs α,
    mkHeatProblem_interval ht α rhs (some (.sine l r cs)) none
      (fun f hf => by rcases hrhs with rfl | rfl <;> cases hf; exact ⟨rfl, rfl⟩) (fun f hf => by cases hf; rfl) (by simp),
    ?_, fun t x => rfl, fun t x => ?_, ⟨_, _, rfl, rfl, rfl, fun t => ?_⟩, rfl, fun x => ?_⟩
  · simp [heatSolution]
  · obtain ⟨ut, ux, uxx, h1, h2, h3, h4⟩ := k1 t x
    refine ⟨ut, ux, uxx, h1, h2, h3, ?_⟩
    simp only [hr0]
    rw [h4]
    rfl
  · rw [(k2 t).1, (k2 t).2]
    exact ⟨rfl, rfl⟩
  · rw [k3]
    rfl

example : ∃ (p : IBVP) (s : Fn), mkHeatProblem 0 (.dom (.interval 0 1)) 5 none 2 (some (.sine 0 1 [3, 4])) none = .ok p ∧
    p.bvp.solution = some s := by
  obtain ⟨p, s, -, h1, h2, -⟩ :=
    heatProblem_sine_partial (t0 := 0) (T := 5) (l := 0) (r := 1) (by norm_num) one_pos 2 [3, 4] none (.inl rfl)
  exact ⟨p, s, h1, h2⟩

/-- C45: without a right-hand side, whatever solution the constructor attaches by itself, for whatever scalar initial function, solves
the heat equation, vanishes at both ends of the spatial interval and has the given initial values. In particular a sine series on
another interval gets no solution unless it happens to solve the problem. -/
theorem heatProblem_attached_partial {t0 T l r : ℝ} (ht : t0 ≤ T) (h : l < r) (α : ℝ) (f : Fn) (hin : f.inS = []) (hout : f.outS = [])
    (p : IBVP) (hp : mkHeatProblem t0 (.dom (.interval l r)) T none α (some f) none = .ok p) (s : Fn)
    (hs : p.bvp.solution = some s) :
    ∃ u : ℝ → ℝ → ℝ, (∀ t x, s.call [2] [t, x] = .ok [u t x]) ∧
      (∀ t x, ∃ (ut : ℝ) (ux : ℝ → ℝ) (uxx : ℝ), HasDerivAt (fun t => u t x) ut t ∧
        (∀ y, HasDerivAt (fun y => u t y) (ux y) y) ∧ HasDerivAt ux uxx x ∧ ut - α * uxx = 0) ∧
      (∀ t, u t l = 0 ∧ u t r = 0) ∧ ∀ x, f.call [] [x] = .ok [u t0 x] := by
  rw [mkHeatProblem_interval ht α none (some f) none (by simp) (fun g hg => by cases hg; exact hin) (by simp)] at hp
  cases hp
  simp only [Option.orElse, Option.getD_some] at hs
  unfold heatSolution at hs
  split at hs
  next i o _ =>
    cases hs
    simp only [Fn.inS] at hin
    simp only [Fn.outS] at hout
    subst hin hout
    exact ⟨fun _ _ => 0, fun t x => rfl, fun t x => ⟨0, fun _ => 0, 0, hasDerivAt_const _ _, fun y => hasDerivAt_const _ _,
      hasDerivAt_const _ _, by ring⟩, fun t => ⟨rfl, rfl⟩, fun x => rfl⟩
  next l' r' cs a b hd =>
    cases hd
    split_ifs at hs with hc
    obtain ⟨rfl, rfl⟩ := hc
    cases hs
    obtain ⟨k1, k2, k3⟩ := heatEval_solves h t0 cs α
    exact ⟨heatEval t0 l' r' cs α, fun t x => rfl, k1, k2, fun x => by rw [k3]; rfl⟩
  next => cases hs

example : ∃ (p : IBVP) (s : Fn), (Fn.sine 0 1 [3, 4]).inS = [] ∧ (Fn.sine 0 1 [3, 4]).outS = [] ∧
    mkHeatProblem 0 (.dom (.interval 0 1)) 5 none 2 (some (.sine 0 1 [3, 4])) none = .ok p ∧ p.bvp.solution = some s := by
  obtain ⟨p, s, -, h1, h2, -⟩ :=
    heatProblem_sine_partial (t0 := 0) (T := 5) (l := 0) (r := 1) (by norm_num) one_pos 2 [3, 4] none (.inl rfl)
  exact ⟨p, s, rfl, rfl, h1, h2⟩

/-- C45: the problem with zero initial values and zero right-hand side carries the zero solution. -/
theorem heatProblem_zero_partial {t0 T l r : ℝ} (ht : t0 ≤ T) (α : ℝ) (initial : Option Fn)
    (hi : initial = none ∨ initial = some (.zero [] [])) :
    ∃ (p : IBVP) (s : Fn), mkHeatProblem t0 (.dom (.interval l r)) T none α initial none = .ok p ∧
      p.bvp.solution = some s ∧ (∀ t x, s.call [2] [t, x] = .ok [0] ∧ p.bvp.pde.rhs.call [2] [t, x] = .ok [0]) ∧
      (∀ b ∈ p.bvp.bcs, ∀ t x, b.values.call [2] [t, x] = .ok [0]) ∧ ∀ x, p.initial.values.call [] [x] = .ok [0] := by
  have hi0 : initial.getD (.zero [] []) = .zero [] [] := by rcases hi with rfl | rfl <;> rfl
  refine ⟨_, .zero [2] [], mkHeatProblem_interval ht α none initial none (by simp)
    (fun f hf => by rcases hi with rfl | rfl <;> cases hf; rfl) (by simp), ?_, fun t x => ⟨rfl, rfl⟩, ?_, fun x => ?_⟩
  · simp [hi0, heatSolution]
  · intro b hb t x
    simp only [List.mem_cons, List.not_mem_nil, or_false] at hb
    rcases hb with rfl | rfl <;> rfl
  · simp only [hi0]; rfl

/-- C45 (fails): the right-hand side is ignored.  With a constant right-hand side `c ≠ 0`, the attached solution is the one of the
homogeneous equation: the heat operator maps it to `0`, not to `c`. -/
theorem heatProblem_rhs_violated {t0 T l r : ℝ} (ht : t0 ≤ T) (h : l < r) (α : ℝ) (cs : List ℝ) {c : ℝ} (hc : c ≠ 0) :
    ∃ (p : IBVP) (s : Fn) (u : ℝ → ℝ → ℝ),
      mkHeatProblem t0 (.dom (.interval l r)) T (some (.const [2] [] [c])) α (some (.sine l r cs)) none = .ok p ∧
      p.bvp.solution = some s ∧ (∀ t x, s.call [2] [t, x] = .ok [u t x]) ∧
      ∀ t x, ∃ (ut : ℝ) (ux : ℝ → ℝ) (uxx : ℝ), HasDerivAt (fun t => u t x) ut t ∧
        (∀ y, HasDerivAt (fun y => u t y) (ux y) y) ∧ HasDerivAt ux uxx x ∧
        p.bvp.pde.rhs.call [2] [t, x] = .ok [c] ∧ ut - α * uxx ≠ c := by
  obtain ⟨k1, -, -⟩ := heatEval_solves h t0 cs α
  refine ⟨_, .other [2] [] fun tx => [heatEval t0 l r cs α (tx.getD 0 0) (tx.getD 1 0)], heatEval t0 l r cs α,
    mkHeatProblem_interval ht α (some (.const [2] [] [c])) (some (.sine l r cs)) none
      (fun f hf => by cases hf; exact ⟨rfl, rfl⟩) (fun f hf => by cases hf; rfl) (by simp),
    ?_, fun t x => rfl, fun t x => ?_⟩
  · simp [heatSolution]
  · obtain ⟨ut, ux, uxx, h1, h2, h3, h4⟩ := k1 t x
    exact ⟨ut, ux, uxx, h1, h2, h3, rfl, by rw [h4]; exact hc.symm⟩

/-- C46: initial values on a domain of another shape are rejected. -/
theorem heatProblem_initial_error {t0 T l r : ℝ} (ht : t0 ≤ T) (α : ℝ) (f : Fn) (hf : f.inS ≠ []) (sol : Option Fn) :
    mkHeatProblem t0 (.dom (.interval l r)) T none α (some f) sol = .error .valueError := by
  have h1 : mkInterval t0 T = .ok (.interval t0 T) := by simp [mkInterval, not_lt.mpr ht]
  set D : Dom := .prod [.interval t0 T, .interval l r] with hD
  have hsh : shapeOf D = [2] := by rw [hD, shapeOf_prod2]; rfl
  have hp : mkHeat D none = .ok ⟨D, ⟨[2], [], [2], []⟩, .zero [2] []⟩ := by
    unfold mkHeat
    rw [if_neg (by simp [hsh]), mkPDE_ok_iff]
    exact ⟨D, rfl, rfl, rfl, by simp, by rw [hsh]; rfl⟩
  have h2 : mkProd [.dom (.interval t0 T), .dom (.interval l r)] = .ok D := rfl
  unfold mkHeatProblem
  simp only [h1, h2, hp, liftDom, bind, Except.bind, Option.getD_some]
  split_ifs
  · rfl
  · rw [mkDirichlet_error _ _ hf]

/-- C46 (fails): because the two checks are joined by `and`, initial values with several components are accepted for the scalar heat
equation. -/
theorem heatProblem_initial_violated {t0 T l r : ℝ} (ht : t0 ≤ T) (α : ℝ) (o : Shp) (ev : List ℝ → List ℝ) :
    ∃ p, mkHeatProblem t0 (.dom (.interval l r)) T none α (some (.other [] o ev)) none = .ok p ∧
      p.initial.values.outS = o ∧ p.bvp.pde.op.inCod = [] :=
  ⟨_, mkHeatProblem_interval ht α none (some (.other [] o ev)) none (by simp) (fun f hf => by cases hf; rfl) (by simp), rfl, rfl⟩

/-- C46 (fails): a spatial domain given by its bounds raises `AttributeError`. -/
theorem heatProblem_pair_violated {t0 T l r : ℝ} (ht : t0 ≤ T) (h : l ≤ r) (α : ℝ) (initial sol : Option Fn) :
    asdomain (.scalars l r) = .ok (.interval l r) ∧
      mkHeatProblem t0 (.scalars l r) T none α initial sol = .error .attributeError := by
  have h0 : mkInterval l r = .ok (.interval l r) := by simp [mkInterval, not_lt.mpr h]
  have h1 : mkInterval t0 T = .ok (.interval t0 T) := by simp [mkInterval, not_lt.mpr ht]
  refine ⟨h0, ?_⟩
  set D : Dom := .prod [.interval t0 T, .interval l r] with hD
  have hsh : shapeOf D = [2] := by rw [hD, shapeOf_prod2]; rfl
  have hp : mkHeat D none = .ok ⟨D, ⟨[2], [], [2], []⟩, .zero [2] []⟩ := by
    unfold mkHeat
    rw [if_neg (by simp [hsh]), mkPDE_ok_iff]
    exact ⟨D, rfl, rfl, rfl, by simp, by rw [hsh]; rfl⟩
  have h2 : mkProd [.dom (.interval t0 T), .scalars l r] = .ok D := by
    simp only [mkProd, List.mapM_cons, List.mapM_nil, asdomain, h0]
    rfl
  unfold mkHeatProblem
  simp only [h1, h2, hp, liftDom, bind, Except.bind]

end LinPDE.Pde
