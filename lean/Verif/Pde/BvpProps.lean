import Verif.Pde.PoissonProps

/-! # Validation of linear PDEs, boundary conditions and boundary value problems (C46), Poisson problems (C44, C46) -/

namespace LinPDE.Pde
open LinPDE.Domains LinPDE.Nd
open Set

/-! ## Helpers -/

lemma liftDom_dom (d : Dom) : liftDom (asdomain (.dom d)) = .ok d := rfl

lemma mapM_ok {α β ε : Type} (f : α → Except ε β) (g : α → β) (l : List α) (h : ∀ a ∈ l, f a = .ok (g a)) :
    l.mapM f = .ok (l.map g) := by
  induction l with
  | nil => rfl
  | cons a l ih =>
    rw [List.mapM_cons, h a (by simp), ih fun b hb => h b (by simp [hb])]
    rfl

/-! ## Linear PDEs -/

/-- C46: a linear PDE is accepted exactly if the operator and the right-hand side fit the domain, and the constructed object
holds the domain, the operator and the right-hand side (the zero function if none is given). -/
theorem mkPDE_ok_iff (domain : DomainLike) (op : OpShapes) (rhs : Option Fn) (p : PDE) :
    mkPDE domain op rhs = .ok p ↔ ∃ d, asdomain domain = .ok d ∧ op.inDom = shapeOf d ∧ op.outDom = shapeOf d ∧
      (∀ f, rhs = some f → f.inS = shapeOf d ∧ f.outS = op.outCod) ∧
      p = ⟨d, op, rhs.getD (.zero (shapeOf d) op.outCod)⟩ := by
  unfold mkPDE
  cases hd : asdomain domain with
  | error e => simp only [liftDom]; constructor
               · intro h; cases h
               · rintro ⟨d, h, -⟩; cases h
  | ok d =>
    show (if _ then _ else _ : Except Err PDE) = _ ↔ _
    constructor
    · intro h
      dsimp only at h
      split_ifs at h with h1 h2 h3 h4
      push Not at h1 h2 h3 h4
      cases h
      refine ⟨d, rfl, h1, by rw [← h2, h1], fun f hf => ?_, rfl⟩
      subst hf
      exact ⟨h3, h4⟩
    · rintro ⟨d', hd', h1, h2, h3, rfl⟩
      cases hd'
      rw [if_neg (by simpa using h1), if_neg (by simp [h1, h2])]
      cases rhs with
      | none => simp [Fn.inS, Fn.outS]
      | some f => simp [h3 f rfl]

/-- C46: the exception raised for a given domain: `AssertionError` if only the output domain of the operator is wrong,
otherwise `ValueError`. -/
theorem mkPDE_error (d : Dom) (op : OpShapes) (rhs : Option Fn) (e : Err) (h : mkPDE (.dom d) op rhs = .error e) :
    e = .valueError ∨ (e = .assertionError ∧ op.inDom = shapeOf d ∧ op.outDom ≠ shapeOf d) := by
  unfold mkPDE at h
  change (if _ then _ else _ : Except Err PDE) = _ at h
  dsimp only at h
  split_ifs at h with h1 h2 h3 h4
  · cases h; exact .inl rfl
  · cases h
    push Not at h1
    exact .inr ⟨rfl, h1, fun h => h2 (by rw [h1, h])⟩
  · cases h; exact .inl rfl
  · cases h; exact .inl rfl

example : mkPDE (.scalars 0 1) ⟨[], [], [], []⟩ none = .ok ⟨.interval 0 1, ⟨[], [], [], []⟩, .zero [] []⟩ :=
  (mkPDE_ok_iff _ _ _ _).mpr ⟨.interval 0 1, by simp [asdomain, mkInterval], rfl, rfl, by simp, rfl⟩

/-! ## Boundary conditions -/

/-- C46: a boundary condition is accepted exactly if the operator is defined on functions on the boundary and the values fit
its output; array values become a constant function. -/
theorem mkBC_ok_iff (boundary : DomainLike) (op : OpShapes) (values : Values) (b : BC) :
    mkBC boundary op values = .ok b ↔ ∃ d, asdomain boundary = .ok d ∧ op.inDom = shapeOf d ∧ values.outS = op.outCod ∧
      b.boundary = d ∧ b.op = op ∧
      ((∃ f, values = .fn f ∧ f.inS = op.outDom ∧ b.values = f) ∨
        ∃ s v, values = .array s v ∧ b.values = .const op.outDom s v) := by
  unfold mkBC
  cases hd : asdomain boundary with
  | error e => simp only [liftDom]; constructor
               · intro h; cases h
               · rintro ⟨d, h, -⟩; cases h
  | ok d =>
    show (if _ then _ else _ : Except Err BC) = _ ↔ _
    cases values with
    | fn f =>
      constructor
      · intro h
        dsimp only at h
        split_ifs at h with h1 h2 h3
        push Not at h1 h2 h3
        cases h
        exact ⟨d, rfl, h1, h3, rfl, rfl, .inl ⟨f, rfl, h2, rfl⟩⟩
      · rintro ⟨d', hd', h1, h2, h3, h4, h5⟩
        cases hd'
        rcases h5 with ⟨g, hg, h6, h7⟩ | ⟨s, v, h, -⟩
        · cases hg
          dsimp only
          rw [if_neg (by simpa using h1), if_neg (by simpa using h6), if_neg (by simpa [Values.outS] using h2)]
          cases b; simp_all
        · cases h
    | array s v =>
      constructor
      · intro h
        dsimp only at h
        split_ifs at h with h1 h2 h3
        push Not at h1 h2 h3
        cases h
        exact ⟨d, rfl, h1, h3, rfl, rfl, .inr ⟨s, v, rfl, rfl⟩⟩
      · rintro ⟨d', hd', h1, h2, h3, h4, h5⟩
        cases hd'
        rcases h5 with ⟨g, hg, -⟩ | ⟨s', v', h, h7⟩
        · cases hg
        · cases h
          dsimp only
          rw [if_neg (by simpa using h1), if_neg (by simp [Fn.inS]), if_neg (by simpa [Fn.outS, Values.outS] using h2)]
          cases b; simp_all

/-- C46: a Dirichlet condition on a domain object is accepted exactly if the values are an array or a function on the
boundary, and then imposes these values. -/
theorem mkDirichlet_ok_iff_partial (d : Dom) (values : Values) (b : BC) :
    mkDirichlet (.dom d) values = .ok b ↔ b.boundary = d ∧ b.op = ⟨shapeOf d, values.outS, shapeOf d, values.outS⟩ ∧
      ((∃ f, values = .fn f ∧ f.inS = shapeOf d ∧ b.values = f) ∨
        ∃ s v, values = .array s v ∧ b.values = .const (shapeOf d) s v) := by
  rw [mkDirichlet, mkBC_ok_iff]
  constructor
  · rintro ⟨d', hd', h1, h2, h3, h4, h5⟩
    cases hd'
    exact ⟨h3, h4, h5⟩
  · rintro ⟨h3, h4, h5⟩
    exact ⟨d, rfl, rfl, rfl, h3, h4, h5⟩

/-- C46: functions on other domains raise `ValueError`. -/
theorem mkDirichlet_error (d : Dom) (f : Fn) (h : f.inS ≠ shapeOf d) : mkDirichlet (.dom d) (.fn f) = .error .valueError := by
  unfold mkDirichlet mkBC
  show (if _ then _ else _ : Except Err BC) = _
  rw [if_neg (by simp)]
  dsimp only
  rw [if_pos h]

/-- C46 (fails): every pair of bounds, which `asdomain` would convert, raises `AttributeError`. -/
theorem mkDirichlet_pair_violated {l r : ℝ} (h : l ≤ r) (values : Values) :
    asdomain (.scalars l r) = .ok (.interval l r) ∧ mkDirichlet (.scalars l r) values = .error .attributeError :=
  ⟨by simp [asdomain, mkInterval, not_lt.mpr h], rfl⟩

example : ∃ b, mkDirichlet (.dom (.point0 1)) (.array [] [3]) = .ok b ∧ b.values.ev [1] = [3] :=
  ⟨⟨.point0 1, ⟨[], [], [], []⟩, .const [] [] [3]⟩,
    (mkDirichlet_ok_iff_partial _ _ _).mpr ⟨rfl, rfl, .inr ⟨[], [3], rfl, rfl⟩⟩, rfl⟩

/-! ## Observations at the boundary of an interval -/

/-- C46: the boundary observations are accepted exactly for two conditions at scalar points with values of one shape, and
enumerate the two points and the two values. -/
theorem boundaryObservations_ok_iff (bcs : List BC) (X : List ℝ) (Y : List (List ℝ))
    (hshape : ∀ b ∈ bcs, b.values.inS = shapeOf b.boundary) :
    boundaryObservations bcs = .ok (X, Y) ↔ ∃ b0 b1 x0 x1, bcs = [b0, b1] ∧ b0.boundary = .point0 x0 ∧
      b1.boundary = .point0 x1 ∧ b0.values.outS = b1.values.outS ∧ X = [x0, x1] ∧ Y = [b0.values.ev [x0], b1.values.ev [x1]] := by
  constructor
  · intro h
    unfold boundaryObservations at h
    split_ifs at h with h1
    push Not at h1
    obtain ⟨h1, h2⟩ := h1
    obtain ⟨b0, b1, rfl⟩ := List.length_eq_two.mp h1
    have s0 := hshape b0 (by simp)
    have s1 := hshape b1 (by simp)
    simp only [List.all_cons, List.all_nil, Bool.and_true, Bool.and_eq_true] at h2
    obtain ⟨p0, p1⟩ := h2
    have key : ∀ b : BC, b.values.inS = shapeOf b.boundary → isPoint b.boundary = true →
        (∃ x, b.boundary = .point0 x ∧ b.values.inS = []) ∨ ∃ xs : List ℝ, b.boundary = .point1 xs ∧ b.values.inS = [xs.length] := by
      intro b hs hp
      cases hb : b.boundary with
      | point0 x => left; refine ⟨x, rfl, ?_⟩; rw [hs, hb]; rfl
      | point1 xs => right; refine ⟨xs, rfl, ?_⟩; rw [hs, hb]; rfl
      | interval l r => rw [hb] at hp; cases hp
      | box bs => rw [hb] at hp; cases hp
      | prod fs => rw [hb] at hp; cases hp
    simp only [List.mapM_cons, List.mapM_nil, bind, Except.bind, pure, Except.pure] at h
    rcases key b0 s0 p0 with ⟨x0, e0, i0⟩ | ⟨xs, e0, i0⟩
    · rcases key b1 s1 p1 with ⟨x1, e1, i1⟩ | ⟨ys, e1, i1⟩
      · simp only [e0, e1, floatPoint, Fn.call, i0, i1, List.zip_cons_cons, List.zip_nil_right, List.mapM_cons,
          List.mapM_nil, bind, Except.bind, pure, Except.pure, if_true, stackRows] at h
        by_cases ho : b1.values.outS = b0.values.outS
        · simp [ho] at h
          exact ⟨b0, b1, x0, x1, rfl, e0, e1, ho.symm, h.1.symm, h.2.symm⟩
        · simp [ho] at h
      · match ys, e1, i1 with
        | [], e1, i1 => simp [e0, e1, floatPoint] at h
        | [y], e1, i1 =>
          simp [e0, e1, floatPoint, Fn.call, i0, i1, bind, Except.bind] at h
        | _ :: _ :: _, e1, i1 => simp [e0, e1, floatPoint] at h
    · match xs, e0, i0 with
      | [], e0, i0 => simp [e0, floatPoint] at h
      | [y], e0, i0 =>
        have e : floatPoint b0.boundary = .ok y := by rw [e0]; rfl
        simp only [e] at h
        rcases hf : floatPoint b1.boundary with e | z <;>
          simp [hf, Fn.call, i0, bind, Except.bind] at h
      | _ :: _ :: _, e0, i0 => simp [e0, floatPoint] at h
  · rintro ⟨b0, b1, x0, x1, rfl, e0, e1, ho, rfl, rfl⟩
    have i0 := hshape b0 (by simp)
    have i1 := hshape b1 (by simp)
    rw [e0] at i0
    rw [e1] at i1
    have i0 : b0.values.inS = [] := i0
    have i1 : b1.values.inS = [] := i1
    unfold boundaryObservations
    rw [if_neg (by simp [e0, e1, isPoint])]
    simp [e0, e1, i0, i1, floatPoint, Fn.call, bind, Except.bind, pure, Except.pure, stackRows, ho]

/-! ## Boundary value problems -/

/-- C46: a boundary value problem is accepted exactly if every boundary part has the shape of the domain and the solution,
if there is one, maps the domain to the codomain of the equation. -/
theorem mkBVP_ok_iff (pde : PDE) (bcs : List BC) (sol : Option Fn) (p : BVP) :
    mkBVP pde bcs sol = .ok p ↔ p = ⟨pde, bcs, sol⟩ ∧ (∀ b ∈ bcs, shapeOf b.boundary = shapeOf pde.domain) ∧
      ∀ s, sol = some s → s.inS = shapeOf pde.domain ∧ s.outS = pde.op.inCod := by
  unfold mkBVP
  constructor
  · intro h
    split_ifs at h with h1
    have h1' : ∀ b ∈ bcs, shapeOf b.boundary = shapeOf pde.domain := by simpa using h1
    cases sol with
    | none => cases h; exact ⟨rfl, h1', by simp⟩
    | some s =>
      dsimp only at h
      split_ifs at h with h2 h3
      push Not at h2 h3
      cases h
      exact ⟨rfl, h1', fun s' hs => by cases hs; exact ⟨h2, h3⟩⟩
  · rintro ⟨rfl, h1, h2⟩
    rw [if_neg (by simpa using h1)]
    cases sol with
    | none => rfl
    | some s => simp [h2 s rfl]

/-- C46: otherwise it raises `ValueError`. -/
theorem mkBVP_error (pde : PDE) (bcs : List BC) (sol : Option Fn) (e : Err) (h : mkBVP pde bcs sol = .error e) :
    e = .valueError := by
  unfold mkBVP at h
  split_ifs at h
  · cases h; rfl
  · cases sol with
    | none => cases h
    | some s =>
      dsimp only at h
      split_ifs at h <;> cases h <;> rfl

/-- C46 (fails): the codomain of the boundary values is not compared with the equation: a condition with values of any shape
at a scalar point is accepted for a scalar equation on an interval. -/
theorem mkBVP_codomain_violated (l r x : ℝ) (s : Shp) (v : List ℝ) (rhs : Fn) :
    ∃ b, mkDirichlet (.dom (.point0 x)) (.array s v) = .ok b ∧ b.values.outS = s ∧
      ∃ p, mkBVP ⟨.interval l r, ⟨[], [], [], []⟩, rhs⟩ [b] none = .ok p :=
  ⟨⟨.point0 x, ⟨[], s, [], s⟩, .const [] s v⟩, (mkDirichlet_ok_iff_partial _ _ _).mpr ⟨rfl, rfl, .inr ⟨s, v, rfl, rfl⟩⟩,
    rfl, ⟨_, [_], none⟩, (mkBVP_ok_iff _ _ _ _).mpr ⟨rfl, by simp [shapeOf, Dom.ndims], by simp⟩⟩

/-! ## Initial boundary value problems -/

/-- C46: an initial boundary value problem is accepted exactly if the domain is the product of an interval and one more
domain that the boundary of the initial condition compares equal to, and the underlying boundary value problem is
accepted. -/
theorem mkIBVP_ok_iff (pde : PDE) (initial : BC) (bcs : List BC) (sol : Option Fn) (p : IBVP) :
    mkIBVP pde initial bcs sol = .ok p ↔ ∃ t0 T spatial, prodFactors pde.domain = some [.interval t0 T, spatial] ∧
      initial.boundary.eq spatial = .ok true ∧ p.initial = initial ∧ mkBVP pde bcs sol = .ok p.bvp := by
  unfold mkIBVP
  constructor
  · intro h
    split at h
    next t0 T spatial hf =>
      cases he : initial.boundary.eq spatial with
      | error e => rw [he] at h; cases h
      | ok same =>
        rw [he] at h
        change (if _ then _ else _ : Except Err IBVP) = _ at h
        cases same with
        | false => simp at h
        | true =>
          simp only [Bool.not_true, Bool.false_eq_true, if_false] at h
          cases hb : mkBVP pde bcs sol with
          | error e => rw [hb] at h; cases h
          | ok b => rw [hb] at h; cases h; exact ⟨t0, T, spatial, hf, he, rfl, rfl⟩
    next => cases h
  · rintro ⟨t0, T, spatial, hf, he, hi, hb⟩
    rw [hf]
    show (liftDom (initial.boundary.eq spatial) >>= _ : Except Err IBVP) = _
    rw [he, hb]
    cases p
    subst hi
    rfl

/-- C46: the times, the spatial domain and the initial domain of an accepted problem. -/
theorem ibvp_times (pde : PDE) (initial : BC) (bcs : List BC) (sol : Option Fn) (p : IBVP)
    (h : mkIBVP pde initial bcs sol = .ok p) : ∃ t0 T spatial, prodFactors pde.domain = some [.interval t0 T, spatial] ∧
      p.times = .ok (t0, T, spatial, .prod [.point0 t0, spatial]) := by
  obtain ⟨t0, T, spatial, hf, -, -, hb⟩ := (mkIBVP_ok_iff _ _ _ _ _).mp h
  refine ⟨t0, T, spatial, hf, ?_⟩
  have hp := ((mkBVP_ok_iff _ _ _ _).mp hb).1
  unfold IBVP.times
  rw [hp, hf]
  rfl

/-- C46 (fails): because products of different lengths compare equal up to the shorter length, an initial condition on an
interval is accepted for a problem on a two-dimensional spatial domain. -/
theorem mkIBVP_prefix_violated (t0 T a b c d : ℝ) (rhs : Fn) :
    ∃ ic p, mkDirichlet (.dom (.prod [.interval a b])) (.array [] [0]) = .ok ic ∧
      mkIBVP ⟨.prod [.interval t0 T, .prod [.interval a b, .interval c d]], ⟨[3], [], [3], []⟩, rhs⟩ ic [] none = .ok p ∧
      shapeOf ic.boundary ≠ shapeOf (.prod [.interval a b, .interval c d]) := by
  refine ⟨⟨.prod [.interval a b], ⟨[1], [], [1], []⟩, .const [1] [] [0]⟩, ⟨⟨_, [], none⟩, _⟩,
    (mkDirichlet_ok_iff_partial _ _ _).mpr ⟨rfl, rfl, .inr ⟨[], [0], rfl, rfl⟩⟩, (mkIBVP_ok_iff _ _ _ _ _).mpr
      ⟨t0, T, _, rfl, ?_, rfl, (mkBVP_ok_iff _ _ _ _).mpr ⟨rfl, by simp, by simp⟩⟩, ?_⟩
  · simp [Dom.eq, eqL, bind, Except.bind]
  · simp [shapeOf, Dom.ndims, Dom.size, sizeL]

/-! ## Poisson problems -/

/-- C44, C46: the Dirichlet problem on an interval with a constant (or no) right-hand side and two boundary values: the
attached solution solves the problem, and the boundary observations are the two end points with the two values. -/
theorem poissonProblem_const {l r : ℝ} (hlr : l < r) (c ul ur : ℝ) {α : ℝ} (hα : α ≠ 0) (rhs : Option Fn)
    (hrhs : rhs = some (.const [] [] [c]) ∨ (c = 0 ∧ (rhs = none ∨ rhs = some (.zero [] [])))) :
    ∃ p u, mkPoissonProblem (.scalars l r) rhs α (some (.array [2] [ul, ur])) none = .ok p ∧
      p.pde.domain = .interval l r ∧
      (∀ x, ∃ s, p.solution = some s ∧ s.call [] [x] = .ok [u x]) ∧
      (∀ x, p.pde.rhs.call [] [x] = .ok [c]) ∧ SolvesPoisson α (fun _ => c) u univ ∧ u l = ul ∧ u r = ur ∧
      boundaryObservations p.bcs = .ok ([l, r], [[ul], [ur]]) := by
  obtain ⟨s, hs, hsol, hsl, hsr⟩ := constSol_solves hlr c ul ur hα
  obtain ⟨f, hf, hfin, hfout, hfc, hfe⟩ : ∃ f : Fn, rhs.getD (.zero [] []) = f ∧ f.inS = [] ∧ f.outS = [] ∧ f.constValue = some c ∧
      ∀ x, f.ev x = [c] := by
    rcases hrhs with rfl | ⟨rfl, rfl | rfl⟩
    · exact ⟨_, rfl, rfl, rfl, rfl, fun _ => rfl⟩
    · exact ⟨_, rfl, rfl, rfl, rfl, fun _ => rfl⟩
    · exact ⟨_, rfl, rfl, rfl, rfl, fun _ => rfl⟩
  have hd : asdomain (.scalars l r) = .ok (.interval l r) := by simp [asdomain, mkInterval, not_lt.mpr hlr.le]
  have hs' : mkConstSol (.dom (.interval l r)) c [ul, ur] α = .ok s := by
    rw [← hs]; unfold mkConstSol; rw [hd]; rfl
  set pde : PDE := ⟨.interval l r, ⟨[], [], [], []⟩, f⟩ with hpde
  have hp : mkPoisson (.scalars l r) rhs = .ok pde := by
    unfold mkPoisson
    rw [hd]
    show mkPDE (.dom (.interval l r)) ⟨[], [], [], []⟩ rhs = _
    rw [mkPDE_ok_iff]
    refine ⟨_, rfl, rfl, rfl, fun g hg => ?_, ?_⟩
    · subst hg
      obtain rfl : g = f := hf
      exact ⟨hfin, hfout⟩
    · rw [hpde, ← hf]; rfl
  have ha : autoSolution (.dom (.interval l r)) f [2] [ul, ur] α (.other [] [] fun _ => []) = .ok (some s.fn) := by
    unfold autoSolution
    rw [hfc]
    show (mkConstSol (.dom (.interval l r)) c [ul, ur] α >>= _ : Except Err _) = _
    rw [hs']; rfl
  set b0 : BC := ⟨.point0 l, ⟨[], [], [], []⟩, .const [] [] [ul]⟩ with hb0
  set b1 : BC := ⟨.point0 r, ⟨[], [], [], []⟩, .const [] [] [ur]⟩ with hb1
  have hbc : poissonConditions (.interval l r) (.array [2] [ul, ur]) = .ok [b0, b1] := by
    obtain ⟨D, hD⟩ : ∃ D : Dom, D = .interval l r := ⟨_, rfl⟩
    rw [← hD]
    show ((D.boundary.zip (rows 2 [] [ul, ur])).mapM _ : Except Err _) = _
    rw [show D.boundary = [.point0 l, .point0 r] by simp [hD, Dom.boundary]]
    have e : rows 2 [] [ul, ur] = [([], [ul]), ([], [ur])] := by simp [rows, List.range_succ]; rfl
    rw [e]
    have e0 : mkDirichlet (.dom (.point0 l)) (.array [] [ul]) = .ok b0 :=
      (mkDirichlet_ok_iff_partial _ _ _).mpr ⟨rfl, rfl, .inr ⟨[], [ul], rfl, rfl⟩⟩
    have e1 : mkDirichlet (.dom (.point0 r)) (.array [] [ur]) = .ok b1 :=
      (mkDirichlet_ok_iff_partial _ _ _).mpr ⟨rfl, rfl, .inr ⟨[], [ur], rfl, rfl⟩⟩
    simp only [List.zip_cons_cons, List.zip_nil_right, List.mapM_cons, List.mapM_nil, e0, e1]
    rfl
  have hbvp : mkBVP pde [b0, b1] (some s.fn) = .ok ⟨pde, [b0, b1], some s.fn⟩ :=
    (mkBVP_ok_iff _ _ _ _).mpr ⟨rfl, by simp [hb0, hb1, hpde, shapeOf, Dom.ndims], fun t ht => by cases ht; exact ⟨rfl, rfl⟩⟩
  refine ⟨⟨pde, [b0, b1], some s.fn⟩, s.eval, ?_, rfl, fun x => ⟨s.fn, rfl, rfl⟩, fun x => ?_, hsol, hsl, hsr, ?_⟩
  · unfold mkPoissonProblem
    rw [hp]
    simp only [hpde, bind, Except.bind, Option.getD_some, shapeOf, Dom.ndims, if_true, endValues, ha, hbc]
    exact hbvp
  · show f.call [] [x] = _
    rw [Fn.call, hfin, if_pos rfl, hfe]
  · rw [boundaryObservations_ok_iff _ _ _ (by simp [hb0, hb1, Fn.inS, shapeOf, Dom.ndims])]
    exact ⟨b0, b1, l, r, rfl, rfl, rfl, rfl, rfl, rfl⟩

example : ∃ p u, mkPoissonProblem (.scalars 0 1) (some (.const [] [] [2])) 1 (some (.array [2] [3, 4])) none = .ok p ∧
    SolvesPoisson 1 (fun _ => 2) u univ ∧ u 0 = 3 ∧ u 1 = 4 ∧
    boundaryObservations p.bcs = .ok ([0, 1], [[3], [4]]) := by
  obtain ⟨p, u, h1, -, -, -, h5, h6, h7, h8⟩ := poissonProblem_const (l := 0) (r := 1) one_pos 2 3 4 (α := 1) one_ne_zero _ (.inl rfl)
  exact ⟨p, u, h1, h5, h6, h7, h8⟩

/-- C46: on an interval, a boundary function stands for its values at the two ends, in this order; without boundary values
these are zero. -/
theorem poissonProblem_interval_fn (l r : ℝ) (q sol : Option Fn) (α : ℝ) (f : Fn) (hf : f.inS = [] ∧ f.outS = []) (v : ℝ → ℝ)
    (hv : ∀ x, f.ev [x] = [v x]) :
    mkPoissonProblem (.dom (.interval l r)) q α (some (.fn f)) sol = mkPoissonProblem (.dom (.interval l r)) q α (some (.array [2] [v l, v r])) sol ∧
    mkPoissonProblem (.dom (.interval l r)) q α none sol = mkPoissonProblem (.dom (.interval l r)) q α (some (.array [2] [0, 0])) sol := by
  have key : ∀ (g : Fn) (w : ℝ → ℝ), g.inS = [] → g.outS = [] → (∀ x, g.ev [x] = [w x]) → endValues l r (.fn g) = endValues l r (.array [2] [w l, w r]) := by
    intro g w h1 h2 h3
    simp [endValues, Fn.call, h1, h2, h3, bind, Except.bind]
  have hsh : shapeOf (.interval l r) = [] := rfl
  unfold mkPoissonProblem
  cases hp : mkPoisson (.dom (.interval l r)) q with
  | error e => exact ⟨rfl, rfl⟩
  | ok pde =>
    have hd : pde.domain = .interval l r ∧ pde.op.inCod = [] := by
      have hp : mkPDE (.dom (.interval l r)) ⟨[], [], [], []⟩ q = .ok pde := hp
      rw [mkPDE_ok_iff] at hp
      obtain ⟨d, h1, -, -, -, rfl⟩ := hp
      cases h1
      exact ⟨rfl, rfl⟩
    simp only [bind, Except.bind, Option.getD_some, Option.getD_none, hd.1, hd.2, hsh, if_true]
    rw [key f v hf.1 hf.2 hv, key (.zero [] []) (fun _ => 0) rfl rfl fun _ => rfl]
    exact ⟨rfl, rfl⟩

/-- Boundary function `x²` on `(1, 2)`. -/
example : ∃ p, mkPoissonProblem (.dom (.interval 1 2)) none 1 (some (.fn (.other [] [] fun x => [x.getD 0 0 ^ 2]))) none = .ok p ∧
    boundaryObservations p.bcs = .ok ([1, 2], [[1], [4]]) := by
  obtain ⟨p, u, h1, -, -, -, -, -, -, h8⟩ := poissonProblem_const (l := 1) (r := 2) one_lt_two 0 1 4 (α := 1) one_ne_zero none (.inr ⟨rfl, .inl rfl⟩)
  refine ⟨p, ?_, h8⟩
  rw [(poissonProblem_interval_fn 1 2 none none 1 (.other [] [] fun x => [x.getD 0 0 ^ 2]) ⟨rfl, rfl⟩ (fun x => x ^ 2) fun x => rfl).1]
  rw [← h1]
  norm_num
  simp [mkPoissonProblem, mkPoisson, mkPDE, asdomain, mkInterval]

/-- C46: with a boundary function, a Poisson problem on a domain with one axis imposes the values of the function on every
part of the boundary. -/
theorem poissonProblem_fn (d : Dom) (hd : d.ndims ≠ 0) (α : ℝ) (f rhs : Fn) (hr : rhs.inS = shapeOf d ∧ rhs.outS = [])
    (hb : ∀ b ∈ d.boundary, shapeOf b = shapeOf d) (hf : f.inS = shapeOf d) :
    ∃ p, mkPoissonProblem (.dom d) (some rhs) α (some (.fn f)) none = .ok p ∧
      p.bcs.map (fun b => (b.boundary, b.values)) = d.boundary.map (fun b => (b, f)) ∧ p.pde.domain = d ∧ p.pde.rhs = rhs := by
  set pde : PDE := ⟨d, ⟨shapeOf d, [], shapeOf d, []⟩, rhs⟩ with hpde
  have hp : mkPoisson (.dom d) (some rhs) = .ok pde := by
    unfold mkPoisson
    rw [liftDom_dom]
    show mkPDE (.dom d) _ _ = _
    rw [mkPDE_ok_iff]
    exact ⟨d, rfl, rfl, rfl, fun g hg => by cases hg; exact hr, rfl⟩
  let g : Dom → BC := fun b => ⟨b, ⟨shapeOf b, f.outS, shapeOf b, f.outS⟩, f⟩
  have hbc : poissonConditions d (.fn f) = .ok (d.boundary.map g) :=
    mapM_ok _ g _ fun b hb' => (mkDirichlet_ok_iff_partial _ _ _).mpr
      ⟨rfl, rfl, .inl ⟨f, rfl, by rw [hf, hb b hb'], rfl⟩⟩
  have hbvp : mkBVP pde (d.boundary.map g) none = .ok ⟨pde, d.boundary.map g, none⟩ :=
    (mkBVP_ok_iff _ _ _ _).mpr ⟨rfl, by
      intro b hb'
      obtain ⟨a, ha, rfl⟩ := List.mem_map.mp hb'
      exact hb a ha, by simp⟩
  refine ⟨⟨pde, d.boundary.map g, none⟩, ?_, by simp [g, Function.comp_def], rfl, rfl⟩
  unfold mkPoissonProblem
  rw [hp]
  show (if shapeOf d = [] then _ else _ : Except Err _) = _
  rw [if_neg (by simp [shapeOf, hd])]
  show (poissonConditions d (.fn f) >>= _ : Except Err _) = _
  rw [hbc]
  exact hbvp

/-- C46 (fails): an array with too few boundary values is accepted; the boundary parts without a value get no condition.  On
a rectangle, one value gives one condition for four sides. -/
theorem poissonProblem_zip_violated {a b c d : ℝ} (hab : a < b) (hcd : c < d) (v α : ℝ) :
    ∃ p, mkPoissonProblem (.dom (.box [(a, b), (c, d)])) none α (some (.array [1] [v])) none = .ok p ∧
      p.bcs.length = 1 ∧ p.pde.domain.boundary.length = 4 := by
  obtain ⟨D, hD⟩ : ∃ D : Dom, D = .box [(a, b), (c, d)] := ⟨_, rfl⟩
  have hsh : shapeOf D = [2] := by simp [hD, shapeOf, Dom.ndims, Dom.size]
  have hsh' : shapeOf (.prod [.point0 a, .interval c d]) = [2] := by simp [shapeOf, Dom.ndims, Dom.size, sizeL]
  rw [← hD]
  have hB : D.boundary = [.prod [.point0 a, .interval c d], .prod [.point0 b, .interval c d],
      .prod [.interval a b, .point0 c], .prod [.interval a b, .point0 d]] := by
    simp [hD, Dom.boundary, boxBoundary, leafBoundary, boxFactor, hab.ne, hcd.ne]
  set pde : PDE := ⟨D, ⟨[2], [], [2], []⟩, .zero [2] []⟩ with hpde
  have hp : mkPoisson (.dom D) none = .ok pde := by
    unfold mkPoisson
    rw [liftDom_dom]
    show mkPDE (.dom D) ⟨shapeOf D, [], shapeOf D, []⟩ none = _
    rw [mkPDE_ok_iff]
    exact ⟨D, rfl, rfl, rfl, by simp, by rw [hpde, hsh]; rfl⟩
  set b0 : BC := ⟨.prod [.point0 a, .interval c d], ⟨[2], [], [2], []⟩, .const [2] [] [v]⟩ with hb0
  have hbc : poissonConditions D (.array [1] [v]) = .ok [b0] := by
    show ((D.boundary.zip (rows 1 [] [v])).mapM _ : Except Err _) = _
    have e : rows 1 [] [v] = [([], [v])] := by simp [rows]
    rw [e, hB]
    have e0 : mkDirichlet (.dom (.prod [.point0 a, .interval c d])) (.array [] [v]) = .ok b0 :=
      (mkDirichlet_ok_iff_partial _ _ _).mpr ⟨rfl, by rw [hsh']; rfl, .inr ⟨[], [v], rfl, by rw [hsh']⟩⟩
    simp only [List.zip_cons_cons, List.zip_nil_right, List.mapM_cons, List.mapM_nil, e0]
    rfl
  have hbvp : mkBVP pde [b0] none = .ok ⟨pde, [b0], none⟩ :=
    (mkBVP_ok_iff _ _ _ _).mpr ⟨rfl, by simp [hb0, hpde, hsh, hsh'], by simp⟩
  refine ⟨⟨pde, [b0], none⟩, ?_, rfl, by simp [hpde, hB]⟩
  unfold mkPoissonProblem
  rw [hp]
  show (if shapeOf D = [] then _ else _ : Except Err _) = _
  rw [if_neg (by simp [hsh])]
  show (poissonConditions D (.array [1] [v]) >>= _ : Except Err _) = _
  rw [hbc]
  exact hbvp

/-- A single number as boundary values cannot be iterated over: `TypeError` from `zip`, for every domain. -/
theorem poisson_scalar_values (d : Dom) (v : List ℝ) : poissonConditions d (.array [] v) = .error .typeError := rfl

/-- So the problem cannot be constructed from a single number, whatever the domain, the right-hand side and the solution: `TypeError`. -/
theorem poisson_scalar_problem {domain : DomainLike} {rhs : Option Fn} {pde : PDE} (h : mkPoisson domain rhs = .ok pde) (alpha : ℝ) (v : List ℝ)
    (solution : Option Fn) (nonScalar : Fn) : mkPoissonProblem domain rhs alpha (some (.array [] v)) solution nonScalar = .error .typeError := by
  unfold mkPoissonProblem
  rw [h]
  change (if shapeOf pde.domain = [] then _ else _ : Except Err BVP) = _
  split_ifs with c
  · cases hd : pde.domain with
    | interval l r =>
      cases solution with
      | some s => rfl
      | none =>
        cases hc : pde.rhs.constValue <;> simp [endValues, autoSolution, hc, poisson_scalar_values, bind, Except.bind]
    | _ => rfl
  · rfl

end LinPDE.Pde
