import Verif.JaxFn.Calc
import Verif.Pde.PiecewiseProps
import Verif.Pde.HeatProps

/-! # NumPy and JAX views of functions, and their derivatives (C81) -/

namespace LinPDE.JaxFn
open Topology
open LinPDE.Polys
open LinPDE.Piecewise (PW Piece npPiecewise)
open LinPDE.Pde (ConstSol frequencies sineEval heatEval)

variable {d : ℕ}

/-! ## Both views agree -/

lemma eval_polyProg (p : Poly ℝ) (x : Fin 1 → ℝ) : (polyProg p).eval x = p.eval (x 0) := by
  unfold polyProg Poly.eval
  have key : ∀ (cs : List ℝ) (q : Prog 1), (cs.foldl (fun res c => .add (.mul res (.var 0)) (.const c)) q : Prog 1).eval x =
      cs.foldl (fun res c => res * x 0 + c) (q.eval x) := by
    intro cs
    induction cs with
    | nil => intro q; rfl
    | cons c cs ih => intro q; rw [List.foldl_cons, ih]; rfl
  exact key _ _

lemma straight_polyProg (p : Poly ℝ) : (polyProg p).Straight := by
  unfold polyProg
  have key : ∀ (cs : List ℝ) (q : Prog 1), q.Straight →
      (cs.foldl (fun res c => .add (.mul res (.var 0)) (.const c)) q : Prog 1).Straight := by
    intro cs
    induction cs with
    | nil => intro q h; exact h
    | cons c cs ih => intro q h; rw [List.foldl_cons]; exact ih _ ⟨⟨h, trivial⟩, trivial⟩
  exact key _ _ trivial

lemma eval_sub (p q : Prog d) (x : Fin d → ℝ) : (p.sub q).eval x = p.eval x - q.eval x := by
  simp [Prog.sub, Prog.eval]; ring

lemma straight_sub {p q : Prog d} (hp : p.Straight) (hq : q.Straight) : (p.sub q).Straight := ⟨hp, trivial, hq⟩

lemma eval_sineProg (l r : ℝ) (cs : List ℝ) (x : Fin 1 → ℝ) : (sineProg l r cs).eval x = sineEval l r cs (x 0) := by
  unfold sineProg sineEval
  rw [eval_sumProg, List.map_zipWith]
  congr 2
  funext c w
  simp only [Prog.eval, eval_sub]

lemma straight_sineProg (l r : ℝ) (cs : List ℝ) : (sineProg l r cs).Straight := by
  refine straight_sumProg fun p hp => ?_
  obtain ⟨i, hi, rfl⟩ := List.getElem_of_mem hp
  rw [List.getElem_zipWith]
  exact ⟨trivial, trivial, straight_sub trivial trivial⟩

lemma eval_heatProg (t0 l r : ℝ) (cs : List ℝ) (α : ℝ) (x : Fin 2 → ℝ) :
    (heatProg t0 l r cs α).eval x = heatEval t0 l r cs α (x 0) (x 1) := by
  unfold heatProg heatEval
  rw [eval_sumProg, List.map_zipWith]
  congr 2
  funext c w
  simp only [Prog.eval, eval_sub]

lemma straight_heatProg (t0 l r : ℝ) (cs : List ℝ) (α : ℝ) : (heatProg t0 l r cs α).Straight := by
  refine straight_sumProg fun p hp => ?_
  obtain ⟨i, hi, rfl⟩ := List.getElem_of_mem hp
  rw [List.getElem_zipWith]
  exact ⟨⟨trivial, trivial, straight_sub trivial trivial⟩, trivial, straight_sub trivial trivial⟩

lemma eval_constSolProg (s : ConstSol) (x : Fin 1 → ℝ) : (constSolProg s).eval x = s.eval (x 0) := by
  simp only [constSolProg, ConstSol.eval, Prog.eval, eval_sub]

lemma straight_constSolProg (s : ConstSol) : (constSolProg s).Straight :=
  ⟨⟨⟨⟨trivial, straight_sub trivial trivial⟩, trivial⟩, straight_sub trivial trivial⟩, trivial⟩

lemma allJax_ok {fns : List JPiece} {ps : List (Prog 1)} (h : allJax fns = .ok ps) : ps.length = fns.length ∧
    ∀ i (hi : i < fns.length) (hi' : i < ps.length), fns[i].jax = .ok ps[i] := by
  induction fns generalizing ps with
  | nil =>
    obtain rfl : [] = ps := by simpa [allJax] using h
    exact ⟨rfl, fun i hi => absurd hi (by simp)⟩
  | cons p fns ih =>
    cases hp : p.jax with
    | error e => simp [allJax, hp, bind, Except.bind] at h
    | ok q =>
      cases hq : allJax fns with
      | error e => simp [allJax, hp, hq, bind, Except.bind] at h
      | ok qs =>
        obtain rfl : q :: qs = ps := by simpa [allJax, hp, hq, bind, Except.bind] using h
        obtain ⟨h1, h2⟩ := ih hq
        refine ⟨by simp [h1], fun i hi hi' => ?_⟩
        cases i with
        | zero => exact hp
        | succ i => exact h2 i _ _

lemma allJax_total {fns : List JPiece} (h : ∀ p ∈ fns, ∀ f, p ≠ .plain f) : ∃ ps, allJax fns = .ok ps := by
  induction fns with
  | nil => exact ⟨[], rfl⟩
  | cons p fns ih =>
    obtain ⟨qs, hq⟩ := ih fun p hp => h p (by simp [hp])
    have : ∃ q, p.jax = .ok q := by
      cases p with
      | plain f => exact absurd rfl (h _ (by simp) f)
      | poly p => exact ⟨_, rfl⟩
      | const c => exact ⟨_, rfl⟩
      | prog p => exact ⟨_, rfl⟩
    obtain ⟨q, hp⟩ := this
    exact ⟨q :: qs, by simp [allJax, hp, hq, bind, Except.bind]⟩

lemma piece_eval {p : JPiece} {q : Prog 1} (h : p.jax = .ok q) (x : Fin 1 → ℝ) : q.eval x = p.np.ev (x 0) := by
  have hx : x = fun _ => x 0 := funext fun i => by rw [Subsingleton.elim i 0]
  cases p with
  | poly p => obtain rfl : polyProg p = q := by simpa [JPiece.jax] using h
              exact eval_polyProg p x
  | const c => obtain rfl : Prog.const c = q := by simpa [JPiece.jax] using h
               rfl
  | prog p => obtain rfl : p = q := by simpa [JPiece.jax] using h
              show p.eval x = p.eval fun _ => x 0
              rw [← hx]
  | plain f => simp [JPiece.jax] at h

/-- The branches. -/
noncomputable def JPW.branches (f : JPW) (ps : List (Prog 1)) : List (Set (Fin 1 → ℝ) × Prog 1) := ps.mapIdx fun i p => (f.cond i, p)

lemma prog_ok {f : JPW} (hx : f.kind ≠ .constant → 2 ≤ f.xs.length) {ps : List (Prog 1)} (h : allJax f.fns = .ok ps) :
    f.prog = .ok (selectLast (f.branches ps)) := by
  unfold JPW.prog
  rw [if_neg (fun hc => by have := hx hc.1; omega)]
  simp [h, bind, Except.bind, JPW.branches]

lemma piecewise_views {f : JPW} (hx : f.kind ≠ .constant → 2 ≤ f.xs.length) (hp : ∀ p ∈ f.fns, ∀ g, p ≠ .plain g) (x : Fin 1 → ℝ) :
    ∃ y, (piecewise f).np x = .ok y ∧ (piecewise f).jax x = .ok y := by
  classical
  obtain ⟨ps, hps⟩ := allJax_total hp
  obtain ⟨hl, hj⟩ := allJax_ok hps
  refine ⟨(selectLast (f.branches ps)).eval x, ?_, ?_⟩
  · have hi : f.np.indexable := by
      by_cases hk : f.kind = .constant
      · exact Or.inl hk
      · exact Or.inr (by have := hx hk; simp [JPW.np]; omega)
    have : f.np.evaluate (x 0) = .ok ((selectLast (f.branches ps)).eval x) := by
      unfold PW.evaluate
      rw [if_pos hi, eval_selectLast]
      congr 1
      unfold npPiecewise
      have e : ∀ (A : List (Prop × (ℝ → ℝ))) (B : List (Set (Fin 1 → ℝ) × Prog 1)) (y : ℝ), A.length = B.length →
          (∀ i (h : i < A.length) (h' : i < B.length), (A[i].1 ↔ x ∈ B[i].1) ∧ A[i].2 (x 0) = B[i].2.eval x) →
          A.foldl (fun y cf => if cf.1 then cf.2 (x 0) else y) y = B.foldl (fun y b => if x ∈ b.1 then b.2.eval x else y) y := by
        intro A
        induction A with
        | nil => intro B y h _; cases B with
          | nil => rfl
          | cons b B => simp at h
        | cons a A ih => intro B y h he; cases B with
          | nil => simp at h
          | cons b B =>
            rw [List.foldl_cons, List.foldl_cons]
            have h0 := he 0 (by simp) (by simp)
            simp only [List.getElem_cons_zero] at h0
            have : (if a.1 then a.2 (x 0) else y) = if x ∈ b.1 then b.2.eval x else y := by
              by_cases hc : x ∈ b.1
              · rw [if_pos (h0.1.mpr hc), if_pos hc, h0.2]
              · rw [if_neg fun hn => hc (h0.1.mp hn), if_neg hc]
            rw [this]
            refine ih B _ (by simpa using h) fun i h1 h2 => ?_
            have := he (i + 1) (by simpa using h1) (by simpa using h2)
            simpa using this
      apply e
      · have : (f.np.conds (x 0)).length = f.fns.length := by
          unfold PW.conds
          cases f.kind <;> simp [JPW.np] <;> split <;> simp
        simp [JPW.branches, hl, this]
      · intro i h1 h2
        have hi' : i < ps.length := by simpa [JPW.branches] using h2
        have hi'' : i < f.fns.length := by omega
        have hc : ∀ (h : i < (f.np.conds (x 0)).length), ((f.np.conds (x 0))[i].1 ↔ x ∈ f.cond i) ∧
            (f.np.conds (x 0))[i].2 = f.fns[i].np := by
          unfold PW.conds JPW.cond
          intro h
          cases hk : f.kind <;> simp [JPW.np, hk]
        have hlen : i < (f.np.conds (x 0)).length := by simpa using h1
        simp only [List.getElem_map, JPW.branches, List.getElem_mapIdx]
        exact ⟨(hc hlen).1, by rw [(hc hlen).2, piece_eval (hj i hi'' hi')]⟩
    show (match f.np.evaluate (x 0) with
      | .ok y => .ok y
      | .error _ => .error .indexError : Except Err ℝ) = _
    rw [this]
  · simp only [JFn.jax, piecewise, prog_ok hx hps]

/-- C81: at points stored as floats the NumPy and the JAX view of monomials, polynomials, truncated sine series, the solution
for constant right-hand sides, and of piecewise functions whose pieces have JAX views return the same number. -/
theorem views_agree (x : Fin 1 → ℝ) :
    (∀ n, (monomial n).jax x = (monomial n).np x ∧ (monomial n).np x = .ok (x 0 ^ n)) ∧
    (∀ p : Poly ℝ, (poly p).jax x = (poly p).np x ∧ (poly p).np x = .ok (p.toPoly.eval (x 0))) ∧
    (∀ l r cs, (sine l r cs).jax x = (sine l r cs).np x) ∧
    (∀ s, (constSol s).jax x = (constSol s).np x) ∧
    (∀ f : JPW, (f.kind ≠ .constant → 2 ≤ f.xs.length) → (∀ p ∈ f.fns, ∀ g, p ≠ .plain g) →
      (piecewise f).jax x = (piecewise f).np x ∧ ∃ y, f.np.evaluate (x 0) = .ok y ∧ (piecewise f).np x = .ok y) := by
  refine ⟨fun n => ⟨rfl, rfl⟩, fun p => ⟨?_, ?_⟩, fun l r cs => ?_, fun s => ?_, fun f hx hp => ?_⟩
  · show Except.ok _ = Except.ok _
    rw [eval_polyProg]
  · show Except.ok _ = Except.ok _
    rw [eval_eq_toPoly_eval]
  · show Except.ok _ = Except.ok _
    rw [eval_sineProg]
  · show Except.ok _ = Except.ok _
    rw [eval_constSolProg]
  · obtain ⟨y, h1, h2⟩ := piecewise_views hx hp x
    refine ⟨h2.trans h1.symm, y, ?_, h1⟩
    have h1 : (match f.np.evaluate (x 0) with
      | .ok y => .ok y
      | .error _ => .error .indexError : Except Err ℝ) = .ok y := h1
    cases he : f.np.evaluate (x 0) with
    | ok z => rw [he] at h1; simpa using h1
    | error e => rw [he] at h1; simp at h1

/-- A hat function outside, inside and at its kink. -/
example (x : Fin 1 → ℝ) : (piecewise ⟨.linear, [0, 1, 2], [.poly (.ofCoeffs [0, 1]), .poly (.ofCoeffs [2, -1])]⟩).jax x =
    (piecewise ⟨.linear, [0, 1, 2], [.poly (.ofCoeffs [0, 1]), .poly (.ofCoeffs [2, -1])]⟩).np x :=
  ((views_agree x).2.2.2.2 _ (by simp) (by simp)).1

/-- C81 (fails): a piecewise function with a piece that is no `JaxFunction` can be evaluated with NumPy, its JAX view raises
`AttributeError` everywhere. -/
theorem plain_piece_violated (f : JPW) (hx : 2 ≤ f.xs.length) (hp : ∃ g, .plain g ∈ f.fns) (x : Fin 1 → ℝ) :
    (∃ y, (piecewise f).np x = .ok y) ∧ (piecewise f).jax x = .error .attributeError := by
  classical
  constructor
  · have hi : f.np.indexable := Or.inr (by simp [JPW.np]; omega)
    obtain ⟨y, hy⟩ : ∃ y, f.np.evaluate (x 0) = .ok y := by
      unfold PW.evaluate
      rw [if_pos hi]
      exact ⟨_, rfl⟩
    exact ⟨y, by simp only [piecewise, hy]⟩
  · obtain ⟨g, hg⟩ := hp
    have h : ∀ fns : List JPiece, .plain g ∈ fns → allJax fns = .error .attributeError := by
      intro fns
      induction fns with
      | nil => intro h; simp at h
      | cons p fns ih =>
        intro h
        cases p with
        | plain f => rfl
        | poly p => have := ih (by simpa using h); simp [allJax, JPiece.jax, this, bind, Except.bind]
        | const c => have := ih (by simpa using h); simp [allJax, JPiece.jax, this, bind, Except.bind]
        | prog p => have := ih (by simpa using h); simp [allJax, JPiece.jax, this, bind, Except.bind]
    have : f.prog = .error .attributeError := by
      unfold JPW.prog
      rw [if_neg (fun hc => by omega)]
      simp [h _ hg, bind, Except.bind]
    simp only [JFn.jax, piecewise, this]

example (x : Fin 1 → ℝ) : (piecewise ⟨.general, [0, 1], [.plain Real.sin]⟩).jax x = .error .attributeError :=
  (plain_piece_violated _ (by simp) ⟨Real.sin, by simp⟩ x).2

/-! ## Operators -/

/-- The differential operator on functions `ℝ^d → ℝ`. -/
noncomputable def Op.math : Op d → ((Fin d → ℝ) → ℝ) → (Fin d → ℝ) → ℝ
  | .deriv m, g => dds ((factors m).map unit) g
  | .dir v, g => dd v g
  | .lap w, g => fun x => ∑ i, w i * dd (unit i) (dd (unit i) g) x
  | .scaled c L, g => fun x => c * L.math g x
  | .sum L M, g => fun x => L.math g x + M.math g x

/-- The program of the result. -/
def Op.prog : Op d → Prog d → Prog d
  | .deriv m, p => derivProg m p
  | .dir v, p => p.jvp v
  | .lap w, p => lapProg w p
  | .scaled c L, p => .mul (.const c) (L.prog p)
  | .sum L M, p => .add (L.prog p) (M.prog p)

lemma eval_lapProg (w : Fin d → ℝ) (p : Prog d) (x : Fin d → ℝ) :
    (lapProg w p).eval x = ∑ i, w i * ((p.jvp (unit i)).jvp (unit i)).eval x := by
  unfold lapProg
  rw [eval_sumProg, List.map_map, ← List.ofFn_eq_map, List.sum_ofFn]
  rfl

lemma prog_math (L : Op d) {p : Prog d} {x : Fin d → ℝ} (h : p.Regular x) : (L.prog p).eval x = L.math p.eval x := by
  induction L with
  | deriv m =>
    show (derivProg m p).eval x = _
    have : derivProg m p = ((factors m).map unit).foldl (fun p v => p.jvp v) p := by
      unfold derivProg
      rw [List.foldl_map]
    rw [this]
    exact (jvps_eval _ h).self_of_nhds
  | dir v => exact jvp_eval h v
  | lap w =>
    show (lapProg w p).eval x = _
    rw [eval_lapProg]
    refine Finset.sum_congr rfl fun i _ => ?_
    have := (jvps_eval [unit i, unit i] h).self_of_nhds
    rw [show ((p.jvp (unit i)).jvp (unit i)).eval x = dd (unit i) (dd (unit i) p.eval) x from this]
  | scaled c L ih => show c * _ = c * _; rw [ih]
  | sum L M hL hM => show _ + _ = _ + _; rw [hL, hM]

lemma call_prog (L : Op d) {f : JFn d} {p : Prog d} (hv : f.view = .jax (.ok p)) (ho : f.outS = []) :
    ∃ g, L.call f.inS f = .ok g ∧ g.inS = f.inS ∧ g.outS = [] ∧ (∀ x, g.np x = .ok ((L.prog p).eval x)) ∧
      g.view = .jax (.ok (L.prog p)) := by
  have base : ∀ D : Prog d → Prog d, fallback f.inS D f = .ok (lambdaFn f.inS (.ok (D p))) := by
    intro D
    unfold fallback
    rw [hv]
    simp [ho, Except.map]
  induction L with
  | deriv m => exact ⟨_, base _, rfl, rfl, fun x => rfl, rfl⟩
  | dir v => exact ⟨_, base _, rfl, rfl, fun x => rfl, rfl⟩
  | lap w => exact ⟨_, base _, rfl, rfl, fun x => rfl, rfl⟩
  | scaled c L ih =>
    obtain ⟨g, h1, h2, h3, h4, h5⟩ := ih
    refine ⟨scaleFn c g, by simp [Op.call, h1, bind, Except.bind], h2, h3, fun x => ?_, ?_⟩
    · simp [scaleFn, h4, Except.map, Op.prog, Prog.eval]
    · simp [scaleFn, h5, Except.map, Op.prog]
  | sum L M hL hM =>
    obtain ⟨g, h1, h2, h3, h4, h5⟩ := hL
    obtain ⟨k, k1, k2, k3, k4, k5⟩ := hM
    refine ⟨⟨g.inS, g.outS, fun x => do
        let a ← g.np x
        let b ← k.np x
        .ok (a + b), .jax (addViews (.ok (L.prog p)) (.ok (M.prog p)))⟩, ?_, h2, h3, fun x => ?_, rfl⟩
    · simp [Op.call, h1, k1, bind, Except.bind, addFn, h2, h3, k2, k3, h5, k5]
    · simp [h4, k4, bind, Except.bind, Op.prog, Prog.eval]

lemma jax_of_view {f : JFn d} {p : Prog d} (h : f.view = .jax (.ok p)) (x : Fin d → ℝ) : f.jax x = .ok (p.eval x) := by
  unfold JFn.jax
  rw [h]

/-- C81: operators applied to a scalar function whose JAX view is a program return a function; at every point around which the
program takes one branch both of its views give the operator applied to the function, which is infinitely differentiable there. -/
theorem operator_correct (L : Op d) {f : JFn d} {p : Prog d} (hv : f.view = .jax (.ok p)) (ho : f.outS = []) :
    ∃ g, L.call f.inS f = .ok g ∧ g.inS = f.inS ∧ g.outS = [] ∧
      (∀ x, g.jax x = g.np x) ∧
      ∀ x, p.Regular x → g.np x = .ok (L.math p.eval x) ∧ ContDiffAt ℝ (⊤ : ℕ∞) p.eval x := by
  obtain ⟨g, h1, h2, h3, h4, h5⟩ := call_prog L hv ho
  refine ⟨g, h1, h2, h3, fun x => ?_, fun x hx => ⟨?_, contDiffAt_eval hx⟩⟩
  · rw [jax_of_view h5, h4]
  · rw [h4, prog_math L hx]

/-- C81: a `JaxFunction` of other shapes than the operator's is refused. -/
theorem operator_shapes (shape : LinPDE.Nd.Shp) (m : Fin d → ℕ) (v w : Fin d → ℝ) {f : JFn d} {e} (hv : f.view = .jax e)
    (hs : f.inS ≠ shape ∨ f.outS ≠ []) : ∀ L ∈ [Op.deriv m, .dir v, .lap w], L.call shape f = .error .valueError := by
  have key : ∀ D : Prog d → Prog d, fallback shape D f = .error .valueError := by
    intro D
    unfold fallback
    rw [hv]
    by_cases h : f.inS = shape
    · simp [h, hs.resolve_left (not_not.mpr h)]
    · simp [h]
  intro L hL
  simp only [List.mem_cons, List.not_mem_nil, or_false] at hL
  rcases hL with rfl | rfl | rfl <;> exact key _

/-- C81: on the line, every operator on polynomials and sine series gives the operator applied to the function, everywhere. -/
theorem operator_line (L : Op 1) :
    (∀ p : Poly ℝ, ∃ g, L.call [] (poly p) = .ok g ∧ ∀ x, g.np x = .ok (L.math (fun y => p.eval (y 0)) x)) ∧
    (∀ l r cs, ∃ g, L.call [] (sine l r cs) = .ok g ∧ ∀ x, g.np x = .ok (L.math (fun y => sineEval l r cs (y 0)) x)) ∧
    (∀ n, ∃ g, L.call [] (monomial n) = .ok g ∧ ∀ x, g.np x = .ok (L.math (fun y => y 0 ^ n) x)) := by
  refine ⟨fun p => ?_, fun l r cs => ?_, fun n => ?_⟩
  · obtain ⟨g, h1, -, -, -, h⟩ := operator_correct L (f := poly p) rfl rfl
    refine ⟨g, h1, fun x => ?_⟩
    rw [(h x ((straight_polyProg p).regular x)).1]
    congr 2
    funext y
    exact eval_polyProg p y
  · obtain ⟨g, h1, -, -, -, h⟩ := operator_correct L (f := sine l r cs) rfl rfl
    refine ⟨g, h1, fun x => ?_⟩
    rw [(h x ((straight_sineProg l r cs).regular x)).1]
    congr 2
    funext y
    exact eval_sineProg l r cs y
  · obtain ⟨g, h1, -, -, -, h⟩ := operator_correct L (f := monomial n) rfl rfl
    exact ⟨g, h1, fun x => (h x trivial).1⟩

/-- The third derivative of a polynomial. -/
example : ∃ g, (Op.deriv ![3]).call [] (poly (.ofCoeffs [1, 2, 3, 4])) = .ok g ∧
    ∀ x, g.np x = .ok (dds [unit 0, unit 0, unit 0] (fun y : Fin 1 → ℝ => (Poly.ofCoeffs [1, 2, 3, 4]).eval (y 0)) x) := by
  obtain ⟨g, h1, h2⟩ := (operator_line (.deriv ![3])).1 (.ofCoeffs [1, 2, 3, 4])
  exact ⟨g, h1, h2⟩

/-- C81 (fails): functions without a JAX view — the attached solution of the heat equation, the truncated Gaussian mixture, finite
element bases — are accepted by every operator, also with shapes that do not fit, and the result raises `TypeError` at every
point. -/
theorem plain_violated (shape : LinPDE.Nd.Shp) (L : Op d) {f : JFn d} (hv : f.view = .plain) :
    ∃ g, L.call shape f = .ok g ∧ ∀ x, g.np x = .error .typeError ∧ g.jax x = .error .typeError := by
  have key : ∃ g, L.call shape f = .ok g ∧ g.inS = shape ∧ g.outS = [] ∧ (∀ x, g.np x = .error .typeError) ∧
      g.view = .jax (.error .typeError) := by
    have base : ∀ D : Prog d → Prog d, fallback shape D f = .ok (lambdaFn shape (.error .typeError)) := by
      intro D
      unfold fallback
      rw [hv]
    induction L with
    | deriv m => exact ⟨_, base _, rfl, rfl, fun x => rfl, rfl⟩
    | dir v => exact ⟨_, base _, rfl, rfl, fun x => rfl, rfl⟩
    | lap w => exact ⟨_, base _, rfl, rfl, fun x => rfl, rfl⟩
    | scaled c L ih =>
      obtain ⟨g, h1, h2, h3, h4, h5⟩ := ih
      exact ⟨scaleFn c g, by simp [Op.call, h1, bind, Except.bind], h2, h3, fun x => by simp [scaleFn, h4, Except.map],
        by simp [scaleFn, h5, Except.map]⟩
    | sum L M hL hM =>
      obtain ⟨g, h1, h2, h3, h4, h5⟩ := hL
      obtain ⟨k, k1, k2, k3, k4, k5⟩ := hM
      refine ⟨⟨g.inS, g.outS, fun x => do
          let a ← g.np x
          let b ← k.np x
          .ok (a + b), .jax (addViews (.error .typeError) (.error .typeError))⟩, ?_, h2, h3, fun x => ?_, rfl⟩
      · simp [Op.call, h1, k1, bind, Except.bind, addFn, h2, h3, k2, k3, h5, k5]
      · simp [h4, bind, Except.bind]
  obtain ⟨g, h1, -, -, h4, h5⟩ := key
  refine ⟨g, h1, fun x => ⟨h4 x, ?_⟩⟩
  unfold JFn.jax
  rw [h5]

end LinPDE.JaxFn
