import Verif.JaxFn.Props

/-! # Operators applied to piecewise functions and to the solutions attached to problems; integers (C81) -/

namespace LinPDE.JaxFn
open Topology
open LinPDE.Polys
open LinPDE.Piecewise (PW Piece npPiecewise piecewise_eval piecewise_eval_outside piecewise_cover mkPW)
open LinPDE.Pde (ConstSol frequencies sineEval heatEval SolvesPoisson mkConstSol mkIvpPoly mkIvpPiecewise ivpLoop ivpLoop_ok asPoly)

variable {d : ℕ}

/-! ## Operators on selections -/

lemma derivProg_eq (m : Fin d → ℕ) (p : Prog d) :
    derivProg m p = ((factors m).map unit).foldl (fun p v => p.jvp v) p := by
  unfold derivProg
  rw [List.foldl_map]

lemma op_selectLast_at (L : Op d) {bs : List (Set (Fin d → ℝ) × Prog d)} {x : Fin d → ℝ} {i : ℕ} (hi : i < bs.length)
    (h : x ∈ bs[i].1) (hr : ∀ j (hj : j < bs.length), i < j → x ∉ bs[j].1) :
    (L.prog (selectLast bs)).eval x = (L.prog bs[i].2).eval x := by
  have base : ∀ vs : List (Fin d → ℝ), (vs.foldl (fun p v => p.jvp v) (selectLast bs)).eval x =
      (vs.foldl (fun p v => p.jvp v) bs[i].2).eval x := by
    intro vs
    rw [jvps_selectLast, selectLast_at (i := i) (by simpa using hi) (by simpa using h)
      (fun j hj hij => by simpa using hr j (by simpa using hj) hij)]
    simp
  induction L with
  | deriv m => show (derivProg m _).eval x = (derivProg m _).eval x; rw [derivProg_eq, derivProg_eq]; exact base _
  | dir v => exact base [v]
  | lap w =>
    show (lapProg w _).eval x = (lapProg w _).eval x
    rw [eval_lapProg, eval_lapProg]
    exact Finset.sum_congr rfl fun k _ => congrArg (w k * ·) (base [unit k, unit k])
  | scaled c L ih => show c * _ = c * _; rw [ih]
  | sum L M hL hM => show _ + _ = _ + _; rw [hL, hM]

lemma op_selectLast_none (L : Op d) {bs : List (Set (Fin d → ℝ) × Prog d)} {x : Fin d → ℝ} (h : ∀ b ∈ bs, x ∉ b.1) :
    (L.prog (selectLast bs)).eval x = 0 := by
  have base : ∀ vs : List (Fin d → ℝ), (vs.foldl (fun p v => p.jvp v) (selectLast bs)).eval x = 0 := by
    intro vs
    rw [jvps_selectLast]
    refine selectLast_none fun b hb => ?_
    obtain ⟨c, hc, rfl⟩ := List.mem_map.mp hb
    exact h c hc
  induction L with
  | deriv m => show (derivProg m _).eval x = 0; rw [derivProg_eq]; exact base _
  | dir v => exact base [v]
  | lap w =>
    show (lapProg w _).eval x = 0
    rw [eval_lapProg]
    refine Finset.sum_eq_zero fun k _ => ?_
    rw [show (((selectLast bs).jvp (unit k)).jvp (unit k)).eval x = 0 from base [unit k, unit k], mul_zero]
  | scaled c L ih => show c * _ = 0; rw [ih, mul_zero]
  | sum L M hL hM => show _ + _ = (0 : ℝ); rw [hL, hM, add_zero]

lemma mem_cond {f : JPW} (hk : f.kind ≠ .constant) {i : ℕ} {x : Fin 1 → ℝ} : x ∈ f.cond i ↔ f.np.In i (x 0) := by
  unfold JPW.cond PW.In PW.X
  show (match f.kind with
    | .constant => _
    | _ => _ : Prop) ↔ _
  cases h : f.kind with
  | constant => exact absurd h hk
  | general =>
    by_cases h0 : i = 0
    · subst h0; simp [JPW.np]
    · simp [JPW.np, h0]
  | linear =>
    by_cases h0 : i = 0
    · subst h0; simp [JPW.np]
    · simp [JPW.np, h0]

lemma op_piecewise (L : Op 1) {f : JPW} (hk : f.kind ≠ .constant) (h : f.np.Ok) {ps : List (Prog 1)} (hps : allJax f.fns = .ok ps) :
    ∃ g, L.call [] (piecewise f) = .ok g ∧ (∀ x, g.jax x = g.np x) ∧
      (∀ i (hi : i < ps.length) x, f.np.In i (x 0) → g.np x = .ok ((L.prog ps[i]).eval x)) ∧
      ∀ x, (x 0 < f.np.X 0 ∨ f.np.X f.fns.length < x 0) → g.np x = .ok 0 := by
  have hlen := h.len
  have hpos := h.pos
  have hfl : f.np.fns.length = f.fns.length := by simp [JPW.np]
  have hxl : f.np.xs = f.xs := rfl
  have hpl := (allJax_ok hps).1
  obtain ⟨g, h1, -, -, h4, h5⟩ := call_prog L (f := piecewise f) (p := selectLast (f.branches ps))
    (by simp only [piecewise]; rw [prog_ok (fun _ => by rw [← hxl]; omega) hps]) rfl
  refine ⟨g, h1, fun x => ?_, fun i hi x hx => ?_, fun x hx => ?_⟩
  · rw [jax_of_view h5, h4]
  · rw [h4, op_selectLast_at L (i := i) (by simpa [JPW.branches] using hi)
      (by simpa [JPW.branches] using (mem_cond hk).mpr hx)]
    · simp [JPW.branches]
    · intro j hj hij hc
      have hj' : j < ps.length := by simpa [JPW.branches] using hj
      have hc : x ∈ f.cond j := by simpa [JPW.branches] using hc
      have hc := (mem_cond hk).mp hc
      have hc1 := hc.1
      rw [if_neg (by omega)] at hc1
      have := h.le (show i + 1 ≤ j by omega) (by omega)
      linarith [hx.2]
  · rw [h4, op_selectLast_none L]
    intro b hb hc
    obtain ⟨i, hi, rfl⟩ := List.getElem_of_mem hb
    have hi' : i < ps.length := by simpa [JPW.branches] using hi
    have hc : x ∈ f.cond i := by simpa [JPW.branches] using hc
    have hc := (mem_cond hk).mp hc
    have a := h.le (Nat.zero_le i) (by omega)
    have b := h.le (show i + 1 ≤ f.fns.length by omega) (by omega)
    have := hc.lower
    rcases hx with hx | hx <;> linarith [hc.2]

/-- C81: every operator on a piecewise function whose pieces are polynomials gives, at every point of the interval of a piece
(breakpoints belong to the piece on their left, the first one to the first piece), the operator applied to that polynomial, and
zero outside of the domain; in the inside of the intervals this is the operator applied to the piecewise function. -/
theorem operator_piecewise (L : Op 1) {f : JPW} (hk : f.kind ≠ .constant) (h : f.np.Ok) (hp : ∀ p ∈ f.fns, ∃ q, p = .poly q) :
    ∃ g, L.call [] (piecewise f) = .ok g ∧ (∀ x, g.jax x = g.np x) ∧
      (∀ i (hi : i < f.fns.length) (q : Poly ℝ), f.fns[i] = .poly q → ∀ x, f.np.In i (x 0) →
        g.np x = .ok (L.math (fun y => q.eval (y 0)) x)) ∧
      ∀ x, (x 0 < f.np.X 0 ∨ f.np.X f.fns.length < x 0) → g.np x = .ok 0 := by
  obtain ⟨ps, hps⟩ := allJax_total (fns := f.fns) fun p hm g hg => by
    obtain ⟨q, hq⟩ := hp p hm
    rw [hg] at hq
    cases hq
  obtain ⟨g, h1, h2, h3, h4⟩ := op_piecewise L hk h hps
  refine ⟨g, h1, h2, fun i hi q hq x hx => ?_, h4⟩
  have hpl := (allJax_ok hps).1
  rw [h3 i (by omega) x hx]
  have := (allJax_ok hps).2 i hi (by omega)
  rw [hq] at this
  have e : polyProg q = ps[i] := by simpa [JPiece.jax] using this
  rw [← e, prog_math L ((straight_polyProg q).regular x)]
  congr 2
  funext y
  exact eval_polyProg q y

/-! ## Functions of one variable -/

lemma dd_line {u u' : ℝ → ℝ} (h : ∀ x, HasDerivAt u (u' x) x) :
    dd (unit 0) (fun y : Fin 1 → ℝ => u (y 0)) = fun y => u' (y 0) := by
  funext y
  have h1 : HasFDerivAt (fun y : Fin 1 → ℝ => u (y 0)) (u' (y 0) • (ContinuousLinearMap.proj 0 : (Fin 1 → ℝ) →L[ℝ] ℝ)) y :=
    (h (y 0)).comp_hasFDerivAt y (ContinuousLinearMap.proj (R := ℝ) (φ := fun _ : Fin 1 => ℝ) 0).hasFDerivAt
  show fderiv ℝ _ y (unit 0) = _
  rw [h1.fderiv]
  simp [unit]

lemma math_poisson {α : ℝ} {f u : ℝ → ℝ} (h : SolvesPoisson α f u Set.univ) (x : Fin 1 → ℝ) :
    (poissonOp α).math (fun y => u (y 0)) x = f (x 0) := by
  obtain ⟨u', u'', h1, h2, h3⟩ := h
  show -α * ∑ i : Fin 1, 1 * dd (unit i) (dd (unit i) fun y => u (y 0)) x = _
  rw [Fin.sum_univ_one, dd_line (fun x => h1 x trivial), dd_line (fun x => h2 x trivial), one_mul]
  exact h3 _ trivial

/-! ## Attached solutions -/

/-- C81: the operator of the Poisson equation applied to the solution attached to a Dirichlet problem with a constant right-hand
side is this constant, at every point, in both views. -/
theorem poisson_constSol {l r : ℝ} (hlr : l < r) (c ul ur : ℝ) {α : ℝ} (hα : α ≠ 0) :
    ∃ s g, mkConstSol (.scalars l r) c [ul, ur] α = .ok s ∧ (poissonOp α).call [] (constSol s) = .ok g ∧
      ∀ x, g.np x = .ok c ∧ g.jax x = .ok c := by
  obtain ⟨s, hs, hsol, -, -⟩ := LinPDE.Pde.constSol_solves hlr c ul ur hα
  obtain ⟨g, h1, -, -, h4, h5⟩ := operator_correct (poissonOp α) (f := constSol s) rfl rfl
  have key : ∀ x, g.np x = .ok c := fun x => by
    rw [(h5 x ((straight_constSolProg s).regular x)).1, ← math_poisson hsol x]
    congr 2
    funext y
    exact eval_constSolProg s y
  exact ⟨s, g, hs, h1, fun x => ⟨key x, (h4 x).trans (key x)⟩⟩

example : ∃ s g, mkConstSol (.scalars 0 2) 3 [1, 5] 2 = .ok s ∧ (poissonOp 2).call [] (constSol s) = .ok g ∧
    ∀ x, g.np x = .ok 3 ∧ g.jax x = .ok 3 := poisson_constSol (by norm_num) 3 1 5 (by norm_num)

/-- C81: for the initial value problem with a polynomial right-hand side it is the right-hand side. -/
theorem poisson_ivpPoly {l r : ℝ} (hlr : l ≤ r) (f : Poly ℝ) (u0 u1 : ℝ) {α : ℝ} (hα : α ≠ 0) :
    ∃ u g, mkIvpPoly (.scalars l r) (some f) [u0, u1] α = .ok u ∧ (poissonOp α).call [] (poly u) = .ok g ∧
      ∀ x, g.np x = .ok (f.eval (x 0)) ∧ g.jax x = .ok (f.eval (x 0)) := by
  obtain ⟨u, hu, hsol, -⟩ := LinPDE.Pde.ivpPoly_solves hlr f u0 u1 hα
  obtain ⟨g, h1, -, -, h4, h5⟩ := operator_correct (poissonOp α) (f := poly u) rfl rfl
  have key : ∀ x, g.np x = .ok (f.eval (x 0)) := fun x => by
    rw [(h5 x ((straight_polyProg u).regular x)).1, ← math_poisson hsol x]
    congr 2
    funext y
    exact eval_polyProg u y
  exact ⟨u, g, hu, h1, fun x => ⟨key x, (h4 x).trans (key x)⟩⟩

lemma ivpPiecewise_sols {l r : ℝ} (hdom : l ≤ r) {rhs : PW} (hrhs : rhs.Ok) (hpoly : ∀ p ∈ rhs.fns, ∃ q, p = .poly q)
    (u0 u1 : ℝ) {α : ℝ} (hα : α ≠ 0) :
    ∃ sols : List (Poly ℝ), mkIvpPiecewise (.scalars l r) (some rhs) [u0, u1] α = .ok ⟨.general, rhs.xs, sols.map .poly⟩ ∧
      sols.length = rhs.fns.length ∧
      ∀ i (h : i < rhs.fns.length) (h' : i < sols.length), SolvesPoisson α rhs.fns[i].ev sols[i].eval Set.univ := by
  set L := rhs.fns.zip (rhs.xs.dropLast.zip rhs.xs.tail) with hLdef
  have hlen := hrhs.len
  have hLlen : L.length = rhs.fns.length := by simp [hLdef]; omega
  have hLget : ∀ i (h : i < L.length), L[i] = (rhs.fns[i]'(by omega), rhs.X i, rhs.X (i + 1)) := by
    intro i h
    simp only [hLdef, List.getElem_zip, List.getElem_dropLast, List.getElem_tail, PW.X]
    rw [List.getD_eq_getElem?_getD, List.getD_eq_getElem?_getD, List.getElem?_eq_getElem (by omega),
      List.getElem?_eq_getElem (by omega)]
    simp
  have hL : ∀ e ∈ L, (∃ p, e.1 = .poly p) ∧ e.2.1 ≤ e.2.2 := by
    intro e he
    obtain ⟨i, hi, rfl⟩ := List.getElem_of_mem he
    rw [hLget i hi]
    exact ⟨hpoly _ (List.getElem_mem _), hrhs.le (by omega) (by omega)⟩
  obtain ⟨sols, hsols, hslen, hspec⟩ := ivpLoop_ok hα L hL u0 u1
  refine ⟨sols, ?_, by omega, fun i h h' => ?_⟩
  · unfold mkIvpPiecewise
    simp only [LinPDE.Domains.asdomain, LinPDE.Domains.mkInterval, if_neg (not_lt.mpr hdom), gt_iff_lt]
    rw [if_neg (by
      simp only [not_not, List.all_eq_true]
      intro p hp
      obtain ⟨q, rfl⟩ := hpoly p hp
      rfl)]
    show (ivpLoop α L [u0, u1] >>= _ : Except LinPDE.Pde.Err _) = _
    rw [hsols]
    have e : mkPW .general rhs.xs (sols.map .poly) = .ok ⟨.general, rhs.xs, sols.map .poly⟩ := by
      rw [mkPW, if_neg (by simp; omega)]
    show (match mkPW .general rhs.xs (sols.map .poly) with
      | .ok f => .ok f
      | .error _ => .error .valueError : Except LinPDE.Pde.Err PW) = _
    rw [e]
  · have := (hspec i (by omega) h').1
    rwa [hLget i (by omega)] at this

/-- C81: for the initial value problem with a piecewise polynomial right-hand side the operator applied to the attached solution
is what the right-hand side evaluates to, at every point, also at the breakpoints and outside of the domain. -/
theorem poisson_ivpPiecewise {l r : ℝ} (hdom : l ≤ r) {rhs : PW} (hrhs : rhs.Ok) (hpoly : ∀ p ∈ rhs.fns, ∃ q, p = .poly q)
    (hk : rhs.kind ≠ .constant) (u0 u1 : ℝ) {α : ℝ} (hα : α ≠ 0) :
    ∃ u g, mkIvpPiecewise (.scalars l r) (some rhs) [u0, u1] α = .ok u ∧ (ofPW u).np = u ∧
      (poissonOp α).call [] (piecewise (ofPW u)) = .ok g ∧
      ∀ x, ∃ y, rhs.evaluate (x 0) = .ok y ∧ g.np x = .ok y ∧ g.jax x = .ok y := by
  obtain ⟨sols, hs, hlen, hsol⟩ := ivpPiecewise_sols hdom hrhs hpoly u0 u1 hα
  have hrl := hrhs.len
  set u : PW := ⟨.general, rhs.xs, sols.map .poly⟩ with hu
  have hof : ofPW u = ⟨.general, rhs.xs, sols.map .poly⟩ := by
    simp [ofPW, hu, List.map_map, Function.comp_def]
  have hnp : (ofPW u).np = u := by
    rw [hof]
    simp [JPW.np, hu, List.map_map, Function.comp_def, JPiece.np]
  have hfl : (ofPW u).fns.length = sols.length := by rw [hof]; simp
  have uok : (ofPW u).np.Ok := by
    rw [hnp]
    exact ⟨by simp [hu]; omega, by simp [hu]; have := hrhs.pos; omega, hrhs.inc⟩
  obtain ⟨g, h1, h2, h3, h4⟩ := operator_piecewise (poissonOp α) (f := ofPW u) (by rw [hof]; simp) uok (by
    rw [hof]
    intro p hp
    obtain ⟨q, -, rfl⟩ := List.mem_map.mp hp
    exact ⟨q, rfl⟩)
  refine ⟨u, g, hs, hnp, h1, fun x => ?_⟩
  by_cases hin : rhs.X 0 ≤ x 0 ∧ x 0 ≤ rhs.X rhs.fns.length
  · obtain ⟨i, ⟨hi, hI⟩, -⟩ := piecewise_cover hrhs hin.1 hin.2
    have hi' : i < sols.length := by omega
    have key : g.np x = .ok (rhs.fns[i].ev (x 0)) := by
      rw [h3 i (by omega) sols[i] (by simp [hof]) x (by rw [hnp]; exact hI), math_poisson (hsol i hi hi') x]
    exact ⟨_, piecewise_eval hk hrhs hi hI, key, (h2 x).trans key⟩
  · have ho : x 0 < rhs.X 0 ∨ rhs.X rhs.fns.length < x 0 := by
      by_contra hc
      push Not at hc
      exact hin hc
    have key : g.np x = .ok 0 := h4 x (by
      rw [hnp, hfl, hlen]
      exact ho)
    exact ⟨0, piecewise_eval_outside hrhs ho, key, (h2 x).trans key⟩

/-- Two pieces, `1` on `[0, 1]` and `x` on `(1, 2]`. -/
example : ∃ u g, mkIvpPiecewise (.scalars 0 2)
      (some ⟨.general, [0, 1, 2], [.poly (.ofCoeffs [1]), .poly (.ofCoeffs [0, 1])]⟩) [3, 4] 1 = .ok u ∧ (ofPW u).np = u ∧
    (poissonOp 1).call [] (piecewise (ofPW u)) = .ok g ∧
    ∀ x, ∃ y, PW.evaluate ⟨.general, [0, 1, 2], [.poly (.ofCoeffs [1]), .poly (.ofCoeffs [0, 1])]⟩ (x 0) = .ok y ∧
      g.np x = .ok y ∧ g.jax x = .ok y :=
  poisson_ivpPiecewise (by norm_num) ⟨rfl, by simp, by simp [List.pairwise_cons]⟩ (by simp) (by simp) 3 4 one_ne_zero

/-- C81 (fails): at a breakpoint where the slope jumps the derivative of a piecewise linear function is the slope of the piece
on the left, although the function is not differentiable there. -/
theorem kink_violated :
    ∃ g, (Op.deriv ![1]).call [] (piecewise ⟨.linear, [0, 1, 2], [.poly (.ofCoeffs [0, 1]), .poly (.ofCoeffs [2, -1])]⟩) = .ok g ∧
      LinPDE.Piecewise.fromPoints [0, 1, 2] [0, 1, 0] =
        .ok (JPW.np ⟨.linear, [0, 1, 2], [.poly (.ofCoeffs [0, 1]), .poly (.ofCoeffs [2, -1])]⟩) ∧
      g.np (fun _ => 1) = .ok 1 ∧
      ¬DifferentiableAt ℝ (LinPDE.Pde.val (JPW.np ⟨.linear, [0, 1, 2], [.poly (.ofCoeffs [0, 1]), .poly (.ofCoeffs [2, -1])]⟩)) 1 := by
  set f : JPW := ⟨.linear, [0, 1, 2], [.poly (.ofCoeffs [0, 1]), .poly (.ofCoeffs [2, -1])]⟩ with hf
  have ok : f.np.Ok := ⟨by simp [hf, JPW.np], by simp [hf, JPW.np], by simp [hf, JPW.np, List.pairwise_cons]⟩
  have hk : f.np.kind ≠ .constant := by simp [hf, JPW.np]
  obtain ⟨g, h1, -, h3, -⟩ := operator_piecewise (.deriv ![1]) (f := f) (by simp [hf]) ok (by simp [hf])
  have v0 : ∀ x, 0 ≤ x → x ≤ 1 → LinPDE.Pde.val f.np x = x := fun x ha hb => by
    rw [LinPDE.Pde.val_in hk ok (i := 0) (by simp [hf, JPW.np]) ⟨by simpa [hf, JPW.np, PW.X] using ha, by simpa [hf, JPW.np, PW.X] using hb⟩]
    simp [hf, JPW.np, JPiece.np, Piece.ev, LinPDE.Piecewise.eval_lin]
  have v1 : ∀ x, 1 < x → x ≤ 2 → LinPDE.Pde.val f.np x = 2 - x := fun x ha hb => by
    rw [LinPDE.Pde.val_in hk ok (i := 1) (by simp [hf, JPW.np]) ⟨by simpa [hf, JPW.np, PW.X] using ha, by simpa [hf, JPW.np, PW.X] using hb⟩]
    simp [hf, JPW.np, JPiece.np, Piece.ev, LinPDE.Piecewise.eval_lin]
    ring
  refine ⟨g, h1, ?_, ?_, ?_⟩
  · simp [LinPDE.Piecewise.fromPoints, mkPW, hf, JPW.np, JPiece.np]
    norm_num
  · rw [h3 0 (by simp [hf]) (.ofCoeffs [0, 1]) (by simp [hf]) (fun _ => 1) ⟨by simp [hf, JPW.np, PW.X], by simp [hf, JPW.np, PW.X]⟩]
    have e : (Op.deriv ![1] : Op 1).math (fun y => (Poly.ofCoeffs [0, 1] : Poly ℝ).eval (y 0)) =
        dd (unit 0) fun y => (Poly.ofCoeffs [0, 1] : Poly ℝ).eval (y 0) := by
      have hfa : factors ![1] = [0] := by decide
      simp [Op.math, hfa, dds]
    rw [e, dd_line (u' := fun _ => 1)]
    intro x
    rw [show (Poly.ofCoeffs [0, 1] : Poly ℝ).eval = fun x => x from funext fun x => by rw [LinPDE.Piecewise.eval_lin]; ring]
    exact hasDerivAt_id x
  · intro hd
    have hD := hd.hasDerivAt
    set D := deriv (LinPDE.Pde.val f.np) 1
    have l : HasDerivWithinAt (LinPDE.Pde.val f.np) 1 (Set.Iic 1) 1 := by
      refine (hasDerivAt_id (1 : ℝ)).hasDerivWithinAt.congr_of_eventuallyEq ?_ (v0 1 (by norm_num) le_rfl)
      filter_upwards [self_mem_nhdsWithin, mem_nhdsWithin_of_mem_nhds (Ioi_mem_nhds (show (0 : ℝ) < 1 by norm_num))] with y hy hy'
      exact v0 y (le_of_lt hy') hy
    have r : HasDerivWithinAt (LinPDE.Pde.val f.np) (-1) (Set.Ici 1) 1 := by
      refine ((hasDerivAt_id (1 : ℝ)).const_sub 2).hasDerivWithinAt.congr_of_eventuallyEq ?_ (by rw [v0 1 (by norm_num) le_rfl]; norm_num)
      filter_upwards [self_mem_nhdsWithin, mem_nhdsWithin_of_mem_nhds (Iio_mem_nhds (show (1 : ℝ) < 2 by norm_num))] with y hy hy'
      rcases (Set.mem_Ici.mp hy).eq_or_lt with rfl | h
      · rw [v0 1 (by norm_num) le_rfl]; norm_num
      · exact v1 y h (le_of_lt hy')
    have e1 := (uniqueDiffWithinAt_Iic (1 : ℝ)).eq_deriv _ l hD.hasDerivWithinAt
    have e2 := (uniqueDiffWithinAt_Ici (1 : ℝ)).eq_deriv _ r hD.hasDerivWithinAt
    linarith

/-! ## The heat equation -/

/-- C81 (fails): the operator of the heat equation applied to the solution attached to the problem is a function that raises
`TypeError` wherever it is evaluated, because the attached solution has no JAX view. -/
theorem heat_violated (t0 l r : ℝ) (cs : List ℝ) (α : ℝ) :
    ∃ g, (heatOp α).call [2] (heatSol t0 l r cs α) = .ok g ∧ ∀ x, g.np x = .error .typeError ∧ g.jax x = .error .typeError :=
  plain_violated [2] (heatOp α) rfl

lemma jvp_sumProg (ps : List (Prog d)) (v : Fin d → ℝ) : (sumProg ps).jvp v = sumProg (ps.map fun p => p.jvp v) := by
  induction ps with
  | nil => rfl
  | cons p ps ih => simp [sumProg, Prog.jvp, ih]

lemma heatOp_prog (α : ℝ) (p : Prog 2) (x : Fin 2 → ℝ) :
    ((heatOp α).prog p).eval x = (p.jvp (unit 0)).eval x - α * ((p.jvp (unit 1)).jvp (unit 1)).eval x := by
  show (derivProg ![1, 0] p).eval x + (lapProg ![0, -α] p).eval x = _
  rw [eval_lapProg, Fin.sum_univ_two]
  have : factors ![1, 0] = [0] := by decide
  simp [derivProg, this]
  ring

/-- C81: were the method `_jax_evaluate` the JAX view of the attached solution, both views would agree and the operator of the
heat equation would give zero at every point. -/
theorem heat_partial (t0 l r : ℝ) (cs : List ℝ) (α : ℝ) :
    ∃ g, (heatOp α).call [2] { heatSol t0 l r cs α with view := .jax (.ok (heatProg t0 l r cs α)) } = .ok g ∧
      (∀ x, g.np x = .ok 0 ∧ g.jax x = .ok 0) ∧
      (∀ x, JFn.jax { heatSol t0 l r cs α with view := .jax (.ok (heatProg t0 l r cs α)) } x = (heatSol t0 l r cs α).np x) ∧
      ∀ x, (heatOp α).math (fun y => heatEval t0 l r cs α (y 0) (y 1)) x = 0 := by
  have hz : ∀ x, ((heatOp α).prog (heatProg t0 l r cs α)).eval x = 0 := by
    intro x
    rw [heatOp_prog]
    unfold heatProg
    rw [jvp_sumProg, jvp_sumProg, jvp_sumProg, eval_sumProg, eval_sumProg]
    simp only [List.map_zipWith]
    generalize frequencies l r cs.length = ws
    induction cs generalizing ws with
    | nil => simp
    | cons c cs ih =>
      cases ws with
      | nil => simp
      | cons w ws =>
        have := ih ws
        simp only [List.zipWith_cons_cons, List.sum_cons]
        have hT : ∀ a b A B : ℝ, a - α * b = 0 → A - α * B = 0 → a + A - α * (b + B) = 0 := by intros; linarith
        refine hT _ _ _ _ ?_ this
        simp [Prog.jvp, Prog.eval, Prog.sub, unit]
        ring
  obtain ⟨g, h1, -, -, h4, h5⟩ := call_prog (heatOp α)
    (f := { heatSol t0 l r cs α with view := .jax (.ok (heatProg t0 l r cs α)) }) rfl rfl
  refine ⟨g, h1, fun x => ⟨by rw [h4, hz], by rw [jax_of_view h5, hz]⟩, fun x => ?_, fun x => ?_⟩
  · show Except.ok _ = Except.ok _
    rw [eval_heatProg]
  · rw [← hz x, prog_math _ ((straight_heatProg t0 l r cs α).regular x)]
    congr 1
    funext y
    exact (eval_heatProg t0 l r cs α y).symm

example : ∃ g, (heatOp 2).call [2] (heatSol 0 0 1 [1, 2] 2) = .ok g ∧ ∀ x, g.np x = .error .typeError ∧ g.jax x = .error .typeError :=
  heat_violated 0 0 1 [1, 2] 2

/-! ## Integers -/

lemma foldl_horner (cs : List ℝ) (x a b : ℝ) :
    cs.foldl (fun res c => res * x + c) a = cs.foldl (fun res c => res * x + c) b + (a - b) * x ^ cs.length := by
  induction cs generalizing a b with
  | nil => simp
  | cons c cs ih =>
    rw [List.foldl_cons, List.foldl_cons, ih (a * x + c) (b * x + c), List.length_cons, pow_succ]
    ring

/-- C81: at an integer the JAX view of a polynomial of degree `n` is off by the fractional part of the leading coefficient times
`xⁿ`. -/
theorem polyJaxInt_eq (p : Poly ℝ) (x : ℤ) : polyJaxInt p x =
    p.eval x - (p.coeffs.getLast p.ne - (truncTo (p.coeffs.getLast p.ne) : ℝ)) * (x : ℝ) ^ (p.coeffs.length - 1) := by
  unfold polyJaxInt Poly.eval
  rw [foldl_horner _ _ (truncTo (p.coeffs.getLast p.ne) : ℝ) (p.coeffs.getLast p.ne)]
  simp
  ring

lemma trunc_half : truncTo (1 / 2 : ℝ) = 0 := by
  unfold truncTo
  rw [if_pos (by norm_num), Int.floor_eq_iff]
  norm_num

/-- C81 (fails): at integers the views differ.  The interpolant through `(0, 0)` and `(2, 1)` is `1` at `2.0`; at `2` NumPy raises
`TypeError` and JAX returns `0`. -/
theorem integer_violated : ∃ f : JPW, LinPDE.Piecewise.fromPoints [0, 2] [0, 1] = .ok f.np ∧ f.np.evaluate 2 = .ok 1 ∧
    (piecewise f).jax (fun _ => 2) = .ok 1 ∧ f.np.evaluateInt 2 = .error .typeError ∧ f.jaxInt 2 = .ok 0 := by
  set f : JPW := ⟨.linear, [0, 2], [.poly (.ofCoeffs [0, 1 / 2])]⟩ with hf
  have ok : f.np.Ok := ⟨by simp [hf, JPW.np], by simp [hf, JPW.np], by simp [hf, JPW.np]⟩
  have he : f.np.evaluate 2 = .ok 1 := by
    rw [piecewise_eval (by simp [hf, JPW.np]) ok (i := 0) (by simp [hf, JPW.np]) ⟨by simp [hf, JPW.np, PW.X], by simp [hf, JPW.np, PW.X]⟩]
    simp [hf, JPW.np, JPiece.np, Piece.ev, LinPDE.Piecewise.eval_lin]
  refine ⟨f, ?_, he, ?_, ?_, ?_⟩
  · simp [LinPDE.Piecewise.fromPoints, mkPW, hf, JPW.np, JPiece.np]
  · obtain ⟨h1, y, h2, h3⟩ := (views_agree fun _ => 2).2.2.2.2 f (by simp [hf]) (by simp [hf])
    rw [he] at h2
    cases h2
    rw [h1, h3]
  · have : (Poly.ofCoeffs [0, 2⁻¹] : Poly ℝ).evalInt 2 = .error .typeError := LinPDE.Polys.evalInt_violated _ (by decide) 2
    simp [hf, JPW.np, JPiece.np, PW.evaluateInt, PW.indexable, PW.conds, Piece.evInt, this]
  · have e : polyJaxInt (Poly.ofCoeffs [0, 2⁻¹]) 2 = 0 := by
      have h := trunc_half
      rw [one_div] at h
      simp [polyJaxInt, Poly.ofCoeffs, h]
    have z : truncTo (0 : ℝ) = 0 := by simp [truncTo]
    simp [hf, JPW.jaxInt, allJax, JPiece.jax, JPiece.jaxInt, JPW.cond, bind, Except.bind, e, z, pure, Except.pure]

open Classical in
/-- C81: the views of piecewise constants agree at integers (both truncate the values). -/
theorem constant_integer {f : JPW} (hk : f.kind = .constant) (hp : ∀ p ∈ f.fns, ∃ c, p = .const c) (x : ℤ) :
    ∃ v, f.jaxInt x = .ok v ∧ f.np.evaluateInt x = .ok v := by
  obtain ⟨ps, hps⟩ := allJax_total (fns := f.fns) fun p hm g hg => by
    obtain ⟨q, hq⟩ := hp p hm
    rw [hg] at hq
    cases hq
  have key : ∀ (fns : List JPiece) (C : ℕ → Prop) (S : ℕ → Set (Fin 1 → ℝ)) (y : ℤ), (∀ i, C i ↔ (fun _ => (x : ℝ)) ∈ S i) →
      (∀ p ∈ fns, ∃ c, p = .const c) → ∃ v,
      (fns.mapIdx fun i p => (S i, p)).foldlM (fun y b => if (fun _ => (x : ℝ)) ∈ b.1 then do
        let v ← b.2.jaxInt x
        .ok (truncTo v) else .ok y) y = (.ok v : Except Err ℤ) ∧
      ((fns.map JPiece.np).mapIdx fun i p => (C i, p)).foldlM (fun y c => if c.1 then (match c.2.evInt x with
        | .ok v => .ok (truncTo v)
        | .error e => .error e) else .ok y) y = (.ok v : Except LinPDE.Piecewise.Err ℤ) := by
    intro fns
    induction fns with
    | nil => intro C S y _ _; exact ⟨y, rfl, rfl⟩
    | cons p fns ih =>
      intro C S y hC hc
      obtain ⟨c, rfl⟩ := hc p (by simp)
      obtain ⟨v, h1, h2⟩ := ih (fun i => C (i + 1)) (fun i => S (i + 1)) (if C 0 then truncTo c else y) (fun i => hC (i + 1))
        fun p hp => hc p (by simp [hp])
      refine ⟨v, ?_, ?_⟩
      · rw [List.mapIdx_cons, List.foldlM_cons]
        by_cases h0 : C 0
        · rw [if_pos h0] at h1
          simpa [(hC 0).mp h0, JPiece.jaxInt, bind, Except.bind] using h1
        · rw [if_neg h0] at h1
          simpa [mt (hC 0).mpr h0, bind, Except.bind] using h1
      · rw [List.map_cons, List.mapIdx_cons, List.foldlM_cons]
        by_cases h0 : C 0
        · rw [if_pos h0] at h2
          simpa [h0, JPiece.np, Piece.evInt, bind, Except.bind] using h2
        · rw [if_neg h0] at h2
          simpa [h0, bind, Except.bind] using h2
  obtain ⟨v, h1, h2⟩ := key f.fns (fun i => f.xs.getD i 0 < x ∧ x ≤ f.xs.getD (i + 1) 0) f.cond 0 (fun i => by
    unfold JPW.cond
    show _ ↔ (match f.kind with
      | .constant => _
      | _ => _ : Prop)
    rw [hk]) hp
  refine ⟨v, ?_, ?_⟩
  · unfold JPW.jaxInt
    rw [if_neg (fun h => h.1 hk), hps]
    exact h1
  · unfold PW.evaluateInt
    rw [if_pos (show f.np.indexable from Or.inl hk)]
    have : f.np.conds (x : ℝ) = (f.fns.map JPiece.np).mapIdx fun i p => ((f.xs.getD i 0 < x ∧ x ≤ f.xs.getD (i + 1) 0), p) := by
      unfold PW.conds
      simp [JPW.np, hk]
    rw [this]
    exact h2

example : ∃ v, JPW.jaxInt ⟨.constant, [0, 1, 2], [.const (1 / 2), .const 3]⟩ 2 = .ok v ∧
    PW.evaluateInt (JPW.np ⟨.constant, [0, 1, 2], [.const (1 / 2), .const 3]⟩) 2 = .ok v :=
  constant_integer rfl (by simp) 2

end LinPDE.JaxFn
