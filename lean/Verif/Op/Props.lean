import Verif.Op.ExprLemmas

/-! # Properties C35–C38, C54: arithmetic of functions, operators and functionals -/

namespace LinPDE.Ops
open LinPDE.Nd

variable {X : Type}

/-! ## C38: functions -/

/-- C38: every function expression whose leaves have the same shapes is built without an exception and evaluates
pointwise to the arithmetic it spells, whatever rewriting the special cases do. -/
theorem function_arithmetic (s : Shapes) : ∀ e : FExpr X, e.Typed s →
    ∃ f, e.build = .ok f ∧ f.sh = s ∧ f.eval = e.den := by
  intro e
  induction e with
  | leaf sh ev => intro h; exact ⟨_, rfl, h, rfl⟩
  | const i o v => intro h; exact ⟨_, rfl, h, rfl⟩
  | zero i o => intro h; exact ⟨_, rfl, h, eval_zero i o⟩
  | add e e' ih ih' =>
    rintro ⟨h, h'⟩
    obtain ⟨f, f1, f2, f3⟩ := ih h
    obtain ⟨g, g1, g2, g3⟩ := ih' h'
    obtain ⟨k, k1, k2, k3⟩ := add_spec f g s f2 g2
    refine ⟨k, ?_, k2, by rw [k3, f3, g3]; rfl⟩
    show (e.build >>= _ : Except Err (JFn X)) = _
    rw [f1]
    show (e'.build >>= _ : Except Err (JFn X)) = _
    rw [g1]; exact k1
  | sub e e' ih ih' =>
    rintro ⟨h, h'⟩
    obtain ⟨f, f1, f2, f3⟩ := ih h
    obtain ⟨g, g1, g2, g3⟩ := ih' h'
    obtain ⟨n2, n1⟩ := smul_eval (-1) g
    obtain ⟨k, k1, k2, k3⟩ := add_spec f (g.smul (-1)) s f2 (by rw [n1, g2])
    refine ⟨k, ?_, k2, by rw [k3, f3, n2, g3, FExpr.den, sub_eq_add_neg, neg_one_smul]⟩
    show (e.build >>= _ : Except Err (JFn X)) = _
    rw [f1]
    show (e'.build >>= _ : Except Err (JFn X)) = _
    rw [g1]; exact k1
  | neg e ih =>
    intro h
    obtain ⟨f, f1, f2, f3⟩ := ih h
    obtain ⟨n2, n1⟩ := smul_eval (-1) f
    refine ⟨f.smul (-1), ?_, by rw [n1, f2], by rw [n2, f3, neg_one_smul]; rfl⟩
    show (e.build >>= _ : Except Err (JFn X)) = _
    rw [f1]; rfl
  | smul c e ih =>
    intro h
    obtain ⟨f, f1, f2, f3⟩ := ih h
    obtain ⟨n2, n1⟩ := smul_eval c f
    refine ⟨f.smul c, ?_, by rw [n1, f2], by rw [n2, f3]; rfl⟩
    show (e.build >>= _ : Except Err (JFn X)) = _
    rw [f1]; rfl

/-- A nested difference of a function, a constant and zero: built, and pointwise. -/
example (f : Val ℝ) : ∃ g, (FExpr.sub (.add (.leaf ([], [2]) f) (.const [] [2] fun _ => 3))
    (.neg (.add (.zero [] [2]) (.leaf ([], [2]) f)))).build = .ok g ∧ ∀ x p, g.eval x p = 2 * f x p + 3 := by
  obtain ⟨g, h1, -, h3⟩ := function_arithmetic ([], [2]) (FExpr.sub (.add (.leaf ([], [2]) f) (.const [] [2] fun _ => 3))
    (.neg (.add (.zero [] [2]) (.leaf ([], [2]) f)))) (by simp [FExpr.Typed])
  refine ⟨g, h1, fun x p => ?_⟩
  rw [h3]
  show f x p + 3 - -((0 : ℝ) + f x p) = _
  ring

/-- `Constant` or its subclass `Zero`. -/
def JFn.constLike : JFn X → Prop
  | .const _ _ _ => True
  | .zero _ _ => True
  | _ => False

/-- C38: the sum of two functions of different shapes is rejected, unless the left one is constant or zero and the right
one a (non-zero-class) constant. -/
theorem function_add_rejects (f g : JFn X) (hs : f.sh ≠ g.sh) (hc : ¬(f.constLike ∧ ∃ i o v, g = .const i o v)) :
    f.add g = .error .assertionError := by
  have gen : mkSum [f, g] = .error .assertionError := by
    rw [mkSum, if_neg]
    simpa using fun h => hs h.symm
  cases g with
  | zero i o =>
    have e : f.add (.zero i o) = addZero f i o := by cases f <;> rfl
    rw [e]
    unfold addZero
    split_ifs with h1 h2
    · rfl
    · rfl
    · push Not at h1 h2
      exact absurd (Prod.ext h1.symm h2.symm) hs
  | const i o v =>
    cases f with
    | const _ _ _ => exact absurd ⟨trivial, i, o, v, rfl⟩ hc
    | zero _ _ => exact absurd ⟨trivial, i, o, v, rfl⟩ hc
    | base _ _ => exact gen
    | scaled _ _ => exact gen
    | sum _ _ => exact gen
  | base _ _ => cases f <;> exact gen
  | scaled _ _ => cases f <;> exact gen
  | sum _ _ => cases f <;> exact gen

/-- A vector-valued and a scalar-valued function do not add. -/
example (f g : Val ℝ) : (JFn.base ([], [2]) f).add (.base ([], []) g) = .error .assertionError :=
  function_add_rejects _ _ (by simp [JFn.sh]) (by simp [JFn.constLike])

/-- Constants are the exception: a scalar and a vector constant add, the scalar being repeated. -/
theorem constant_add_broadcasts (c : ℝ) (v : ℕ → ℝ) (n : ℕ) :
    ∃ f : JFn X, (JFn.const [] [] fun _ => c).add (.const [] [n + 2] v) = .ok f ∧ f.sh = ([], [n + 2]) ∧
      ∀ x, ∀ p < n + 2, f.eval x p = c + v p := by
  have hb : Coeff.bcast [] [n + 2] = some [n + 2] := rfl
  refine ⟨.const [] [n + 2] fun p => c + v (bpos [n + 2] [n + 2] p), ?_, rfl, fun x p hp => ?_⟩
  · show constAdd [] [] _ [] [n + 2] v = _
    unfold constAdd
    rw [if_neg (by simp), if_neg (by simp), hb]
  · show c + v (bpos [n + 2] [n + 2] p) = c + v p
    congr 2
    simp [bpos, unravel, ravel]

/-! ## C35: operator expressions -/

/-- C35: an operator expression is accepted exactly when its shapes fit together and no differential operator is scaled
twice (see C54 for the latter). -/
theorem operator_build_iff (e : OExpr X) :
    (∃ L, e.build = .ok L) ↔ (∃ i o, e.Typed i o) ∧ ¬e.Rescales := by
  constructor
  · rintro ⟨L, hL⟩
    obtain ⟨-, -, h1, h2⟩ := build_sound e L hL
    exact ⟨⟨_, _, h1⟩, h2⟩
  · rintro ⟨⟨i, o, ht⟩, hr⟩
    obtain ⟨L, hL, -⟩ := build_total e i o ht hr
    exact ⟨L, hL⟩

/-- C35: whenever applying the operator built from an expression returns, the result is the function the operator algebra
prescribes, with the operator's output shapes. -/
theorem operator_expressions (e : OExpr X) (L : Op X) (hL : e.build = .ok L) (n : ℕ) (f g : JFn X)
    (h : L.call n f = .ok g) : g.sh = L.outS ∧ g.eval = e.den f.eval := by
  obtain ⟨hw, hd, -, -⟩ := build_sound e L hL
  rw [← hd]
  exact call_sound n L f g hw h

/-- C35: shapes of the object are those of the expression. -/
theorem operator_shapes (e : OExpr X) (L : Op X) (hL : e.build = .ok L) (i o : Shapes) (ht : e.Typed i o) :
    L.inS = i ∧ L.outS = o :=
  typed_unique e _ _ _ _ (build_sound e L hL).2.2.1 ht

/-- C35: on functions free of scaled parts, an expression that fits together, scales no differential operator twice and
scales nothing to the right of a composition is built and applied without an exception, with the prescribed result. The
recursion limit needed is two calls, independently of the expression. -/
theorem operator_application_total (e : OExpr X) (i o : Shapes) (ht : e.Typed i o) (hr : ¬e.Rescales) (hc : e.Runs)
    (n : ℕ) (f : JFn X) (hp : f.Plain) (hs : f.sh = i) :
    ∃ L g, e.build = .ok L ∧ L.call (n + 2) f = .ok g ∧ g.sh = o ∧ g.eval = e.den f.eval := by
  obtain ⟨L, hL, hi, ho⟩ := build_total e i o ht hr
  obtain ⟨g, hg⟩ := runs_total n L f (build_sound e L hL).1 (build_runs e L hc hL) hp (by rw [hs, hi])
  obtain ⟨g1, g2⟩ := operator_expressions e L hL _ f g hg
  exact ⟨L, g, hL, hg, by rw [g1, ho], g2⟩

/-- `2 * (D1 @ (D2 + Id)) - D1` on a sum of two functions. -/
example (D1 D2 : Val ℝ →ₗ[ℝ] Val ℝ) (u v : Val ℝ) :
    ∃ L g, (OExpr.sub (.smul 2 (.matmul (.base ([], []) ([], []) D1 true)
        (.add (.base ([], []) ([], []) D2 true) (.ident ([], []))))) (.base ([], []) ([], []) D1 true)).build = .ok L ∧
      L.call 2 (.sum ([], []) [.base ([], []) u, .base ([], []) v]) = .ok g ∧
      g.eval = (2 : ℝ) • D1 (D2 (u + v) + (u + v)) - D1 (u + v) := by
  obtain ⟨L, g, h1, h2, -, h4⟩ := operator_application_total (OExpr.sub (.smul 2 (.matmul (.base ([], []) ([], []) D1 true)
        (.add (.base ([], []) ([], []) D2 true) (.ident ([], []))))) (.base ([], []) ([], []) D1 true)) ([], []) ([], [])
    (by simp [OExpr.Typed]) (by simp [OExpr.Rescales, OExpr.scaledDiff]) (by simp [OExpr.Runs, OExpr.Clean]) 0
    (.sum ([], []) [.base ([], []) u, .base ([], []) v]) (by simp [JFn.Plain, JFn.isLeaf, JFn.sh]) rfl
  refine ⟨L, g, h1, h2, ?_⟩
  rw [h4, eval_sum]
  simp [OExpr.den, JFn.eval]

/-- An expression whose shapes do not fit is rejected. -/
example (D : Val ℝ →ₗ[ℝ] Val ℝ) : ¬∃ L, (OExpr.matmul (.base ([], []) ([], []) D true)
    (.base ([], []) ([], [2]) D false)).build = .ok L := by
  rw [operator_build_iff]
  rintro ⟨⟨i, o, m, ⟨h1, h2⟩, h3, h4⟩, -⟩
  rw [← h2] at h3
  simp at h3

/-! ## C54: scaling -/

/-- C54, violated: scaling a scaled differential operator raises `TypeError`, so does negating it and subtracting it. -/
theorem scale_diffop_twice_violated (i o : Shapes) (D : Val X →ₗ[ℝ] Val X) (c d : ℝ) (e : OExpr X) :
    (OExpr.smul c (.smul d (.base i o D true))).build = .error .typeError ∧
      (OExpr.neg (.smul d (.base i o D true))).build = .error .typeError ∧
      ∀ L, e.build = .ok L → (OExpr.sub e (.smul d (.base i o D true))).build = .error .typeError := by
  refine ⟨rfl, rfl, fun L hL => ?_⟩
  show (e.build >>= _ : Except Err (Op X)) = _
  rw [hL]; rfl

/-- C54, what holds (partial: differential operators may be scaled once only): any number of scalings of an operator that
is not a differential operator gives the operator with the product of the scalars, as one scaled object. -/
theorem scale_folds_partial (i o : Shapes) (T : Val X →ₗ[ℝ] Val X) : ∀ (cs : List ℝ) (c : ℝ),
    (cs.foldr OExpr.smul (.smul c (.base i o T false))).build = .ok (.scaled (.base i o T false) (cs.prod * c))
  | [], c => by
    show Except.ok (Op.scaled (.base i o T false) c) = _
    rw [List.prod_nil, one_mul]
  | d :: cs, c => by
    have ih := scale_folds_partial i o T cs c
    show ((cs.foldr OExpr.smul _).build >>= _ : Except Err (Op X)) = _
    rw [ih]
    show Except.ok (Op.scaled (.base i o T false) (d * (cs.prod * c))) = _
    rw [List.prod_cons, mul_assoc]

/-- C54, partial: scaling a differential operator once. -/
theorem scale_diffop_once_partial (i o : Shapes) (D : Val X →ₗ[ℝ] Val X) (c : ℝ) :
    ∃ L, (OExpr.smul c (.base i o D true)).build = .ok L ∧ L.inS = i ∧ L.outS = o ∧ L.den = c • D :=
  ⟨.scaledDiff (.base i o D true) c, rfl, rfl, rfl, by rw [Op.den, Op.den]⟩

/-! ## C36: functional expressions -/

/-- C36: a functional expression is accepted exactly when its shapes fit together (and no differential operator in it is
scaled twice). -/
theorem functional_build_iff (e : LExpr X) :
    (∃ F, e.build = .ok F) ↔ (∃ i o, e.Typed i o) ∧ ¬e.Rescales := by
  constructor
  · rintro ⟨L, hL⟩
    obtain ⟨-, -, h1, h2⟩ := lbuild_sound e L hL
    exact ⟨⟨_, _, h1⟩, h2⟩
  · rintro ⟨⟨i, o, ht⟩, hr⟩
    obtain ⟨L, hL, -⟩ := lbuild_total e i o ht hr
    exact ⟨L, hL⟩

/-- C36: the values a functional expression returns are the ones the algebra of functionals prescribes: an array of the
functional's output shape with these entries or, if they all vanish, possibly the scalar zero. -/
theorem functional_expressions (e : LExpr X) (F : Fnl X) (hF : e.build = .ok F) (n : ℕ) (f : JFn X) (v : Arr)
    (h : F.call n f = .ok v) :
    (v.shape = F.outS ∧ ∀ p < F.outS.prod, v.get p = e.den f.eval p) ∨
      (v.shape = [] ∧ (∀ p, v.get p = 0) ∧ ∀ p < F.outS.prod, e.den f.eval p = 0) := by
  obtain ⟨hw, hd, -, -⟩ := lbuild_sound e F hF
  rw [← hd]
  exact fcall_sound n F f v hw h

/-- C36: shapes of the object are those of the expression. -/
theorem functional_shapes (e : LExpr X) (F : Fnl X) (hF : e.build = .ok F) (i : Shapes) (o : Shp) (ht : e.Typed i o) :
    F.inS = i ∧ F.outS = o :=
  ltyped_unique e _ _ _ _ (lbuild_sound e F hF).2.2.1 ht

/-- C36: on functions with a non-`Zero` part and no scaled parts, a fitting functional expression whose operators are not
scaled is built and applied without an exception, with the prescribed values in the prescribed shape. -/
theorem functional_application_total (e : LExpr X) (i : Shapes) (o : Shp) (ht : e.Typed i o) (hr : ¬e.Rescales)
    (hc : e.Runs) (n : ℕ) (f : JFn X) (hp : f.Plain) (hb : f.Solid) (hs : f.sh = i) :
    ∃ F v, e.build = .ok F ∧ F.call (n + 2) f = .ok v ∧ v.shape = o ∧ ∀ p < o.prod, v.get p = e.den f.eval p := by
  obtain ⟨F, hF, hi, ho⟩ := lbuild_total e i o ht hr
  obtain ⟨v, hv, hvs⟩ := fruns_total n F f (lbuild_sound e F hF).1 (lbuild_runs e F hc hF) hp hb (by rw [hs, hi])
  refine ⟨F, v, hF, hv, by rw [hvs, ho], ?_⟩
  rcases functional_expressions e F hF _ f v hv with ⟨-, h⟩ | ⟨-, h1, h2⟩
  · rw [← ho]; exact h
  · intro p hp
    rw [h1 p, h2 p (by rw [ho]; exact hp)]

/-- Two expressions are accepted together, and then are functionals of the same shapes and the same meaning. -/
def SameFunctional (e e' : LExpr X) : Prop :=
  ((∃ F, e.build = .ok F) ↔ ∃ F, e'.build = .ok F) ∧
    ∀ F F', e.build = .ok F → e'.build = .ok F' → F.inS = F'.inS ∧ F.outS = F'.outS ∧ F.den = F'.den

lemma sameFunctional_of {e e' : LExpr X} (ht : ∀ i o, e.Typed i o ↔ e'.Typed i o) (hr : e.Rescales ↔ e'.Rescales)
    (hd : e.den = e'.den) : SameFunctional e e' := by
  constructor
  · rw [functional_build_iff, functional_build_iff, hr]
    simp only [ht]
  · intro F F' h h'
    obtain ⟨-, d, t, -⟩ := lbuild_sound e F h
    obtain ⟨-, d', t', -⟩ := lbuild_sound e' F' h'
    obtain ⟨a, b⟩ := ltyped_unique e' _ _ _ _ ((ht _ _).mp t) t'
    exact ⟨a, b, by rw [d, d', hd]⟩

/-- C36: composing step by step in any association gives the same functional: `A @ (F @ L) = (A @ F) @ L`,
`(F @ L) @ M = F @ (L @ M)`, and for matrices of fitting sizes `A @ (B @ F) = (A @ B) @ F`. -/
theorem functional_association (A B : LinOp) (e : LExpr X) (L M : OExpr X) :
    SameFunctional (.rmatmul A (.matmul e L)) (.matmul (.rmatmul A e) L) ∧
      SameFunctional (.matmul (.matmul e L) M) (.matmul e (.matmul L M)) ∧
      ∀ C, A.mul B = .ok C → SameFunctional (.rmatmul A (.rmatmul B e)) (.rmatmul C e) := by
  refine ⟨sameFunctional_of ?_ ?_ ?_, sameFunctional_of ?_ ?_ ?_, fun C hC => sameFunctional_of ?_ ?_ ?_⟩
  · intro i o
    constructor
    · rintro ⟨⟨m, h1, h2⟩, h3⟩; exact ⟨m, h1, h2, h3⟩
    · rintro ⟨m, h1, h2, h3⟩; exact ⟨⟨m, h1, h2⟩, h3⟩
  · exact Iff.rfl
  · rfl
  · intro i o
    constructor
    · rintro ⟨m, h1, k, h2, h3⟩; exact ⟨k, ⟨m, h1, h2⟩, h3⟩
    · rintro ⟨k, ⟨m, h1, h2⟩, h3⟩; exact ⟨m, h1, k, h2, h3⟩
  · simp only [LExpr.Rescales, OExpr.Rescales, or_assoc]
  · rfl
  · obtain ⟨h1, h2, h3, -⟩ := mul_lin hC
    intro i o
    simp only [LExpr.Typed, h2, h3, h1]
    tauto
  · exact Iff.rfl
  · obtain ⟨-, -, -, h⟩ := mul_lin hC
    show A.lin ∘ₗ B.lin ∘ₗ e.den = C.lin ∘ₗ e.den
    rw [h]; rfl

/-- The functionals compared above exist. -/
example (A : ℕ → ℕ → ℝ) (F : Val ℝ →ₗ[ℝ] (ℕ → ℝ)) (D : Val ℝ →ₗ[ℝ] Val ℝ) :
    ∃ G, (LExpr.matmul (.rmatmul ⟨2, 3, A⟩ (.base ([], []) [3] F)) (.base ([], []) ([], []) D true)).build = .ok G :=
  (functional_build_iff _).mpr ⟨⟨([], []), [2], by simp [LExpr.Typed, OExpr.Typed]⟩, by simp [LExpr.Rescales, OExpr.Rescales]⟩

/-- `A @ (3 * F) @ D` on a function. -/
example (A : ℕ → ℕ → ℝ) (F : Val ℝ →ₗ[ℝ] (ℕ → ℝ)) (D : Val ℝ →ₗ[ℝ] Val ℝ) (u : Val ℝ) :
    ∃ G v, (LExpr.rmatmul ⟨2, 3, A⟩ (.matmul (.smul 3 (.base ([], []) [3] F)) (.base ([], []) ([], []) D true))).build = .ok G ∧
      G.call 2 (.base ([], []) u) = .ok v ∧ v.shape = [2] ∧ ∀ p < 2, v.get p = ∑ q ∈ Finset.range 3, A p q * (3 * F (D u) q) := by
  obtain ⟨G, v, h1, h2, h3, h4⟩ := functional_application_total
    (LExpr.rmatmul ⟨2, 3, A⟩ (.matmul (.smul 3 (.base ([], []) [3] F)) (.base ([], []) ([], []) D true))) ([], []) [2]
    (by simp [LExpr.Typed, OExpr.Typed]) (by simp [LExpr.Rescales, OExpr.Rescales]) (by simp [LExpr.Runs, OExpr.Clean]) 0
    (.base ([], []) u) trivial trivial rfl
  refine ⟨G, v, h1, h2, h3, fun p hp => ?_⟩
  rw [h4 p (by simpa using hp)]
  rfl

/-! ## C37: termination -/

/-- C37, violated: an operator applied to a scaled function calls itself for ever, whatever the recursion limit. -/
theorem call_scaled_violated (i o : Shapes) (T : Val X →ₗ[ℝ] Val X) (b : Bool) (f : JFn X) (c : ℝ) (n : ℕ) :
    (Op.base i o T b).call n (.scaled f c) = .error .recursionError := by
  rw [Op.call]; exact callBase_scaled i o T f c n

/-- C37, violated: the same for functionals. -/
theorem fcall_scaled_violated (i : Shapes) (o : Shp) (T : Val X →ₗ[ℝ] (ℕ → ℝ)) (f : JFn X) (c : ℝ) (n : ℕ) :
    (Fnl.base i o T).call n (.scaled f c) = .error .recursionError := by
  rw [Fnl.call]; exact callFnlBase_scaled i o T f c n

/-- C37, violated: composing with a scaled operator on the right never returns either, for any function whatsoever on which
the inner operator is defined, because the inner result is a scaled function. -/
theorem compose_scaled_violated (i m o : Shapes) (T S : Val X →ₗ[ℝ] Val X) (b b' : Bool) (c : ℝ) (ev : Val X) (n : ℕ) :
    ∃ L, (OExpr.matmul (.base m o T b) (.smul c (.base i m S b'))).build = .ok L ∧
      L.call (n + 1) (.base i ev) = .error .recursionError := by
  have hin : ∀ b', ∃ N, (Op.base i m S b').smul c = .ok N ∧ N.call (n + 1) (.base i ev) = .ok (.scaled (.base m (S ev)) c) ∧
      N.outS = m ∧ (Op.base m o T b).matmul N = Op.mkComp [.base m o T b, N] := by
    have hb : callBase i m S (n + 1) (.base i ev) = .ok (.base m (S ev)) := by
      simp only [callBase, JFn.sh, ne_eq, not_true_eq_false, if_false]
      rfl
    intro b'
    cases b' with
    | true =>
      refine ⟨.scaledDiff (.base i m S true) c, rfl, ?_, rfl, by rw [Op.matmul]⟩
      rw [Op.call, Op.call, hb]; rfl
    | false =>
      refine ⟨.scaled (.base i m S false) c, rfl, ?_, rfl, by rw [Op.matmul]⟩
      rw [Op.call, Op.call, hb]; rfl
  obtain ⟨N, n1, n2, n3, n4⟩ := hin b'
  refine ⟨.comp N.inS o [.base m o T b, N], ?_, ?_⟩
  · show ((Op.base i m S b').smul c >>= _ : Except Err (Op X)) = _
    rw [n1]
    show (Op.base m o T b).matmul N = _
    rw [n4, Op.mkComp, if_pos]
    · rfl
    · simp [chainOK, Op.inS, n3]
  · rw [Op.call, callSeq, callSeq, callSeq]
    show ((N.call (n + 1) (.base i ev)) >>= _ : Except Err (JFn X)) = _
    rw [n2]
    exact call_scaled_violated m o T b _ c (n + 1)

/-- C37, violated in shape: a functional with vector values applied to `Zero` returns a scalar. -/
theorem fcall_zero_shape_violated (i : Shapes) (o : Shp) (ho : o ≠ []) (T : Val X →ₗ[ℝ] (ℕ → ℝ)) (i' o' : Shp) (n : ℕ) :
    ∃ v, (Fnl.base i o T).call (n + 1) (.zero i' o') = .ok v ∧ v.shape ≠ o := by
  refine ⟨⟨[], fun _ => 0⟩, by rw [Fnl.call]; rfl, fun h => ho h.symm⟩

/-- C37, what holds (partial: functions without scaled parts): sums of any length are mapped summand by summand within two
calls and the result is the sum of the results. -/
theorem call_sum_partial (i o : Shapes) (T : Val X →ₗ[ℝ] Val X) (b : Bool) (f : JFn X) (hp : f.Plain) (hs : f.sh = i) (n : ℕ) :
    ∃ g, (Op.base i o T b).call (n + 2) f = .ok g ∧ g.sh = o ∧ g.eval = T f.eval ∧ g.Plain := by
  obtain ⟨g, g1, g2, -⟩ := callBase_total i o T n f hp hs
  obtain ⟨g3, g4⟩ := callBase_spec i o T (n + 2) f g g1
  exact ⟨g, by rw [Op.call]; exact g1, g3, g4, g2⟩

/-- C37, partial: functionals of sums. -/
theorem fcall_sum_partial (i : Shapes) (o : Shp) (T : Val X →ₗ[ℝ] (ℕ → ℝ)) (f : JFn X) (hp : f.Plain) (hb : f.Solid)
    (hs : f.sh = i) (n : ℕ) :
    ∃ v, (Fnl.base i o T).call (n + 2) f = .ok v ∧ v.shape = o ∧ ∀ p < o.prod, v.get p = T f.eval p := by
  obtain ⟨F, v, h1, h2, h3, h4⟩ := functional_application_total (.base i o T) i o ⟨rfl, rfl⟩ (by simp [LExpr.Rescales])
    trivial n f hp hb hs
  cases h1
  exact ⟨v, h2, h3, h4⟩

/-- A sum of a constant, a function and zero. -/
example (T : Val ℝ →ₗ[ℝ] (ℕ → ℝ)) (u : Val ℝ) : ∃ v, (Fnl.base ([], []) [2] T).call 2
    (.sum ([], []) [.const [] [] fun _ => 5, .zero [] [], .base ([], []) u]) = .ok v ∧ v.shape = [2] := by
  obtain ⟨v, h1, h2, -⟩ := fcall_sum_partial ([], []) [2] T (.sum ([], []) [.const [] [] fun _ => 5, .zero [] [], .base ([], []) u])
    (by simp [JFn.Plain, JFn.isLeaf, JFn.sh]) ⟨.base ([], []) u, by simp, trivial⟩ rfl 0
  exact ⟨v, h1, h2⟩

end LinPDE.Ops
