import Verif.Coeff.Props

/-!
# Differential operators applied to functions

Model of `linfuncops/diffops/_lindiffop.py:103-152`, `_partial_derivative.py:54-58, 95-127`,
`_directional_derivative.py:41-56`, `_laplacian.py:53-69`, `diffops/_functions.py`, `linfuncops/_linfuncop.py:72-91` and
`functions/linfuncops/_registry.py`: which rule handles which function, and what is returned.

The functions are the library's (`JaxFunction`); the entries of a function with values in an array are smooth functions on
`ℝ^d`, numbered in C order.

Outside contracts: `jax.jvp` and `jax.hessian` differentiate; they and `jnp.vectorize` on a batch call the function with
tracers, and ProbNum's `Function.__call__` converts its argument by `np.asarray`, which a tracer refuses (`TypeError`), while
`JaxFunction.jax` does not; multiplying a plain Python function by a number raises `TypeError`; `jnp.diag` needs at most two
axes; iterating over a NumPy void scalar without fields is empty, so `SelectOutput` has output shape `()`.
-/

namespace LinPDE.DiffFn
open LinPDE.Nd LinPDE.Coeff LinPDE.Calc
open scoped ContDiff

/-- Exceptions. -/
inductive Err
  | assertionError
  | valueError
  | typeError
  | indexError
  | notImplemented
  | recursionError
deriving DecidableEq, Repr

/-- Where a function can be evaluated: everywhere (also on batches and inside JAX transformations), only at single points
outside JAX transformations, nowhere. -/
inductive Mode
  | all
  | single
  | never
deriving DecidableEq, Repr

/-- The weaker of two modes. -/
def Mode.min : Mode → Mode → Mode
  | .never, _ => .never
  | _, .never => .never
  | .single, _ => .single
  | _, .single => .single
  | .all, .all => .all

variable {d : ℕ}

/-- The constant function. -/
def constS (c : ℝ) : Smooth d := ⟨fun _ => c, by
  show ContDiff ℝ ∞ fun _ => c
  exact contDiff_const⟩

/-- Functions: one without special rules, `Constant`, `Zero`, a scalar `JaxLambdaFunction` made by an operator,
`StackedFunction` of scalar functions, `JaxScaledFunction`, `JaxSumFunction`. -/
inductive SF (d : ℕ)
  | fn (i o : Shp) (g : ℕ → Smooth d)
  | const (i o : Shp) (v : ℕ → ℝ)
  | zero (i o : Shp)
  | lam (i : Shp) (mode : Mode) (g : Smooth d)
  | stack (i : Shp) (fs : List (SF d))
  | scaled (f : SF d) (c : ℝ)
  | sum (i o : Shp) (fs : List (SF d))

/-- `(input_shape, output_shape)`. -/
def SF.sh : SF d → Shp × Shp
  | .fn i o _ => (i, o)
  | .const i o _ => (i, o)
  | .zero i o => (i, o)
  | .lam i _ _ => (i, [])
  | .stack i fs => (i, [fs.length])
  | .scaled f _ => f.sh
  | .sum i o _ => (i, o)

mutual
/-- Entry of the function. -/
noncomputable def SF.val : SF d → ℕ → Smooth d
  | .fn _ _ g => g
  | .const _ _ v => fun p => constS (v p)
  | .zero _ _ => fun _ => 0
  | .lam _ _ g => fun _ => g
  | .stack _ fs => fun p => (valAll fs).getD p (fun _ => 0) 0
  | .scaled f c => fun p => c • f.val p
  | .sum _ _ fs => fun p => ((valAll fs).map fun g => g p).sum
/-- Entries of all functions of a list. -/
noncomputable def valAll : List (SF d) → List (ℕ → Smooth d)
  | [] => []
  | f :: fs => f.val :: valAll fs
end

mutual
/-- Where the function can be evaluated: everywhere its parts can. -/
def SF.mode : SF d → Mode
  | .fn _ _ _ => .all
  | .const _ _ _ => .all
  | .zero _ _ => .all
  | .lam _ m _ => m
  | .stack _ fs => modeAll fs
  | .scaled f _ => f.mode
  | .sum _ _ fs => modeAll fs
/-- The weakest mode of a list. -/
def modeAll : List (SF d) → Mode
  | [] => .all
  | f :: fs => f.mode.min (modeAll fs)
end

/-- Evaluation of entry `p` at a point, alone or as part of a batch; the classes of the exceptions are not distinguished. -/
noncomputable def SF.eval (batch : Bool) (f : SF d) (p : ℕ) (x : Fin d → ℝ) : Except Err ℝ :=
  match f.mode, batch with
  | .all, _ => .ok ((f.val p).1 x)
  | .single, false => .ok ((f.val p).1 x)
  | _, _ => .error .typeError

/-! ## Arithmetic of functions -/

/-- `functions/_jax_arithmetic.py:77-87`. -/
def expand : List (SF d) → List (SF d)
  | [] => []
  | .sum _ _ gs :: fs => gs ++ expand fs
  | f :: fs => f :: expand fs

/-- `functions/_jax_arithmetic.py:52-61`. -/
def mkSum : List (SF d) → Except Err (SF d)
  | [] => .error .indexError
  | f :: fs => if (f :: fs).all fun g => g.sh == f.sh then .ok (.sum f.sh.1 f.sh.2 (expand (f :: fs))) else .error .assertionError

/-- `functions/_constant.py:63-69`. -/
def addZero (f : SF d) (i o : Shp) : Except Err (SF d) :=
  if i ≠ f.sh.1 then .error .assertionError else if o ≠ f.sh.2 then .error .assertionError else .ok f

/-- `functions/_constant.py:45-49`; the values have equal shapes (broadcasting is treated in `Op`). -/
noncomputable def constAdd (i s : Shp) (v : ℕ → ℝ) (i' t : Shp) (w : ℕ → ℝ) : Except Err (SF d) :=
  if i ≠ i' then .error .assertionError
  else if s ≠ t then .error .valueError
  else .ok (.const i s fun p => v p + w p)

/-- `+`: `functions/_jax.py:41-47`, `_constant.py:34-36, 45-49, 63-69`. -/
noncomputable def SF.add (f g : SF d) : Except Err (SF d) :=
  match f, g with
  | f, .zero i o => addZero f i o
  | .const i s v, .const i' t w => constAdd i s v i' t w
  | .zero i s, .const i' t w => constAdd i s (fun _ => 0) i' t w
  | f, g => mkSum [f, g]

/-- Scalar multiple: `functions/_jax.py:49-58`, `_jax_arithmetic.py:41-48`, `_constant.py:38-42, 56-60`. -/
noncomputable def SF.smul (c : ℝ) : SF d → SF d
  | .scaled f a => .scaled f (c * a)
  | .const i s v => .const i s fun p => c * v p
  | .zero i s => .zero i s
  | f => .scaled f c

/-- `functools.reduce(operator.add, (f(a) for a in as))`. -/
noncomputable def reduceG {α : Type} (f : α → Except Err (SF d)) : List α → Except Err (SF d)
  | [] => .error .typeError
  | a :: as => do
    let x ← f a
    as.foldlM (fun acc b => do
      let y ← f b
      acc.add y) x

/-- Evaluate a partial function on every element, stopping at the first exception. -/
def mapE {α β ε : Type} (f : α → Except ε β) : List α → Except ε (List β)
  | [] => .ok []
  | a :: as => do
    let b ← f a
    let bs ← mapE f as
    .ok (b :: bs)

/-! ## Operators -/

/-- The class of an operator: `PartialDerivative`, `_PartialDerivativeNoJax`, `DirectionalDerivative`, `WeightedLaplacian`,
its subclasses `Laplacian` and `SpatialLaplacian`, another `LinearDifferentialOperator`. -/
inductive Kind
  | pdv (m : MI)
  | noJax (m : MI)
  | directional (v : List ℝ)
  | weighted (w : List ℝ)
  | laplace (w : List ℝ)
  | general

/-- A differential operator with its coefficient table. -/
structure DOp where
  kind : Kind
  op : DiffOp

/-- `_PartialDerivativeNoJax(m)` (`_partial_derivative.py:113-127`). -/
noncomputable def noJaxOp (m : MI) : DOp := ⟨.noJax m, ⟨⟨[([], [(m, 1)])], m.shape, []⟩, m.shape, []⟩⟩

/-- `linfuncops/_linfuncop.py:72-91`: sums are mapped, a scaled function calls the operator on **itself**, `Zero` gives `Zero`
of the output shapes. -/
noncomputable def baseCall (self : SF d → Except Err (SF d)) (dom : Shp) : SF d → Except Err (SF d)
  | .sum _ _ fs => do
    let gs ← mapE self fs
    mkSum gs
  | .scaled f c => do
    let g ← self (.scaled f c)
    .ok (.scaled g c)
  | .zero _ _ => .ok (.zero dom [])
  | _ => .error .notImplemented

/-- `SelectOutput(shapes, output_index)` as used in `_lindiffop.py:90-92`: the index is a **tuple**, which
`functions/linfuncops/_registry.py:9-10` asserts it is not; other functions `_linfuncop.py:72-91`. -/
noncomputable def selectOut (dom : Shp) : ℕ → SF d → Except Err (SF d)
  | 0, _ => .error .recursionError
  | _ + 1, .stack _ _ => .error .assertionError
  | n + 1, f => baseCall (selectOut dom n) dom f

/-- The value of the loop over first-order factors, `_partial_derivative.py:95-110`. -/
noncomputable def jvpLoop (m : MI) (g : Smooth d) : Smooth d :=
  match factorizeFirstOrder m with
  | .ok fs => applyForward fs g
  | .error _ => g

/-- A JAX transformation of a function needs to trace it. -/
def Mode.derived : Mode → Mode
  | .all => .all
  | _ => .never

/-- `Σ v_i ∂_i g` (`_directional_derivative.py:44-56`). -/
noncomputable def jvpDir (v : List ℝ) (g : Smooth d) : Smooth d := ∑ i : Fin d, v.getD i.1 0 • pd i g

/-- `Σ w_i ∂_i² g` (`_laplacian.py:57-69`). -/
noncomputable def hessDiag (w : List ℝ) (g : Smooth d) : Smooth d := ∑ i : Fin d, w.getD i.1 0 • pd i (pd i g)

/-- One summand of `to_sum()` called on the plain function `f.jax` (`_lindiffop.py:55-77, 137-140`): `SelectOutput` has no rule
for it, a derivative of order zero returns it and it cannot be scaled. -/
noncomputable def rawSummand (f : SF d) (u : Summand) : Except Err (SF d) :=
  if u.out ≠ [] then .error .notImplemented
  else if u.mi.order = 0 then .error .typeError
  else .ok (SF.smul u.coef (.lam u.mi.shape f.mode.derived (jvpLoop u.mi (f.val 0))))

/-- `to_sum()` and its application to a callable. -/
noncomputable def applySum (summand : Summand → Except Err (SF d)) (L : DiffOp) : Except Err (SF d) :=
  match L.toSum with
  | .error _ => .error .indexError
  | .ok ss => reduceG (reduceG summand) ss

/-- The JAX fallback, `_lindiffop.py:111-123` with the `_jax_fallback` of the class.  A general operator wraps the sum of
`JaxLambdaFunction`s, an object that is then called inside `jnp.vectorize`. -/
noncomputable def fallback (L : DOp) (f : SF d) : Except Err (SF d) :=
  if f.sh.1 ≠ L.op.domShape then .error .valueError
  else if f.sh.2 ≠ L.op.codShape then .error .valueError
  else match L.kind with
    | .noJax _ => .error .notImplemented
    | .pdv m => .ok (.lam L.op.domShape f.mode.derived (jvpLoop m (f.val 0)))
    | .directional v => .ok (.lam L.op.domShape f.mode.derived (jvpDir v (f.val 0)))
    | .weighted w => .ok (.lam L.op.domShape (if L.op.domShape.length ≤ 1 then f.mode.derived else .never) (hessDiag w (f.val 0)))
    | .laplace w => .ok (.lam L.op.domShape (if L.op.domShape.length ≤ 1 then f.mode.derived else .never) (hessDiag w (f.val 0)))
    | .general => match applySum (rawSummand f) L.op with
      | .error e => .error e
      | .ok h => .ok (.lam L.op.domShape (if h.mode = .all then .single else .never) (h.val 0))

/-- Whether the class has a rule for `Constant` (`diffops/_functions.py:8-11`). -/
def Kind.constRule : Kind → Bool
  | .weighted _ => false
  | .general => false
  | _ => true

/-- The multi-index of a partial derivative. -/
def Kind.mi? : Kind → Option MI
  | .pdv m => some m
  | .noJax m => some m
  | _ => none

/-- `Constant` and its subclass `Zero`. -/
def SF.isConst : SF d → Bool
  | .const _ _ _ => true
  | .zero _ _ => true
  | _ => false

/-- `diffops/_functions.py:12-19`. -/
def constCall (L : DiffOp) (f : SF d) : Except Err (SF d) :=
  if f.sh.1 ≠ L.domShape then .error .assertionError
  else if f.sh.2 ≠ L.codShape then .error .assertionError
  else .ok (.zero L.domShape [])

/-- One summand of `_to_sum_no_jax()` applied to a function (`_lindiffop.py:79-101`). -/
noncomputable def noJaxSummand (call : DOp → SF d → Except Err (SF d)) (sel : SF d → Except Err (SF d)) (f : SF d) (u : Summand) :
    Except Err (SF d) := do
  let g ← if u.out ≠ [] then sel f else .ok f
  let h ← call (noJaxOp u.mi) g
  .ok (h.smul u.coef)

/-- `_call_no_jax` (`_lindiffop.py:125-135`); `call` is `__call__` with the remaining recursion depth. -/
noncomputable def callNoJax (call : DOp → SF d → Except Err (SF d)) (sel : SF d → Except Err (SF d)) (L : DOp) (f : SF d) :
    Except Err (SF d) :=
  match baseCall (call L) L.op.domShape f with
  | .error .notImplemented =>
    match L.kind.mi? with
    | some _ => .error .notImplemented
    | none => applySum (noJaxSummand call sel f) L.op
  | r => r

/-- `__call__`; the first argument is the recursion limit of the interpreter.  Rules for `Constant` first
(`diffops/_functions.py`), then derivatives of order zero (`_partial_derivative.py:55-57`), then `_lindiffop.py:103-123`. -/
noncomputable def call : ℕ → DOp → SF d → Except Err (SF d)
  | 0, _, _ => .error .recursionError
  | n + 1, L, f =>
    if L.kind.constRule && f.isConst then constCall L.op f
    else if L.kind.mi?.any fun m => m.order = 0 then .ok f
    else match callNoJax (call n) (selectOut L.op.domShape n) L f with
      | .error .notImplemented => fallback L f
      | r => r

/-- `HeatOperator.__call__` (`_heat.py:37-39`): a sum operator adds the results of its summands
(`linfuncops/_arithmetic.py:104-106`), a time derivative and a weighted Laplacian. -/
noncomputable def sumCall (n : ℕ) (Ls : List DOp) (f : SF d) : Except Err (SF d) := reduceG (fun L => call n L f) Ls

end LinPDE.DiffFn
