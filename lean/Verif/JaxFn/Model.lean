import Verif.Pde.Model

/-!
# JAX views of the concrete functions, and differential operators applied to them

Model of `functions/_jax.py:14-34`, of the `_evaluate_jax` of `functions/_polynomial.py`, `_piecewise.py`, `_fourier.py` and
`problems/pde/_poisson.py`, of functions without a JAX view (`problems/pde/_heat.py:97-145`, `functions/_truncated_gmm.py`), and
of the operators of `linfuncops/diffops/` applied to them.

What JAX records of a function is a program.  Outside contracts: `jax.jvp` differentiates a program by the rules of calculus for
each operation, and a selection by differentiating the selected branch; the diagonal of `jax.hessian` is the second derivative
along each coordinate; `jnp.piecewise` selects the last branch whose condition holds, zero if there is none, and converts the
result to the dtype of its argument; `jnp.full_like` converts the value to the dtype of its first argument; `*` and `+` of JAX
arrays promote integers to floats; a tracer is refused by
`np.asarray` with `TypeError`, and `probnum.functions.Function.__call__` begins with `np.asarray`.
-/

namespace LinPDE.JaxFn
open LinPDE.Nd
open LinPDE.Polys (Poly truncTo)
open LinPDE.Piecewise (PW Piece)
open LinPDE.Pde (ConstSol frequencies sineEval heatEval)

/-- Exceptions. -/
inductive Err
  | typeError
  | valueError
  | attributeError
  | assertionError
  | indexError
  deriving DecidableEq

/-- Programs of `d` real variables. -/
inductive Prog (d : ℕ)
  | var (i : Fin d)
  | const (c : ℝ)
  | add (p q : Prog d)
  | mul (p q : Prog d)
  | pow (p : Prog d) (n : ℕ)
  | sin (p : Prog d)
  | cos (p : Prog d)
  | exp (p : Prog d)
  | sel (c : Set (Fin d → ℝ)) (p q : Prog d)

variable {d : ℕ}

/-- `p - q`. -/
def Prog.sub (p q : Prog d) : Prog d := .add p (.mul (.const (-1)) q)

open Classical in
/-- The value of a program. -/
noncomputable def Prog.eval : Prog d → (Fin d → ℝ) → ℝ
  | .var i, x => x i
  | .const c, _ => c
  | .add p q, x => p.eval x + q.eval x
  | .mul p q, x => p.eval x * q.eval x
  | .pow p n, x => p.eval x ^ n
  | .sin p, x => Real.sin (p.eval x)
  | .cos p, x => Real.cos (p.eval x)
  | .exp p, x => Real.exp (p.eval x)
  | .sel c p q, x => if x ∈ c then p.eval x else q.eval x

/-- `jax.jvp(p, (x,), (v,))[1]` as a program of `x`. -/
def Prog.jvp (v : Fin d → ℝ) : Prog d → Prog d
  | .var i => .const (v i)
  | .const _ => .const 0
  | .add p q => .add (p.jvp v) (q.jvp v)
  | .mul p q => .add (.mul (p.jvp v) q) (.mul p (q.jvp v))
  | .pow p n => .mul (.mul (.const n) (.pow p (n - 1))) (p.jvp v)
  | .sin p => .mul (.cos p) (p.jvp v)
  | .cos p => .mul (.mul (.const (-1)) (.sin p)) (p.jvp v)
  | .exp p => .mul (.exp p) (p.jvp v)
  | .sel c p q => .sel c (p.jvp v) (q.jvp v)

/-- Unit vector. -/
def unit (i : Fin d) : Fin d → ℝ := Pi.single i 1

/-- `jnp.sum` of programs. -/
def sumProg : List (Prog d) → Prog d
  | [] => .const 0
  | p :: ps => .add p (sumProg ps)

/-! ## Functions -/

/-- The JAX view: none (not a `JaxFunction`), or a program, or an exception raised whenever it is called. -/
inductive View (d : ℕ)
  | plain
  | jax (e : Except Err (Prog d))

/-- A function: shapes, NumPy values at points stored as floats, JAX view. -/
structure JFn (d : ℕ) where
  inS : Shp
  outS : Shp
  np : (Fin d → ℝ) → Except Err ℝ
  view : View d

/-- `f.jax(x)` at one point (`functions/_jax.py:14-34`). -/
noncomputable def JFn.jax (f : JFn d) (x : Fin d → ℝ) : Except Err ℝ :=
  match f.view with
  | .plain => .error .attributeError
  | .jax (.ok p) => .ok (p.eval x)
  | .jax (.error e) => .error e

/-- `x ** degree` (`_polynomial.py:31-35`, `Monomial`). -/
def monomial (n : ℕ) : JFn 1 := ⟨[], [], fun x => .ok (x 0 ^ n), .jax (.ok (.pow (.var 0) n))⟩

/-- `_polynomial.py:70-77` (`Polynomial._evaluate_jax`). -/
def polyProg (p : Poly ℝ) : Prog 1 :=
  p.coeffs.dropLast.reverse.foldl (fun res c => .add (.mul res (.var 0)) (.const c)) (.const (p.coeffs.getLast p.ne))

/-- A `Polynomial`. -/
def poly (p : Poly ℝ) : JFn 1 := ⟨[], [], fun x => .ok (p.eval (x 0)), .jax (.ok (polyProg p))⟩

/-- `_fourier.py:57-63` (`TruncatedSineSeries._evaluate_jax`). -/
noncomputable def sineProg (l r : ℝ) (cs : List ℝ) : Prog 1 :=
  sumProg (List.zipWith (fun c w => .mul (.const c) (.sin (.mul (.const w) ((Prog.var 0).sub (.const l))))) cs
    (frequencies l r cs.length))

/-- A `TruncatedSineSeries`. -/
noncomputable def sine (l r : ℝ) (cs : List ℝ) : JFn 1 :=
  ⟨[], [], fun x => .ok (sineEval l r cs (x 0)), .jax (.ok (sineProg l r cs))⟩

/-- `_poisson.py:129-133` (`_evaluate_jax` of the solution for constant right-hand sides). -/
def constSolProg (s : ConstSol) : Prog 1 :=
  .add (.mul (.add (.mul (.const (s.a.getD 2 0)) ((Prog.var 0).sub (.const s.r))) (.const (s.a.getD 1 0)))
    ((Prog.var 0).sub (.const s.l))) (.const (s.a.getD 0 0))

/-- `Solution_PoissonEquation_DirichletProblem_1D_RHSConstant`. -/
noncomputable def constSol (s : ConstSol) : JFn 1 := ⟨[], [], fun x => .ok (s.eval (x 0)), .jax (.ok (constSolProg s))⟩

/-- A piece of a piecewise function: a `Polynomial`, a `Constant`, another `JaxFunction`, a function without a JAX view. -/
inductive JPiece
  | poly (p : Poly ℝ)
  | const (c : ℝ)
  | prog (p : Prog 1)
  | plain (f : ℝ → ℝ)

/-- The piece as NumPy evaluates it. -/
noncomputable def JPiece.np : JPiece → Piece
  | .poly p => .poly p
  | .const c => .const c
  | .prog p => .fn fun x => p.eval fun _ => x
  | .plain f => .fn f

/-- `fn.jax` (`_piecewise.py:76`): an attribute that a function without a JAX view does not have. -/
def JPiece.jax : JPiece → Except Err (Prog 1)
  | .poly p => .ok (polyProg p)
  | .const c => .ok (.const c)
  | .prog p => .ok p
  | .plain _ => .error .attributeError

/-- A `Piecewise`, `PiecewiseLinear` or `PiecewiseConstant`. -/
structure JPW where
  kind : LinPDE.Piecewise.Kind
  xs : List ℝ
  fns : List JPiece

/-- The function as NumPy evaluates it. -/
noncomputable def JPW.np (f : JPW) : PW := ⟨f.kind, f.xs, f.fns.map JPiece.np⟩

/-- The condition of piece `i` (`_piecewise.py:70-75`, `:176-178`). -/
def JPW.cond (f : JPW) (i : ℕ) : Set (Fin 1 → ℝ) :=
  let X := fun i => f.xs.getD i 0
  {x | match f.kind with
    | .constant => X i < x 0 ∧ x 0 ≤ X (i + 1)
    | _ => if i = 0 then X 0 ≤ x 0 ∧ x 0 ≤ X 1 else X i < x 0 ∧ x 0 ≤ X (i + 1)}

/-- `jnp.piecewise`: the last branch whose condition holds, otherwise zero. -/
def selectLast (bs : List (Set (Fin d → ℝ) × Prog d)) : Prog d := bs.foldl (fun y b => .sel b.1 b.2 y) (.const 0)

/-- All programs of the pieces, or the first exception. -/
def allJax : List JPiece → Except Err (List (Prog 1))
  | [] => .ok []
  | p :: ps => do
    let q ← p.jax
    let qs ← allJax ps
    .ok (q :: qs)

/-- `_piecewise.py:66-77` (`Piecewise._evaluate_jax`) and `:172-180` (`PiecewiseConstant._evaluate_jax`, where the branches are
numbers). -/
noncomputable def JPW.prog (f : JPW) : Except Err (Prog 1) := do
  if f.kind ≠ .constant ∧ f.xs.length < 2 then .error .indexError
  else do
    let ps ← allJax f.fns
    .ok (selectLast (ps.mapIdx fun i p => (f.cond i, p)))

/-- A piecewise function. -/
noncomputable def piecewise (f : JPW) : JFn 1 :=
  ⟨[], [], fun x => match f.np.evaluate (x 0) with
    | .ok y => .ok y
    | .error _ => .error .indexError, .jax f.prog⟩

/-- The pieces of a solution (`_poisson.py:203-217`): polynomials; other functions are taken to have no JAX view. -/
noncomputable def ofPW (u : PW) : JPW := ⟨u.kind, u.xs, u.fns.map fun
  | .poly p => .poly p
  | .const c => .const c
  | .fn f => .plain f⟩

/-- `_heat.py:97-145`: a `probnum` function; the method `_jax_evaluate` (`:134-145`) is used by no one. -/
noncomputable def heatSol (t0 l r : ℝ) (cs : List ℝ) (alpha : ℝ) : JFn 2 :=
  ⟨[2], [], fun x => .ok (heatEval t0 l r cs alpha (x 0) (x 1)), .plain⟩

/-- What `_jax_evaluate` (`_heat.py:134-145`) would compute. -/
noncomputable def heatProg (t0 l r : ℝ) (cs : List ℝ) (alpha : ℝ) : Prog 2 :=
  sumProg (List.zipWith (fun c w => .mul (.mul (.const c) (.sin (.mul (.const w) ((Prog.var 1).sub (.const l)))))
    (.exp (.mul (.const (alpha * w ^ 2)) ((Prog.const t0).sub (.var 0))))) cs (frequencies l r cs.length))

/-! ## Operators -/

/-- Differential operators: `PartialDerivative` of positive order, `DirectionalDerivative`, `WeightedLaplacian` and its
subclasses, a scaled operator, the sum of two (`HeatOperator`). -/
inductive Op (d : ℕ)
  | deriv (m : Fin d → ℕ)
  | dir (v : Fin d → ℝ)
  | lap (w : Fin d → ℝ)
  | scaled (c : ℝ) (L : Op d)
  | sum (L M : Op d)

/-- The first-order factors of a partial derivative, in the order of the entries (`_partial_derivative.py:72-80`). -/
def factors (m : Fin d → ℕ) : List (Fin d) := (List.finRange d).flatMap fun i => List.replicate (m i) i

/-- `_partial_derivative.py:95-110` (`_jax_fallback`). -/
def derivProg (m : Fin d → ℕ) (p : Prog d) : Prog d := (factors m).foldl (fun df i => df.jvp (unit i)) p

/-- `_laplacian.py:57-69` (`_jax_fallback`). -/
def lapProg (w : Fin d → ℝ) (p : Prog d) : Prog d :=
  sumProg ((List.finRange d).map fun i => .mul (.const (w i)) ((p.jvp (unit i)).jvp (unit i)))

/-- A function made by a JAX fallback (`functions/_jax.py:60-89`): both views run the program. -/
noncomputable def lambdaFn (shape : Shp) (e : Except Err (Prog d)) : JFn d :=
  ⟨shape, [], fun x => match e with
    | .ok p => .ok (p.eval x)
    | .error e => .error e, .jax e⟩

/-- `_lindiffop.py:111-130`: the JAX fallback.  A function without a JAX view is called as it is and meets a tracer; its shapes
are not checked. -/
noncomputable def fallback (shape : Shp) (D : Prog d → Prog d) (f : JFn d) : Except Err (JFn d) :=
  match f.view with
  | .jax e =>
    if f.inS ≠ shape then .error .valueError
    else if f.outS ≠ [] then .error .valueError
    else .ok (lambdaFn shape (e.map D))
  | .plain => .ok (lambdaFn shape (.error .typeError))

/-- `functions/_jax_arithmetic.py:14-39` (`JaxScaledFunction`). -/
noncomputable def scaleFn (c : ℝ) (f : JFn d) : JFn d :=
  ⟨f.inS, f.outS, fun x => (f.np x).map (c * ·), match f.view with
    | .plain => .plain
    | .jax e => .jax (e.map fun p => .mul (.const c) p)⟩

/-- The sum of two programs, or the first exception. -/
def addViews (e e' : Except Err (Prog d)) : Except Err (Prog d) := do
  let p ← e
  let q ← e'
  .ok (.add p q)

/-- `functions/_jax_arithmetic.py:51-75` (`JaxSumFunction`), for two functions with JAX views. -/
noncomputable def addFn (f g : JFn d) : Except Err (JFn d) :=
  if g.inS ≠ f.inS then .error .assertionError
  else if g.outS ≠ f.outS then .error .assertionError
  else match f.view, g.view with
    | .jax e, .jax e' => .ok ⟨f.inS, f.outS, fun x => do
        let a ← f.np x
        let b ← g.np x
        .ok (a + b), .jax (addViews e e')⟩
    | _, _ => .error .typeError

/-- `L(f)` for a function without rules of its own (`_lindiffop.py:103-130`, `diffops/_arithmetic.py:34-36`,
`linfuncops/_arithmetic.py:104-108`). `shape` is the `input_domain_shape` of the operator. -/
noncomputable def Op.call (shape : Shp) : Op d → JFn d → Except Err (JFn d)
  | .deriv m, f => fallback shape (derivProg m) f
  | .dir v, f => fallback shape (Prog.jvp v) f
  | .lap w, f => fallback shape (lapProg w) f
  | .scaled c L, f => do
    let g ← L.call shape f
    .ok (scaleFn c g)
  | .sum L M, f => do
    let g ← L.call shape f
    let h ← M.call shape f
    addFn g h

/-- `PoissonEquation(…).diffop` on an interval (`_poisson.py:25`). -/
def poissonOp (alpha : ℝ) : Op 1 := .scaled (-alpha) (.lap fun _ => 1)

/-- `HeatEquation(…).diffop` for an interval in space (`_heat.py:28`, `diffops/_heat.py:14-31`). -/
def heatOp (alpha : ℝ) : Op 2 := .sum (.deriv ![1, 0]) (.lap ![0, -alpha])

/-! ## Points stored as integers -/

/-- `_polynomial.py:70-77` at an integer: only the leading coefficient is converted. -/
noncomputable def polyJaxInt (p : Poly ℝ) (x : ℤ) : ℝ :=
  p.coeffs.dropLast.reverse.foldl (fun res c => res * x + c) (truncTo (p.coeffs.getLast p.ne) : ℝ)

/-- A piece at an integer. -/
noncomputable def JPiece.jaxInt (x : ℤ) : JPiece → Except Err ℝ
  | .poly p => .ok (polyJaxInt p x)
  | .const c => .ok c
  | .prog p => .ok (p.eval fun _ => x)
  | .plain _ => .error .attributeError

open Classical in
/-- `_piecewise.py:66-77, 172-180` at an integer: the result is converted to integers. -/
noncomputable def JPW.jaxInt (f : JPW) (x : ℤ) : Except Err ℤ :=
  if f.kind ≠ .constant ∧ f.xs.length < 2 then .error .indexError
  else do
    let _ ← allJax f.fns
    (f.fns.mapIdx fun i p => (f.cond i, p)).foldlM (fun y b => if (fun _ => (x : ℝ)) ∈ b.1 then do
      let v ← b.2.jaxInt x
      .ok (truncTo v) else .ok y) 0

end LinPDE.JaxFn
