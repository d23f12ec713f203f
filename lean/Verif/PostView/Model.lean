import Verif.XCov.KLinopProps
import Verif.Func.Lemmas

/-!
# Posterior mean and covariance on arrays of points, and their JAX views

Model of `ConditionalGaussianProcess.PriorPredictiveCrossCovariance`, `.Mean` and `.CovarianceFunction`
(`randprocs/_gaussian_process/_conditional.py:113-251`) on arrays, and of the JAX views of cross-covariances inside JAX
transformations.

Outside contracts: inside `jax.jit`, `jax.jvp` and `jax.hessian` a function receives tracers; a tracer has a shape, JAX functions
accept it, and `np.asarray` refuses it with `TracerArrayConversionError`, a `TypeError`.  ProbNum's `CovarianceFunction.__call__`
and `Function.__call__` begin with `np.asarray`.  The values computed by a traced program are those of the program.
`np.reshape(a, s + (-1,))` raises `ValueError` when the axes `s` have no entries.
-/

namespace LinPDE.PostView
open LinPDE.Nd LinPDE.XCov
open LinPDE.CovAlg hiding Err
open LinPDE.Covar (smulArr)
open LinPDE.Func (bidx)

/-- The argument of a view: an array of points, or a tracer standing for one. -/
structure Arg (X : Type) where
  traced : Bool
  x : Pts X

variable {X : Type}

/-- `np.asarray`. -/
def npAsarray (a : Arg X) : Except Err (Pts X) := if a.traced then .error .typeError else .ok a.x

/-- `jax.jit(f)(a)`: the function is called with a tracer. -/
def jit {α : Type} (f : Arg X → Except Err α) (a : Arg X) : Except Err α := f ⟨true, a.x⟩

/-- Evaluation of a function made by a JAX fallback (`linfuncops/diffops/_lindiffop.py:111-123`,
`_partial_derivative.py:95-110`, `_directional_derivative.py:44-56`, `_laplacian.py:57-69`): the function is traced, then the
derivative `D` of its values is returned. -/
def transformed {α : Type} (D : Pts X → α) (f : Arg X → Except Err α) (a : Arg X) : Except Err α := do
  let _ ← jit f a
  .ok (D a.x)

/-! ## Cross-covariances -/

/-- `c(a)`: `crosscov/_pv_crosscov.py:60-86`. -/
noncomputable def npV (c : PV X) (a : Arg X) : Except Err (Arr ℝ) := do
  let x ← npAsarray a
  c.call x

mutual
/-- `c.jax(a)`: `crosscov/_pv_crosscov.py:92-117` with the `_evaluate_jax` of the class.  Point evaluations call the kernel itself,
not its JAX view (`linfunctls/_dirac.py:134, 264`, `_evaluation.py:136, 291`). -/
noncomputable def jaxV : PV X → Arg X → Except Err (Arr ℝ)
  | .base i o r rev ev, a => (PV.base i o r rev ev).checked a.x
      (.ok (layArr rev r a.x.batch o fun rr n p => ev (a.x.pt n) (ravel o p) (ravel r rr)))
  | .point k f rev, a => (PV.point k f rev).checked a.x (if k.sh.in1 ≠ k.sh.in0 then .error .valueError else do
      let x ← npAsarray a
      if rev then pointEval0 k f x else pointEval1 k f x)
  | .quad k o T rev, a => (PV.quad k o T rev).checked a.x (.error .notImplemented)
  | .scaled c s, a => (PV.scaled c s).checked a.x do
      let v ← jaxV c a
      .ok (smulArr s v)
  | .sum i o r rev cs, a => (PV.sum i o r rev cs).checked a.x do
      let vs ← jaxAllV cs a
      arrSum vs
  | .linop A c, a => (PV.linop A c).checked a.x (.error .notImplemented)
  | .stack i r rev s cs, a => (PV.stack i r rev s cs).checked a.x do
      let vs ← jaxAllV cs a
      stackEval true r rev s vs
  | .zero i o r rev, a => (PV.zero i o r rev : PV X).checked a.x (.ok (layArr rev r a.x.batch o fun _ _ _ => 0))
  | .param i C b n rev, a => (PV.param i C b n rev).checked a.x (.error .notImplemented)
/-- Every part. -/
noncomputable def jaxAllV : List (PV X) → Arg X → Except Err (List (Arr ℝ))
  | [], _ => .ok []
  | c :: cs, a => do
    let v ← jaxV c a
    let vs ← jaxAllV cs a
    .ok (v :: vs)
end

/-! ## Cross-covariance with all observations -/

/-- `PriorPredictiveCrossCovariance`. -/
structure Pred (X : Type) where
  parts : List (PV X)

/-- `_conditional.py:114-132`: an empty sequence has no `kLas[0]`. -/
def mkPred : List (PV X) → Except Err (Pred X)
  | [] => .error .indexError
  | c :: cs => if (c :: cs).all fun d => d.inS == c.inS && d.outS == c.outS && !d.rev then .ok ⟨c :: cs⟩ else .error .assertionError

/-- `_conditional.py:134-139` (`append`). -/
def Pred.append (q : Pred X) (c : PV X) : Except Err (Pred X) := mkPred (q.parts ++ [c])

/-- `randproc_input_shape`. -/
def Pred.inS (q : Pred X) : Shp := (q.parts.head?.map PV.inS).getD []

/-- `randproc_output_shape`. -/
def Pred.outS (q : Pred X) : Shp := (q.parts.head?.map PV.outS).getD []

/-- `randvar_size`, the number of observations. -/
def Pred.size (q : Pred X) : ℕ := (q.parts.map fun c => c.rv.prod).sum

/-- `np.reshape(a, s + (-1,), "C")`. -/
def reshapeLast (a : Arr ℝ) (s : Shp) : Except Err (Arr ℝ) :=
  if s.prod = 0 ∨ a.shape.prod % s.prod ≠ 0 then .error .valueError
  else match a.reshape (s ++ [a.shape.prod / s.prod]) with
    | some b => .ok b
    | none => .error .valueError

/-- Length of the last axis. -/
def lastAx (a : Arr ℝ) : ℕ := a.shape.getLastD 0

/-- `np.concatenate(as, axis=-1)`. -/
def concatLast : List (Arr ℝ) → Except Err (Arr ℝ)
  | [] => .error .valueError
  | [a] => .ok a
  | a :: b :: as => do
    let c ← concatLast (b :: as)
    if a.shape.dropLast ≠ c.shape.dropLast then .error .valueError
    else .ok ⟨a.shape.dropLast ++ [lastAx a + lastAx c], fun i =>
      if i.getLastD 0 < lastAx a then a.get i else c.get (i.dropLast ++ [i.getLastD 0 - lastAx a])⟩

/-- Apply a view to every part and reshape. -/
def reshapedAll (call : PV X → Except Err (Arr ℝ)) (s : Shp) : List (PV X) → Except Err (List (Arr ℝ))
  | [] => .ok []
  | c :: cs => do
    let v ← call c
    let w ← reshapeLast v s
    let ws ← reshapedAll call s cs
    .ok (w :: ws)

/-- `_conditional.py:141-153` (`_evaluate`) and 155-168 (`_evaluate_jax`); `call` is `kLa(x)`. -/
def Pred.evalWith (q : Pred X) (call : PV X → Except Err (Arr ℝ)) (x : Pts X) : Except Err (Arr ℝ) := do
  let ws ← reshapedAll call (x.batch ++ q.outS) q.parts
  concatLast ws

/-- The checks of `_pv_crosscov.py:60-86, 92-117`. -/
def Pred.checked (q : Pred X) (x : Pts X) (e : Except Err (Arr ℝ)) : Except Err (Arr ℝ) :=
  if x.inS ≠ q.inS then .error .valueError
  else do
    let v ← e
    if v.shape = x.batch ++ q.outS ++ [q.size] then .ok v else .error .assertionError

/-- `kLas(a)`. -/
noncomputable def Pred.np (q : Pred X) (a : Arg X) : Except Err (Arr ℝ) := do
  let x ← npAsarray a
  q.checked x (q.evalWith (fun c => npV c ⟨false, x⟩) x)

/-- `kLas.jax(a)`: the parts are called through their NumPy views (`_conditional.py:161`). -/
noncomputable def Pred.jax (q : Pred X) (a : Arg X) : Except Err (Arr ℝ) :=
  q.checked a.x (q.evalWith (fun c => npV c a) a.x)

/-- `BlockMatrix([ms])`, dense: matrices with equally many rows side by side. -/
def hcat (ms : List (Arr ℝ)) : Except Err (Arr ℝ) := concatLast ms

/-- The operator views of all parts. -/
noncomputable def linopParts (x : Pts X) : List (PV X) → Except Err (List (Arr ℝ))
  | [] => .ok []
  | c :: cs => do
    let m ← c.linopView x
    let ms ← linopParts x cs
    .ok (m :: ms)

/-- `kLas.evaluate_linop(x)`: `_conditional.py:170-171` in `_pv_crosscov.py:126-161`. -/
noncomputable def Pred.linop (q : Pred X) (x : Pts X) : Except Err (Arr ℝ) :=
  if x.inS ≠ q.inS then .error .valueError
  else match (do let ms ← linopParts x q.parts; hcat ms) with
    | .error .notImplemented => do
      let v ← q.np ⟨false, x⟩
      linopFallback false [q.size] x.batch q.outS v
    | r => r

/-! ## Mean -/

/-- A prior mean function: shapes, values, and whether its JAX view accepts tracers. -/
structure MeanF (X : Type) where
  inS : Shp
  outS : Shp
  val : X → ℕ → ℝ
  traceable : Bool

/-- `m(a)`. -/
def MeanF.np (m : MeanF X) (a : Arg X) : Except Err (Arr ℝ) := do
  let x ← npAsarray a
  if x.inS ≠ m.inS then .error .valueError
  else .ok ⟨x.batch ++ m.outS, fun i => m.val (x.pt (i.take x.batch.length)) (ravel m.outS (i.drop x.batch.length))⟩

/-- `m.jax(a)`. -/
def MeanF.jax (m : MeanF X) (a : Arg X) : Except Err (Arr ℝ) :=
  if a.x.inS ≠ m.inS then .error .valueError
  else if a.traced && !m.traceable then .error .typeError
  else .ok ⟨a.x.batch ++ m.outS, fun i => m.val (a.x.pt (i.take a.x.batch.length)) (ravel m.outS (i.drop a.x.batch.length))⟩

/-- `v @ w` for a vector `w`. -/
noncomputable def matVec (v : Arr ℝ) (w : List ℝ) : Except Err (Arr ℝ) :=
  if lastAx v = w.length then .ok ⟨v.shape.dropLast, fun i => ∑ j ∈ Finset.range w.length, v.get (i ++ [j]) * w.getD j 0⟩
  else .error .valueError

/-- `ConditionalGaussianProcess.Mean` (`_conditional.py:177-191`). -/
structure PMean (X : Type) where
  prior : MeanF X
  kLas : Pred X
  w : List ℝ

/-- The checks of `Function.__call__` and `JaxFunction.jax` (`functions/_jax.py:14-34`). -/
def PMean.checked (m : PMean X) (x : Pts X) (e : Except Err (Arr ℝ)) : Except Err (Arr ℝ) :=
  if x.inS ≠ m.prior.inS then .error .valueError
  else do
    let v ← e
    if v.shape = x.batch ++ m.prior.outS then .ok v else .error .assertionError

/-- `mean(a)`: `_conditional.py:193-197`. -/
noncomputable def PMean.np (m : PMean X) (a : Arg X) : Except Err (Arr ℝ) := do
  let x ← npAsarray a
  m.checked x do
    let mx ← m.prior.np ⟨false, x⟩
    let kx ← m.kLas.np ⟨false, x⟩
    let v ← matVec kx m.w
    matAdd mx v

/-- `mean.jax(a)`: `_conditional.py:199-204`; `_evaluate_jax` is compiled by `jax.jit`. -/
noncomputable def PMean.jax (m : PMean X) (a : Arg X) : Except Err (Arr ℝ) :=
  m.checked a.x (jit (fun t => do
    let mx ← m.prior.jax t
    let kx ← m.kLas.jax t
    let v ← matVec kx m.w
    matAdd mx v) a)

/-! ## Covariance function -/

/-- `ConditionalGaussianProcess.CovarianceFunction` (`_conditional.py:206-221`) of a process with scalar values; `traceable`:
whether the JAX view of the prior covariance function accepts tracers; `solve` is `gram.solve` on one vector, which raises
for all vectors or for none. -/
structure PCov (X : Type) where
  prior : K X
  traceable : Bool
  kLas : Pred X
  solve : Except Err ((ℕ → ℝ) → ℕ → ℝ)

/-- `cov_update` from the evaluated cross-covariances, of shapes `b0 + (n,)` and `b1 + (n,)`: `@` broadcasts the batch axes. -/
noncomputable def covUpdate (n : ℕ) (z : (ℕ → ℝ) → ℕ → ℝ) (b0 b1 : Shp) (u v : Arr ℝ) (i : List ℕ) : ℝ :=
  ∑ j ∈ Finset.range n, u.get (bidx b0 i ++ [j]) * z (fun l => v.get (bidx b1 i ++ [l])) j

/-- `cov(a0, a1)`: `_conditional.py:223-231`; `none` is `x1 = None`. The batch shapes are broadcast, by the prior covariance function first. -/
noncomputable def PCov.np (c : PCov X) (a0 : Arg X) (a1 : Option (Arg X)) : Except Err (Arr ℝ) := do
  let x0 ← npAsarray a0
  let x1 ← match a1 with
    | none => .ok x0
    | some a => npAsarray a
  if x0.inS ≠ c.prior.sh.in0 ∨ x1.inS ≠ c.prior.sh.in0 then .error .valueError
  else match Coeff.bcast x0.batch x1.batch with
  | none => .error .valueError
  | some b => do
    let kx := kCall c.prior b (fun i => x0.pt (bidx x0.batch i)) fun i => x1.pt (bidx x1.batch i)
    let u ← c.kLas.np ⟨false, x0⟩
    let v ← match a1 with
      | none => .ok u
      | some _ => c.kLas.np ⟨false, x1⟩
    let z ← c.solve
    .ok ⟨kx.shape, fun i => kx.get i - covUpdate c.kLas.size z x0.batch x1.batch u v i⟩

/-- `cov.jax(a0, a1)`: `_conditional.py:233-243` up to the second cross-covariance; what follows is in `Verif.GP.CovPaths`. -/
noncomputable def PCov.jax {α : Type} (c : PCov X) (rest : Arr ℝ → Arr ℝ → Except Err α) (a0 : Arg X) (a1 : Option (Arg X)) : Except Err α :=
  if a0.x.inS ≠ c.prior.sh.in0 ∨ (a1.any fun a => a.x.inS ≠ c.prior.sh.in0) then .error .valueError
  else jit (fun t => do
    let _ ← if c.traceable then .ok () else .error .typeError
    let u ← c.kLas.jax t
    let v ← match a1 with
      | none => .ok u
      | some a => c.kLas.jax ⟨true, a.x⟩
    rest u v) a0

end LinPDE.PostView
