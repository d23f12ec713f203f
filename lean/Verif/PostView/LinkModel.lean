import Verif.PostView.Model
import Verif.GP.Spec

/-!
# A conditional process with its array views: model

`Verif.GP.Model` describes the numerical state of a conditional process (cross-covariances as functions, block Gram operator,
representer weights indexed by blocks), `Verif.PostView.Model` its mean and covariance functions on arrays (cross-covariance
objects, flat weights). Here both belong to one object and are updated by the same calls. Points of the vector-valued process are
pairs of a point and a flat output index.
-/

namespace LinPDE.PostView
open LinPDE.Nd LinPDE.XCov
open LinPDE.CovAlg hiding Err
open LinPDE.GP (Prior Batch Cond col)
open LinPDE.Block (Shape Env Op)
variable {X : Type}

/-- The entries of a block vector one block after the other: `np.concatenate` in `linops/_block.py:217-231` (`schur_update`)
and `:244-264` (`_solve`). -/
def flat : (s : Shape) → (s.Idx → ℝ) → List ℝ
  | .leaf n, f => List.ofFn (n := n) f
  | .node a b, f => flat a (fun i => f (.inl i)) ++ flat b fun j => f (.inr j)

/-- One call of `condition_on_observations`: the flattened observations and the object `kLa = L(prior.cov, argnum=1)`
(`_conditional.py:352`). -/
structure Obs (P : Prior (X × ℕ)) where
  batch : Batch P
  kLa : PV X

/-- `ConditionalGaussianProcess` (`_conditional.py:56-88`). -/
structure Post (P : Prior (X × ℕ)) where
  cond : Cond P
  kLas : Pred X

/-- Errors of the block operators as exceptions of the whole. -/
inductive PErr
  | block (e : Block.Err)
  | view (e : Err)

/-- Exceptions of block operators. -/
def liftB {α : Type} : Except Block.Err α → Except PErr α
  | .ok a => .ok a
  | .error e => .error (.block e)

/-- Exceptions of array views. -/
def liftV {α : Type} : Except Err α → Except PErr α
  | .ok a => .ok a
  | .error e => .error (.view e)

/-- `from_observations` (`_conditional.py:26-54`). -/
noncomputable def Post.start (e : Env) {P : Prior (X × ℕ)} (o : Obs P) : Except PErr (Post P) := do
  let c ← liftB (Cond.fromObservations e o.batch)
  let q ← liftV (mkPred [o.kLa])
  .ok ⟨c, q⟩

/-- `condition_on_observations` (`_conditional.py:253-294`): `kLas=self._kLas.append(kLa)`. -/
noncomputable def Post.step (e : Env) {P : Prior (X × ℕ)} (s : Post P) (o : Obs P) : Except PErr (Post P) := do
  let c ← liftB (s.cond.condition e o.batch)
  let q ← liftV (s.kLas.append o.kLa)
  .ok ⟨c, q⟩

/-- A whole history. -/
noncomputable def Post.run (e : Env) {P : Prior (X × ℕ)} (o : Obs P) (os : List (Obs P)) : Except PErr (Post P) := do
  let s ← Post.start e o
  os.foldlM (fun s o => s.step e o) s

/-- The mean function (`_conditional.py:79-83`, class `Mean`, lines 177-197) of a process with prior mean function `m`. -/
def Post.meanFn {P : Prior (X × ℕ)} (s : Post P) (m : MeanF X) : PMean X :=
  ⟨m, s.kLas, flat s.cond.s fun i => s.cond.w i ()⟩

/-- `gram.solve` on flat vectors. -/
noncomputable def Post.solveFlat (e : Env) {P : Prior (X × ℕ)} (s : Post P) : Except Err ((ℕ → ℝ) → ℕ → ℝ) :=
  match s.cond.gram.solve e (col fun _ => 0) with
  | .error _ => .error .valueError
  | .ok _ => .ok fun v j =>
    match s.cond.gram.solve e (col fun i => v (s.cond.s.pos i)) with
    | .ok y => (flat s.cond.s fun i => y i ()).getD j 0
    | .error _ => 0

/-- The covariance function (`_conditional.py:84-88`, class `CovarianceFunction`, lines 206-231) of a process with prior covariance
function `k`. -/
noncomputable def Post.covFn (e : Env) {P : Prior (X × ℕ)} (s : Post P) (k : K X) (traceable : Bool) : PCov X :=
  ⟨k, traceable, s.kLas, s.solveFlat e⟩

/-- `condition_on_observations(Y, X=xs, b=noise)` without a functional (`_conditional.py:330-340`: `_EvaluationFunctional`): the
observations are the outputs at the points, output axes first (`np.moveaxis`, lines 366-382), flattened in C order. -/
def evalObs {P : Prior (X × ℕ)} (hP : P.Regular) (k : K X) (outS : Shp) (xs : Pts X) (Y : Arr ℝ)
    (noise : Option ((Fin (outS ++ xs.batch).prod → ℝ) × Matrix (Fin (outS ++ xs.batch).prod) (Fin (outS ++ xs.batch).prod) ℝ)) : Obs P where
  batch :=
    { n := (outS ++ xs.batch).prod
      L := fun r => hP.ev (xs.pt ((unravel (outS ++ xs.batch) r).drop outS.length),
        ravel outS ((unravel (outS ++ xs.batch) r).take outS.length))
      noise := noise
      Y := fun r => Y.get ((unravel (outS ++ xs.batch) r).drop outS.length ++ (unravel (outS ++ xs.batch) r).take outS.length) }
  kLa := .point k ⟨false, (xs.inS, outS), xs⟩ false

end LinPDE.PostView
