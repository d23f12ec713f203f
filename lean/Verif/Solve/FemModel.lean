import Verif.Solve.Model
import Verif.GP.Projection

/-!
# Solving the Poisson equation with finite elements

The notebooks `experiments/0002_poisson_dirichlet_fem.ipynb` (cells 7-8, 15, 21-29, 38-40) and
`experiments/0002_poisson_dirichlet_gp_fem.ipynb` (cells 6, 10, 16-22, 28-49): the weak form of the equation with piecewise
linear test and trial functions, and Gaussian processes conditioned on boundary values and on the weak form of the
projected process.  The process is one of the priors of `GP/Integral.lean`.
-/

namespace LinPDE.Solve
open LinPDE.Domains LinPDE.Pde LinPDE.GP LinPDE.Block LinPDE.Fem LinPDE.Galerkin Matrix

/-- Exceptions of the problem classes and of the finite element classes. -/
inductive FErr
  | pde (e : Pde.Err)
  | fem (e : Fem.Err)
  deriving DecidableEq

/-- Lift a computation with bases. -/
def liftFem {α : Type} : Except Fem.Err α → Except FErr α
  | .ok a => .ok a
  | .error e => .error (.fem e)

/-- Differential operators as far as `weak_form` distinguishes them: the Laplacian on a domain of the given shape, the
other operators (derivatives, weighted and spatial Laplacians), and scalar multiples. -/
inductive WOp
  | laplacian (domain : Nd.Shp)
  | other
  | scaled (c : ℝ) (L : WOp)

/-- `L.weak_form(test_basis)(trial_basis)`: `diffops/_laplacian.py:86-100` (whatever the domain of the Laplacian),
`diffops/_laplacian.py:71-76, 121-124`, `_partial_derivative.py:62-65, 122-125, 147-150`, `_directional_derivative.py:58-61`,
`_derivative.py:26-29` (`NotImplementedError`), `_arithmetic.py:57-59` with `linfunctls/_arithmetic.py:40-42`. -/
noncomputable def WOp.weakForm : WOp → (test trial : Basis) → Except FErr (Matrix (Fin test.len) (Fin trial.len) ℝ)
  | .laplacian _, test, trial => liftFem (weakLaplacian test trial)
  | .other, _, _ => .error (.fem .notImplementedError)
  | .scaled c L, test, trial => do
    let A ← L.weakForm test trial
    .ok (c • A)

/-- `_poisson.py:24`: the operator of the Poisson equation. -/
def poissonWOp (α : ℝ) (d : Dom) : WOp := .scaled (-α) (.laplacian (shapeOf d))

/-- `projection(f)` (`projections/l2/_fem.py:59-92`) for a scalar function of one variable: constants have a closed form. -/
noncomputable def projFn (P : Proj) : Fn → Except FErr (Fin P.basis.len → ℝ)
  | .zero _ _ => .ok (projectConstant P.basis P.normalized 0)
  | .const _ _ v => .ok (projectConstant P.basis P.normalized (v.getD 0 0))
  | f =>
    if f.inS = [] then liftFem (projectFunction P.basis P.normalized fun x => (f.ev [x]).getD 0 0)
    else .error (.pde .valueError)

/-- The linear system of the notebooks: `trial_proj`, `test_proj`, `diffop_galerkin` and `rhs_galerkin`. -/
structure FemSystem where
  trial : Proj
  test : Proj
  A : Matrix (Fin test.basis.len) (Fin trial.basis.len) ℝ
  b : Fin test.basis.len → ℝ

/-- Cells 7-8: bases on `np.linspace(*domain, n + 2)`, their projections, weak form of the operator `op` of the equation
and projection of the right-hand side.  Only intervals can be unpacked into the two ends (a `Box` gives intervals or another
number of arguments). -/
noncomputable def femSystem (p : BVP) (op : WOp) (n : ℕ) : Except FErr FemSystem :=
  match p.pde.domain with
  | .interval l r => do
    let trial ← liftFem (mkBasis (linspace l r (n + 2)) false)
    let test ← liftFem (mkBasis (linspace l r (n + 2)) true)
    let A ← op.weakForm test trial
    let b ← projFn ⟨1, 1, test, false⟩ p.pde.rhs
    .ok ⟨⟨0, 0, trial, true⟩, ⟨1, 1, test, false⟩, A, b⟩
  | _ => .error (.pde .typeError)

/-- `np.eye(len(trial_basis))[[0, -1], :]` (cell 25). -/
def bcRows (P : Proj) : Matrix (Fin 2) (Fin P.basis.len) ℝ := fun i j =>
  if i = 0 then (if j.val = 0 then 1 else 0) else (if j.val + 1 = P.basis.len then 1 else 0)

/-- One call of `condition_on_observations`: values at points (`X=`), or a matrix times the coefficients of the projection
(`L=M @ trial_proj`). -/
inductive FObs (P : Proj)
  | points (X : List ℝ) (Y : Fin X.length → ℝ) (noise : Option ((Fin X.length → ℝ) × Matrix (Fin X.length) (Fin X.length) ℝ))
  | rows (n : ℕ) (M : Matrix (Fin n) (Fin P.basis.len) ℝ) (Y : Fin n → ℝ) (noise : Option ((Fin n → ℝ) × Matrix (Fin n) (Fin n) ℝ))

variable {k : ℝ → ℝ → ℝ} {P : Proj}

/-- The batch of measurements (`CompositeLinearFunctional`: the matrix is applied to the projection). -/
noncomputable def FObs.batch (hF : Nonempty (Feature k)) (m : lbF) : FObs P → Batch (lbPrior hF m)
  | .points X Y noise => ⟨X.length, fun i => evΛ (X.get i), noise, Y⟩
  | .rows n M Y noise => ⟨n, fun i => ∑ j, M i j • pcΛ P j, noise, Y⟩

/-- Conditioning on the observations one after the other. -/
noncomputable def femSolve (e : Env) (hF : Nonempty (Feature k)) (m : lbF) (o : FObs P) (os : List (FObs P)) :
    Except Block.Err (Cond (lbPrior hF m)) :=
  run e (o.batch hF m) (os.map (FObs.batch hF m))

/-- Boundary values as an array of scalars. -/
def bcPoints (P : Proj) (xb : List ℝ) (yb : List (List ℝ)) : FObs P := .points xb (fun i => (yb.flatten).getD i 0) none

/-- The weak form of the equation (cell 29, cell 22 of the other notebook). -/
def FemSystem.equation (S : FemSystem) : FObs S.trial := .rows _ S.A S.b none

/-- `0002_poisson_dirichlet_fem.ipynb`, cells 22-29: boundary values, boundary values of the projection, weak form. -/
def femObs (S : FemSystem) (xb : List ℝ) (yb : List (List ℝ)) : FObs S.trial × List (FObs S.trial) :=
  (bcPoints _ xb yb, [.rows 2 (bcRows S.trial) (fun i => (yb.flatten).getD i 0) none, S.equation])

/-- `0002_poisson_dirichlet_fem.ipynb`, cells 39-40, `0002_poisson_dirichlet_gp_fem.ipynb`, cells 17-22: boundary values and
weak form. -/
def gpFemObs (S : FemSystem) (xb : List ℝ) (yb : List (List ℝ)) : FObs S.trial × List (FObs S.trial) :=
  (bcPoints _ xb yb, [S.equation])

end LinPDE.Solve
