import Verif.Pde.Model
import Verif.GP.JetProps

/-!
# Solving boundary value problems

The scripts that combine the problem classes, the uniform grids of the domains and the conditioning of Gaussian
processes: `tests/linpde_gp/problems/test_heat.py`, `experiments/0000_poisson_dirichlet_1d.ipynb`,
`experiments/0001_poisson_dirichlet_2d.ipynb`, `experiments/0002_heat_1d.ipynb`.  A script computes a list of observations
and conditions the prior on one after the other.
-/

namespace LinPDE.Solve
open LinPDE.Domains LinPDE.Pde LinPDE.GP LinPDE.Block Matrix

/-- `pn.utils.as_shape(shape, ndim)`: a single size is repeated, another number of axes raises `TypeError`. -/
def asShape (ndim : ℕ) (shape : List ℕ) : Except Pde.Err (List ℕ) :=
  match shape with
  | [n] => .ok (List.replicate ndim n)
  | shape => if shape.length = ndim then .ok shape else .error .typeError

/-- `_box.py:81-114` (`Box.uniform_grid`) with a number as inset, which is broadcast to the dimensions that are not
collapsed. -/
noncomputable def boxUniform (bs : List (ℝ × ℝ)) (shape : List ℕ) (inset : ℝ) : Except Pde.Err (List (List ℝ)) := do
  let k := (bs.filter fun b => decide (b.1 ≠ b.2)).length
  let shape ← asShape k shape
  liftDom (boxGrid bs shape (List.replicate k inset))

/-- `uniform_grid(shape, inset)` (`_interval.py:73-83`, `_box.py:81-114`, `_cartesian_product.py:123-127`), the points in C
order; points have no grid. -/
noncomputable def uniformGrid : Dom → List ℕ → ℝ → Except Pde.Err (List (List ℝ))
  | .interval l u, shape, inset => match shape with
    | [n] => .ok ((intervalGrid l u n inset).map fun x => [x])
    | _ => .error .assertionError
  | .box bs, shape, inset => boxUniform bs shape inset
  | .prod fs, shape, inset => do
    match ← liftDom (asBox fs) with
    | some (.box bs) => boxUniform bs shape inset
    | _ => .error .valueError
  | _, _, _ => .error .attributeError

/-- A function evaluated at an array of points. -/
noncomputable def evalAt (f : Fn) (shape : Nd.Shp) (xs : List (List ℝ)) : Except Pde.Err (List ℝ) := do
  let ys ← xs.mapM fun x => f.call shape x
  .ok ys.flatten

/-- One call of `condition_on_observations(Y, X=X, L=L, b=b)`: the operator of the equation (`pde`) or the identity, the
points, the values, and the variance of independent noise (`test_heat.py:51-55`) or no noise. -/
structure Obs (d : ℕ) where
  pde : Bool
  X : List (Pt d)
  Y : List ℝ
  noise : Option ℝ

/-- A point from its coordinates. -/
def toPt (d : ℕ) (x : List ℝ) : Pt d := fun i => x.getD i 0

variable {d : ℕ} {I : Set (Ix d)} {K : Ix d → Pt d → Ix d → Pt d → ℝ}

/-- The operator of an observation as a combination of derivatives: the identity or the operator with coefficients `a`. -/
noncomputable def opOf (h : JetKernel I K) (a : I →₀ ℝ) (pde : Bool) : I →₀ ℝ :=
  if pde then a else Finsupp.single ⟨0, h.zero_mem⟩ 1

/-- The batch of measurements of an observation. -/
noncomputable def Obs.batch (h : JetKernel I K) (m : jetF I) (a : I →₀ ℝ) (o : Obs d) : Batch (h.prior m) where
  n := o.X.length
  L i := h.op m (opOf h a o.pde) (o.X.get i)
  noise := o.noise.map fun v => (0, v • 1)
  Y i := o.Y.getD i 0

/-- Conditioning on the observations one after the other. -/
noncomputable def solve (e : Env) (h : JetKernel I K) (m : jetF I) (a : I →₀ ℝ) (o : Obs d) (os : List (Obs d)) :
    Except Block.Err (Cond (h.prior m)) :=
  run e (o.batch h m a) (os.map (Obs.batch h m a))

/-- `test_heat.py:74-97`, `0002_heat_1d.ipynb`: initial values on a grid with an inset, boundary values (with noise in the
test), and the equation on a grid of the whole domain. -/
noncomputable def heatObs (p : IBVP) (nIc nBc : ℕ) (nPde : List ℕ) (inset : ℝ) (noise : Option ℝ) :
    Except Pde.Err (Obs 2 × List (Obs 2)) := do
  let (_, _, _, ini) ← p.times
  let xi ← uniformGrid ini [nIc] inset
  let yi ← evalAt p.initial.values [] (xi.map fun x => [x.getD 1 0])
  let bc ← p.bvp.bcs.mapM fun b => do
    let x ← uniformGrid b.boundary [nBc] 0
    let y ← evalAt b.values [2] x
    .ok (⟨false, x.map (toPt 2), y, noise⟩ : Obs 2)
  let xp ← uniformGrid p.bvp.pde.domain nPde 0
  let yp ← evalAt p.bvp.pde.rhs [2] xp
  .ok (⟨false, xi.map (toPt 2), yi, none⟩, bc ++ [⟨true, xp.map (toPt 2), yp, none⟩])

/-- `0001_poisson_dirichlet_2d.ipynb`: boundary values on a grid with an inset on every part of the boundary, and the
equation on a grid of the domain. The first observation is returned separately; without boundary conditions it is the
equation. -/
noncomputable def poissonObs (d : ℕ) (p : BVP) (nBc nPde : List ℕ) (inset : ℝ) : Except Pde.Err (List (Obs d)) := do
  let bc ← p.bcs.mapM fun b => do
    let x ← uniformGrid b.boundary nBc inset
    let y ← evalAt b.values [d] x
    .ok (⟨false, x.map (toPt d), y, none⟩ : Obs d)
  let xp ← uniformGrid p.pde.domain nPde 0
  let yp ← evalAt p.pde.rhs [d] xp
  .ok (bc ++ [⟨true, xp.map (toPt d), yp, none⟩])

/-- `0000_poisson_dirichlet_1d.ipynb`: the two boundary values (`get_1d_dirichlet_boundary_observations`) and the equation
on a grid with an inset. -/
noncomputable def poisson1Obs (p : BVP) (n : ℕ) (inset : ℝ) : Except Pde.Err (Obs 1 × Obs 1) := do
  let (xb, yb) ← boundaryObservations p.bcs
  let xp ← uniformGrid p.pde.domain [n] inset
  let yp ← evalAt p.pde.rhs [] xp
  .ok (⟨false, xb.map fun x => toPt 1 [x], yb.flatten, none⟩, ⟨true, xp.map (toPt 1), yp, none⟩)

end LinPDE.Solve
