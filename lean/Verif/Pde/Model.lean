import Verif.Domain.Model
import Verif.Piecewise.Model
import Verif.Nd.Basic
import Mathlib.Analysis.SpecialFunctions.Trigonometric.Basic
import Mathlib.Analysis.SpecialFunctions.Exp

/-!
# Model of `problems/pde/` and of `functions/_fourier.py`

`_linear_pde.py`, `_bvp.py`, `_poisson.py`, `_heat.py`.  Scalars are real numbers.  A function is given by its shapes
and by its values in C order on points in C order.  Differential operators enter the constructors only through their
shapes.  A final time `T = inf` is not represented: `T` only becomes the upper bound of the temporal domain.
-/

namespace LinPDE.Pde
open LinPDE.Domains LinPDE.Nd
open LinPDE.Polys (Poly)
open LinPDE.Piecewise (PW Piece mkPW)

/-- Exceptions. -/
inductive Err
  | typeError
  | valueError
  | attributeError
  | indexError
  | assertionError
  | zeroDivisionError
  deriving DecidableEq

/-- Exceptions raised by the domain classes. -/
def ofDomErr : LinPDE.Domains.Err → Err
  | .valueError => .valueError
  | .typeError => .typeError
  | .indexError => .indexError
  | _ => .valueError

/-- Lift a computation on domains. -/
def liftDom {α : Type} : Except LinPDE.Domains.Err α → Except Err α
  | .ok a => .ok a
  | .error e => .error (ofDomErr e)

/-- `domain.shape`. -/
def shapeOf (d : Dom) : Shp := if d.ndims = 0 then [] else [d.size]

/-! ## Functions -/

/-- Functions handed to the problem classes: `functions.Zero`, other `functions.Constant`s, `TruncatedSineSeries`,
anything else. -/
inductive Fn
  | zero (inS outS : Shp)
  | const (inS outS : Shp) (value : List ℝ)
  | sine (l r : ℝ) (coeffs : List ℝ)
  | other (inS outS : Shp) (ev : List ℝ → List ℝ)

/-- `input_shape` (`_fourier.py:24`: the shape `()` of the interval). -/
def Fn.inS : Fn → Shp
  | .zero i _ => i
  | .const i _ _ => i
  | .sine _ _ _ => []
  | .other i _ _ => i

/-- `output_shape`. -/
def Fn.outS : Fn → Shp
  | .zero _ o => o
  | .const _ o _ => o
  | .sine _ _ _ => []
  | .other _ o _ => o

/-- `_fourier.py:44-47` (`half_angular_frequencies`). -/
noncomputable def frequencies (l r : ℝ) (n : ℕ) : List ℝ :=
  (List.range n).map fun k => Real.pi * ((k + 1 : ℕ) : ℝ) / (r - l)

/-- `_fourier.py:49-56` (`TruncatedSineSeries._evaluate`) at one point. -/
noncomputable def sineEval (l r : ℝ) (cs : List ℝ) (x : ℝ) : ℝ :=
  (List.zipWith (fun c w => c * Real.sin (w * (x - l))) cs (frequencies l r cs.length)).sum

/-- `_fourier.py:11-30` (`TruncatedSineSeries.__init__`). -/
noncomputable def mkSine (domain : DomainLike) (shape : Shp) (data : List ℝ) : Except Err Fn :=
  match asdomain domain with
  | .error e => .error (ofDomErr e)
  | .ok (.interval l r) => if shape.length ≠ 1 then .error .valueError else .ok (.sine l r data)
  | .ok _ => .error .typeError

/-- Values of a function (`_constant.py:22-26` for constants). -/
noncomputable def Fn.ev : Fn → List ℝ → List ℝ
  | .zero _ o, _ => List.replicate o.prod 0
  | .const _ _ v, _ => v
  | .sine l r cs, x => [sineEval l r cs (x.getD 0 0)]
  | .other _ _ f, x => f x

/-- Calling a function on an array: `probnum` rejects arrays whose shape does not end in `input_shape`. -/
noncomputable def Fn.call (f : Fn) (shape : Shp) (x : List ℝ) : Except Err (List ℝ) :=
  if shape = f.inS then .ok (f.ev x) else .error .valueError

/-- Shapes of a linear function operator. -/
structure OpShapes where
  inDom : Shp
  inCod : Shp
  outDom : Shp
  outCod : Shp

/-! ## `_linear_pde.py` -/

/-- A `LinearPDE`. -/
structure PDE where
  domain : Dom
  op : OpShapes
  rhs : Fn

/-- `_linear_pde.py:8-49` (`LinearPDE.__init__`). -/
noncomputable def mkPDE (domain : DomainLike) (op : OpShapes) (rhs : Option Fn) : Except Err PDE := do
  let d ← liftDom (asdomain domain)
  if op.inDom ≠ shapeOf d then .error .valueError
  else if op.inDom ≠ op.outDom then .error .assertionError
  else
    let rhs := rhs.getD (.zero (shapeOf d) op.outCod)
    if rhs.inS ≠ shapeOf d then .error .valueError
    else if rhs.outS ≠ op.outCod then .error .valueError
    else .ok ⟨d, op, rhs⟩

/-! ## `_bvp.py` -/

/-- The `values` argument of a boundary condition: a function or an array. -/
inductive Values
  | fn (f : Fn)
  | array (shape : Shp) (data : List ℝ)

/-- Shape of the values at one point (`_bvp.py:64-66`). -/
def Values.outS : Values → Shp
  | .fn f => f.outS
  | .array s _ => s

/-- A `BoundaryCondition`. -/
structure BC where
  boundary : Dom
  op : OpShapes
  values : Fn

/-- `_bvp.py:16-42` (`BoundaryCondition.__init__`). -/
noncomputable def mkBC (boundary : DomainLike) (op : OpShapes) (values : Values) : Except Err BC := do
  let d ← liftDom (asdomain boundary)
  if op.inDom ≠ shapeOf d then .error .valueError
  else
    let f := match values with
      | .fn f => f
      | .array s v => .const op.outDom s v
    if f.inS ≠ op.outDom then .error .valueError
    else if f.outS ≠ op.outCod then .error .valueError
    else .ok ⟨d, op, f⟩

/-- `_bvp.py:57-71` (`DirichletBoundaryCondition.__init__`): `boundary.shape` is read before the conversion to a domain,
so that pairs of bounds raise `AttributeError`. -/
noncomputable def mkDirichlet (boundary : DomainLike) (values : Values) : Except Err BC :=
  match boundary with
  | .dom d => mkBC (.dom d) ⟨shapeOf d, values.outS, shapeOf d, values.outS⟩ values
  | _ => .error .attributeError

/-- `float(point)` (`_point.py:38-42`): arrays with more or fewer than one entry raise `TypeError`. -/
def floatPoint : Dom → Except Err ℝ
  | .point0 x => .ok x
  | .point1 [x] => .ok x
  | _ => .error .typeError

/-- `isinstance(d, Point)`. -/
def isPoint : Dom → Bool
  | .point0 _ => true
  | .point1 _ => true
  | _ => false

/-- `np.asarray` of the list of values (`_bvp.py:83`): arrays of different shapes do not stack. -/
def stackRows (rows : List (Shp × List ℝ)) : Except Err (List (List ℝ)) :=
  if rows.all fun r => r.1 == (rows.headD ([], [])).1 then .ok (rows.map Prod.snd) else .error .valueError

/-- `_bvp.py:74-85` (`get_1d_dirichlet_boundary_observations`). -/
noncomputable def boundaryObservations (bcs : List BC) : Except Err (List ℝ × List (List ℝ)) :=
  if bcs.length ≠ 2 ∨ ¬(bcs.all fun bc => isPoint bc.boundary) then .error .valueError
  else do
    let xs ← bcs.mapM fun bc => floatPoint bc.boundary
    let ys ← (bcs.zip xs).mapM fun p => do
      let y ← p.1.values.call [] [p.2]
      .ok (p.1.values.outS, y)
    let ys ← stackRows ys
    .ok (xs, ys)

/-- A `BoundaryValueProblem`. -/
structure BVP where
  pde : PDE
  bcs : List BC
  solution : Option Fn

/-- `_bvp.py:98-118` (`BoundaryValueProblem.__post_init__`). -/
def mkBVP (pde : PDE) (bcs : List BC) (solution : Option Fn) : Except Err BVP :=
  if bcs.any fun bc => shapeOf bc.boundary != shapeOf pde.domain then .error .valueError
  else match solution with
    | none => .ok ⟨pde, bcs, none⟩
    | some s =>
      if s.inS ≠ shapeOf pde.domain then .error .valueError
      else if s.outS ≠ pde.op.inCod then .error .valueError
      else .ok ⟨pde, bcs, some s⟩

/-- `isinstance(d, CartesianProduct)` (a `Box` is one) and its factors. -/
noncomputable def prodFactors : Dom → Option (List Dom)
  | .prod fs => some fs
  | .box bs => some (bs.map boxFactor)
  | _ => none

/-- An `InitialBoundaryValueProblem`. -/
structure IBVP where
  bvp : BVP
  initial : BC

/-- `_bvp.py:121-148` (`InitialBoundaryValueProblem.__init__`). -/
noncomputable def mkIBVP (pde : PDE) (initial : BC) (bcs : List BC) (solution : Option Fn) : Except Err IBVP :=
  match prodFactors pde.domain with
  | some [.interval _ _, spatial] => do
    let same ← liftDom (initial.boundary.eq spatial)
    if !same then .error .valueError
    else
      let b ← mkBVP pde bcs solution
      .ok ⟨b, initial⟩
  | _ => .error .valueError

/-- `_bvp.py:150-174`: `(t0, T)`, `spatial_domain`, and `initial_domain`, the product of the point `t0` and the spatial
domain. -/
noncomputable def IBVP.times (p : IBVP) : Except Err (ℝ × ℝ × Dom × Dom) :=
  match prodFactors p.bvp.pde.domain with
  | some (.interval t0 T :: spatial :: _) => do
    let i ← liftDom (mkProd [.dom (.point0 t0), .dom spatial])
    .ok (t0, T, spatial, i)
  | _ => .error .indexError

/-! ## `_poisson.py` -/

/-- `_poisson.py:14-30` (`PoissonEquation.__init__`): shapes of `-alpha * Laplacian(domain_shape)`. -/
noncomputable def mkPoisson (domain : DomainLike) (rhs : Option Fn) : Except Err PDE := do
  let d ← liftDom (asdomain domain)
  mkPDE (.dom d) ⟨shapeOf d, [], shapeOf d, []⟩ rhs

/-- `_poisson.py:99-121`, the interval and the coefficients computed by
`Solution_PoissonEquation_DirichletProblem_1D_RHSConstant.__init__`.  On an interval of length zero NumPy divides by
zero without raising; the model's value there is meaningless. -/
structure ConstSol where
  l : ℝ
  r : ℝ
  a : List ℝ

/-- `_poisson.py:99-121` (`__init__`), for scalar boundary values. -/
noncomputable def mkConstSol (domain : DomainLike) (rhs : ℝ) (values : List ℝ) (alpha : ℝ) : Except Err ConstSol :=
  match asdomain domain with
  | .error e => .error (ofDomErr e)
  | .ok (.interval l r) =>
    match values with
    | [ul, ur] => if alpha = 0 then .error .zeroDivisionError
      else .ok ⟨l, r, [ul, (ur - ul) / (r - l), 0.5 * rhs / -alpha]⟩
    | _ => .error .valueError
  | .ok _ => .error .typeError

/-- `_poisson.py:123-127` (`_evaluate`). -/
noncomputable def ConstSol.eval (s : ConstSol) (x : ℝ) : ℝ :=
  (s.a.getD 2 0 * (x - s.r) + s.a.getD 1 0) * (x - s.l) + s.a.getD 0 0

/-- A `ConstSol` as a function of shape `() → ()`. -/
noncomputable def ConstSol.fn (s : ConstSol) : Fn := .other [] [] fun x => [s.eval (x.getD 0 0)]

/-- Rows of an array along the first axis. -/
def rows (n : ℕ) (s : Shp) (data : List ℝ) : List (Shp × List ℝ) :=
  (List.range n).map fun i => (s, (data.drop (i * s.prod)).take s.prod)

/-- Iterating over an array (`zip`, tuple unpacking): scalars raise `TypeError`. -/
def iterRows : Shp → List ℝ → Except Err (List (Shp × List ℝ))
  | [], _ => .error .typeError
  | n :: s, data => .ok (rows n s data)

/-- `_poisson.py:75-90`: one Dirichlet condition per boundary part, with the same function everywhere or with the values
of an array in order (`zip`). -/
noncomputable def poissonConditions (d : Dom) : Values → Except Err (List BC)
  | .fn f => d.boundary.mapM fun b => mkDirichlet (.dom b) (.fn f)
  | .array s v => do
    let vs ← iterRows s v
    (d.boundary.zip vs).mapM fun p => mkDirichlet (.dom p.1) (.array p.2.1 p.2.2)

/-- `_poisson.py:58-60`: the values of a function at both ends, stacked. -/
noncomputable def endValues (l r : ℝ) : Values → Except Err (Shp × List ℝ)
  | .fn f => do
    let ul ← f.call [] [l]
    let ur ← f.call [] [r]
    .ok (2 :: f.outS, ul ++ ur)
  | .array s v => .ok (s, v)

/-- The value of a constant right-hand side of a scalar equation (`functions.Zero` is a `functions.Constant`). -/
def Fn.constValue : Fn → Option ℝ
  | .zero _ _ => some 0
  | .const _ _ v => some (v.getD 0 0)
  | _ => none

/-- `_poisson.py:64-71`: the solution attached to a scalar problem without a solution. Two boundary values that are
themselves arrays give a function that declares scalar values but returns arrays (`nonScalar`). -/
noncomputable def autoSolution (d : DomainLike) (rhs : Fn) (s : Shp) (v : List ℝ) (alpha : ℝ) (nonScalar : Fn) :
    Except Err (Option Fn) :=
  match rhs.constValue with
  | none => .ok none
  | some c => match s with
    | [] => .error .typeError
    | [_] => do
      let u ← mkConstSol d c v alpha
      .ok (some u.fn)
    | n :: _ => if n ≠ 2 then .error .valueError else if alpha = 0 then .error .zeroDivisionError else .ok (some nonScalar)

/-- `_poisson.py:38-95` (`PoissonEquationDirichletProblem.__init__`). -/
noncomputable def mkPoissonProblem (domain : DomainLike) (rhs : Option Fn) (alpha : ℝ) (values : Option Values)
    (solution : Option Fn) (nonScalar : Fn := .other [] [] fun _ => []) : Except Err BVP := do
  let pde ← mkPoisson domain rhs
  let values := values.getD (.fn (.zero (shapeOf pde.domain) pde.op.inCod))
  if shapeOf pde.domain = [] then
    match pde.domain with
    | .interval l r => do
      let sv ← endValues l r values
      let solution ← match solution with
        | some s => .ok (some s)
        | none => autoSolution (.dom pde.domain) pde.rhs sv.1 sv.2 alpha nonScalar
      let bcs ← poissonConditions pde.domain (.array sv.1 sv.2)
      mkBVP pde bcs solution
    | _ => .error .typeError
  else do
    let bcs ← poissonConditions pde.domain values
    mkBVP pde bcs solution

/-- `_poisson.py:137-172` (`Solution_PoissonEquation_IVP_1D_RHSPolynomial.__init__`). The right-hand side is a
`Polynomial` or not (`none`); a coefficient is divided by `-alpha` as a Python float, which raises for `alpha = 0`. -/
noncomputable def mkIvpPoly (domain : DomainLike) (rhs : Option (Poly ℝ)) (iv : List ℝ) (alpha : ℝ) : Except Err (Poly ℝ) :=
  match asdomain domain with
  | .error e => .error (ofDomErr e)
  | .ok (.interval l _) =>
    match rhs with
    | none => .error .typeError
    | some rhs =>
      let rhsInt := rhs.integrate
      let rhsDblint := rhsInt.integrate
      match iv with
      | iv0 :: iv1 :: _ =>
        let coeff1 := iv1 - rhsInt.eval l / -alpha
        let coeff0 := iv0 - l * coeff1 - rhsDblint.eval l / -alpha
        if alpha = 0 then .error .zeroDivisionError
        else .ok (.ofCoeffs (coeff0 :: coeff1 :: (rhsDblint.coeffs.drop 2).map fun c => c / -alpha))
      | _ => .error .indexError
  | .ok _ => .error .typeError

/-- The `Polynomial` among the pieces. -/
def asPoly : Piece → Option (Poly ℝ)
  | .poly p => some p
  | _ => none

/-- `_poisson.py:203-217`: the loop over the pieces, with the initial values of each piece. -/
noncomputable def ivpLoop (alpha : ℝ) : List (Piece × ℝ × ℝ) → List ℝ → Except Err (List (Poly ℝ))
  | [], _ => .ok []
  | (piece, l, r) :: rest, iv => do
    let sol ← mkIvpPoly (.scalars l r) (asPoly piece) iv alpha
    let sols ← ivpLoop alpha rest [sol.eval r, sol.differentiate.eval r]
    .ok (sol :: sols)

/-- `_poisson.py:175-217` (`Solution_PoissonEquation_IVP_1D_RHSPiecewisePolynomial.__init__`); `none`: the right-hand
side is not a `Piecewise`. The domain is only checked to be an interval. -/
noncomputable def mkIvpPiecewise (domain : DomainLike) (rhs : Option PW) (iv : List ℝ) (alpha : ℝ) : Except Err PW :=
  match asdomain domain with
  | .error e => .error (ofDomErr e)
  | .ok (.interval _ _) =>
    match rhs with
    | none => .error .typeError
    | some rhs =>
      if ¬(rhs.fns.all fun p => (asPoly p).isSome) then .error .typeError
      else do
        let sols ← ivpLoop alpha (rhs.fns.zip (rhs.xs.dropLast.zip rhs.xs.tail)) iv
        match mkPW .general rhs.xs (sols.map .poly) with
        | .ok f => .ok f
        | .error _ => .error .valueError
  | .ok _ => .error .typeError

/-! ## `_heat.py` -/

/-- `_heat.py:17-30` (`HeatEquation.__init__`), for an argument that is a domain; `HeatOperator` raises unless the shape
has one axis (`linfuncops/diffops/_heat.py:18-21`). -/
noncomputable def mkHeat (d : Dom) (rhs : Option Fn) : Except Err PDE :=
  if (shapeOf d).length ≠ 1 then .error .valueError
  else mkPDE (.dom d) ⟨shapeOf d, [], shapeOf d, []⟩ rhs

/-- `_heat.py:100-130` (`Solution_HeatEquation_…InitialTruncatedSineSeries_BoundaryZero._evaluate`) at `(t, x)`. -/
noncomputable def heatEval (t0 l r : ℝ) (cs : List ℝ) (alpha t x : ℝ) : ℝ :=
  (List.zipWith (fun c w => c * Real.sin (w * (x - l)) * Real.exp (alpha * w ^ 2 * (t0 - t))) cs
    (frequencies l r cs.length)).sum

open Classical in
/-- `_heat.py:73-89`: the solution attached to a problem without a solution. -/
noncomputable def heatSolution (t0 : ℝ) (shape : Shp) (spatial : Dom) (initial : Fn) (alpha : ℝ) : Option Fn :=
  match initial, spatial with
  | .zero _ _, _ => some (.zero shape [])
  | .sine l r cs, .interval l' r' =>
    if l = l' ∧ r = r' then some (.other [2] [] fun tx => [heatEval t0 l r cs alpha (tx.getD 0 0) (tx.getD 1 0)]) else none
  | _, _ => none

/-- `_heat.py:34-96` (`HeatEquationDirichletProblem.__init__`). `spatial_domain.shape` is read although the argument may be
a pair of bounds. -/
noncomputable def mkHeatProblem (t0 : ℝ) (spatial : DomainLike) (T : ℝ) (rhs : Option Fn) (alpha : ℝ)
    (initial : Option Fn) (solution : Option Fn) : Except Err IBVP := do
  let time ← liftDom (mkInterval t0 T)
  let domain ← liftDom (mkProd [.dom time, spatial])
  let pde ← mkHeat domain rhs
  match spatial with
  | .dom s =>
    let initial := initial.getD (.zero (shapeOf s) [])
    if initial.inS ≠ shapeOf s ∧ initial.outS ≠ [] then .error .valueError
    else do
      let ic ← mkDirichlet (.dom s) (.fn initial)
      let bcs ← s.boundary.mapM fun b => mkDirichlet (.dom (.prod [time, b])) (.array [] [0])
      let solution := solution.orElse fun _ => heatSolution t0 (shapeOf domain) s initial alpha
      mkIBVP pde ic bcs solution
  | _ => .error .attributeError

end LinPDE.Pde
