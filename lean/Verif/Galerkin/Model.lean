import Verif.Fem.Model
import Verif.Matern.Model

/-!
# Galerkin covariance functions

Model of `randprocs/covfuncs/_galerkin.py`, of the registrations of the L2 projection for covariance functions
(`covfuncs/linfunctls/_registry.py:25-40, 79-90, 198-258`) and for the cross-covariances that arise
(`crosscov/linfunctls/_linfunctl.py:21-31`, `crosscov/linfunctls/projections.py`), for covariance functions of one real
variable with values in ℝ.  Evaluation is pointwise (numpy broadcasts over the batch).  `SumCovarianceFunction` has at least
one summand (ProbNum) and folds its summands with `+`.  Python's identity of objects is equality of an identifier.
-/

namespace LinPDE.Galerkin
open LinPDE.Fem

/-- `projections/l2/_fem.py:14-35`: a projection with the identities of the object and of its basis. -/
structure Proj where
  id : ℕ
  basisId : ℕ
  basis : Basis
  normalized : Bool

mutual
/-- Covariance functions. -/
inductive K
  | base (f : ℝ → ℝ → ℝ)
  | matern32 (lengthscale : ℝ)
  | zero
  | scaled (s : ℝ) (k : K)
  | sum (k : K) (ks : KL)
  /-- `_galerkin.py:17-34`: `_covfunc`, `_projection`, `_kPa`, `_PkPa`. -/
  | galerkin (k : K) (P : Proj) (kPa : PV) (PkPa : ℕ → ℕ → ℝ)
/-- The further summands of a sum. -/
inductive KL
  | nil
  | cons (k : K) (ks : KL)
/-- Cross-covariances between the process and a random vector. -/
inductive PV
  | quad (k : K) (P : Proj) (reverse : Bool)
  | matern32 (lengthscale : ℝ) (P : Proj) (reverse : Bool)
  | zero
  | scaled (s : ℝ) (c : PV)
  | sum (a b : PV)
  | param (C : ℕ → ℕ → ℝ) (basisId : ℕ) (basis : Basis) (reverse : Bool)
end

/-- The Matérn covariance function with `nu = 1.5`. -/
noncomputable def matern32K (l x t : ℝ) : ℝ :=
  (Matern.MK.matern (d := 1) ⟨1, fun _ => Real.sqrt 3 / l⟩).eval (fun _ => x) (fun _ => t)

/-- A vector or matrix with entries indexed by natural numbers. -/
noncomputable def ofFin {n : ℕ} (v : Fin n → ℝ) (i : ℕ) : ℝ := if h : i < n then v ⟨i, h⟩ else 0

/-- A matrix with entries indexed by natural numbers. -/
noncomputable def ofMat {m n : ℕ} (M : Matrix (Fin m) (Fin n) ℝ) (i j : ℕ) : ℝ := if h : i < m then ofFin (M ⟨i, h⟩) j else 0

/-- `(a[..., None, :] @ b[..., :, None])[..., 0, 0]` for vectors of length `n`. -/
noncomputable def dot (n : ℕ) (a b : ℕ → ℝ) : ℝ := ∑ j ∈ Finset.range n, a j * b j

/-- `basis(x)`. -/
noncomputable def phi (b : Basis) (x : ℝ) (j : ℕ) : ℝ := (b.evaluate x).getD j 0

/-- `cov.linop(v, axis=-1)`. -/
noncomputable def linopCall (C : ℕ → ℕ → ℝ) (n : ℕ) (v : ℕ → ℝ) (i : ℕ) : ℝ := ∑ j ∈ Finset.range n, C i j * v j

/-- The value if there is no exception; used inside integrands. -/
noncomputable def val : Except Err ℝ → ℝ
  | .ok v => v
  | .error _ => 0

mutual
/-- `covfunc(x0, x1)`; for the Galerkin kernel `_galerkin.py:49-58` with `covfuncs/_parametric.py:20-26` and the embedded
cross-covariance `_galerkin.py:71-88` (`reverse` is false there, as `_kPa` comes from `argnum=1`). -/
noncomputable def K.eval : K → ℝ → ℝ → Except Err ℝ
  | .base f, x, y => .ok (f x y)
  | .matern32 l, x, y => .ok (matern32K l x y)
  | .zero, _, _ => .ok 0
  | .scaled s k, x, y => do
    let v ← K.eval k x y
    .ok (s * v)
  | .sum k ks, x, y => do
    let v ← K.eval k x y
    KL.evalAdd ks v x y
  | .galerkin k P kPa C, x0, x1 => do
    let n := P.basis.len
    let p := dot n (phi P.basis x0) (linopCall C n (phi P.basis x1))
    let v ← K.eval k x0 x1
    let c0 ← PV.eval kPa x0
    let c1 ← PV.eval kPa x1
    .ok (p + v - dot n c0 (phi P.basis x1) - dot n c1 (phi P.basis x0) + p)
/-- `functools.reduce(operator.add, ...)` over the values of the summands. -/
noncomputable def KL.evalAdd : KL → ℝ → ℝ → ℝ → Except Err ℝ
  | .nil, v, _, _ => .ok v
  | .cons k ks, v, x, y => do
    let w ← K.eval k x y
    KL.evalAdd ks (v + w) x y
/-- `pv_crosscov(x)`: `projections.py:45-69, 134-172`, `_arithmetic.py:37-38, 75-76`, `_zero.py`, `_parametric.py:35-41`.
An exception raised by the integrand is not represented (`K.eval` of every constructible covariance function succeeds). -/
noncomputable def PV.eval : PV → ℝ → Except Err (ℕ → ℝ)
  | .quad k P _, x => do
    let v ← crosscovProjection P.basis P.normalized (fun x t => val (K.eval k x t)) x
    .ok (ofFin v)
  | .matern32 l P _, x => .ok (ofFin (matern32Projection P.basis P.normalized l x))
  | .zero, _ => .ok fun _ => 0
  | .scaled s c, x => do
    let v ← PV.eval c x
    .ok fun i => s * v i
  | .sum a b, x => do
    let v ← PV.eval a x
    let w ← PV.eval b x
    .ok fun i => v i + w i
  | .param C _ b _, x => .ok (linopCall C b.len (phi b x))
end

/-- `covfunc(x0, x1)` with `x1` possibly `None`: every covariance function then uses `x0` twice (`_galerkin.py:50-57, 72-73`,
`covfuncs/_parametric.py:22`). -/
noncomputable def K.call (k : K) (x0 : ℝ) (x1 : Option ℝ) : Except Err ℝ := k.eval x0 (x1.getD x0)

/-- `covfuncs/linfunctls/_registry.py:198-215`: a `NotImplementedError` of the generic registrations selects the quadrature. -/
def orQuad (P : Proj) (k : K) (reverse : Bool) : Except Err PV → Except Err PV
  | .error .notImplementedError => .ok (.quad k P reverse)
  | r => r

mutual
/-- `projection(covfunc, argnum)`: `covfuncs/linfunctls/_registry.py:25-40, 79-90, 198-258`; `arg1` is `argnum == 1`. -/
def projK (P : Proj) : K → Bool → Except Err PV
  | .base f, arg1 => .ok (.quad (.base f) P !arg1)
  | .matern32 l, arg1 => .ok (.matern32 l P !arg1)
  | .zero, _ => .ok .zero
  | .scaled s k, arg1 => orQuad P (.scaled s k) (!arg1) do
    let c ← projK P k arg1
    .ok (.scaled s c)
  | .sum k ks, arg1 => orQuad P (.sum k ks) (!arg1) do
    let c ← projK P k arg1
    projKL P ks c arg1
  | .galerkin _ Q _ C, arg1 =>
    if Q.id = P.id then .ok (.param C Q.basisId Q.basis !arg1) else .error .notImplementedError
/-- `functools.reduce(operator.add, ...)` over the projections of the summands (`_registry.py:38-40`). -/
def projKL (P : Proj) : KL → PV → Bool → Except Err PV
  | .nil, c, _ => .ok c
  | .cons k ks, c, arg1 => do
    let d ← projK P k arg1
    projKL P ks (.sum c d) arg1
end

/-- `projections.py:75-116`: the covariance of two projections of a covariance function. -/
noncomputable def quadCov (P Q : Proj) (k : ℝ → ℝ → ℝ) (reverse : Bool) : Except Err (ℕ → ℕ → ℝ) :=
  if reverse then do
    let M ← projectionCov Q.basis P.basis Q.normalized P.normalized k
    .ok (ofMat M)
  else do
    let M ← projectionCov P.basis Q.basis P.normalized Q.normalized k
    .ok (ofMat M)

/-- `projection(pv_crosscov)`: `projections.py:75-128`, `crosscov/linfunctls/_linfunctl.py:21-31`; there is no registration
for the zero cross-covariance. -/
noncomputable def projPV (P : Proj) : PV → Except Err (ℕ → ℕ → ℝ)
  | .quad k Q reverse => quadCov P Q (fun x t => val (k.eval x t)) reverse
  | .matern32 l Q reverse => quadCov P Q (matern32K l) reverse
  | .zero => .error .notImplementedError
  | .scaled s c => do
    let C ← projPV P c
    .ok fun i j => s * C i j
  | .sum a b => do
    let C ← projPV P a
    let D ← projPV P b
    .ok fun i j => C i j + D i j
  | .param C bid _ _ => if P.basisId = bid ∧ P.normalized then .ok C else .error .notImplementedError

/-- `_galerkin.py:11-39` (`__init__`). -/
noncomputable def mkGalerkin (k : K) (P : Proj) : Except Err K := do
  let kPa ← projK P k true
  let PkPa ← projPV P kPa
  .ok (.galerkin k P kPa PkPa)

end LinPDE.Galerkin
