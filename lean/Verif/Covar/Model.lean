import Verif.Nd.Basic
import Mathlib.Data.Real.Basic
import Mathlib.Algebra.BigOperators.Group.Finset.Basic

/-!
# Model of `randvars/_covariance.py`

A dense linear operator is an array with two axes (`aslinop`/`todense` of probnum are taken to be
mutually inverse; probnum's sums and scalings of linear operators are entrywise on `todense`).
-/

namespace LinPDE.Covar
open LinPDE.Nd

/-- Exceptions. -/
inductive Err
  | valueError
  | typeError
deriving DecidableEq, Repr

/-- A `Covariance` object: `ArrayCovariance` or `LinearOperatorCovariance`. -/
inductive Cov
  | array (s0 s1 : Shp) (a : Arr ℝ)
  | linop (s0 s1 : Shp) (a : Arr ℝ)

/-- `_covariance.py:56-58`. -/
def Cov.shape0 : Cov → Shp
  | .array s0 _ _ => s0
  | .linop s0 _ _ => s0

/-- `_covariance.py:68-71`. -/
def Cov.shape1 : Cov → Shp
  | .array _ s1 _ => s1
  | .linop _ s1 _ => s1

/-- `_covariance.py:64-66`. -/
def Cov.size0 (c : Cov) : ℕ := c.shape0.prod

/-- `_covariance.py:77-79`. -/
def Cov.size1 (c : Cov) : ℕ := c.shape1.prod

/-- `_covariance.py:146-161` (`ArrayCovariance.__init__`). -/
def mkArray (a : Arr ℝ) (s0 s1 : Shp) : Except Err Cov :=
  if a.shape = s0 ++ s1 then .ok (.array s0 s1 a) else .error .valueError

/-- `_covariance.py:138-144` (`ArrayCovariance.from_scalar`). -/
def fromScalar (v : ℝ) : Except Err Cov := mkArray ⟨[], fun _ => v⟩ [] []

/-- `_covariance.py:203-217` (`LinearOperatorCovariance.__init__`). -/
def mkLinop (m : Arr ℝ) (s0 s1 : Shp) : Except Err Cov :=
  if m.shape = [s0.prod, s1.prod] then .ok (.linop s0 s1 m) else .error .valueError

/-- `np.reshape(a, s, order="C")`. -/
def reshape (a : Arr ℝ) (s : Shp) : Except Err (Arr ℝ) :=
  match a.reshape s with
  | some b => .ok b
  | none => .error .valueError

/-- `_covariance.py:163-165` and `219-221`: the array view. -/
def Cov.arrayView : Cov → Except Err (Arr ℝ)
  | .array _ _ a => .ok a
  | .linop s0 s1 m => reshape m (s0 ++ s1)

/-- `_covariance.py:171-173` and `227-229`: the matrix view. -/
def Cov.matrixView : Cov → Except Err (Arr ℝ)
  | .array s0 s1 a => reshape a [s0.prod, s1.prod]
  | .linop _ _ m => .ok m

/-- `_covariance.py:167-169` and `223-225`: the linear operator, represented by its dense matrix. -/
def Cov.linopView : Cov → Except Err (Arr ℝ)
  | .array s0 s1 a => (Cov.array s0 s1 a).matrixView
  | .linop _ _ m => .ok m

/-- `_covariance.py:112-121` (`flatten0`). -/
def Cov.flatten0 (c : Cov) (x : Arr ℝ) : Except Err (List ℝ) :=
  if x.shape ≠ c.shape0 then .error .valueError else .ok x.flatten

/-- `_covariance.py:123-132` (`flatten1`). -/
def Cov.flatten1 (c : Cov) (x : Arr ℝ) : Except Err (List ℝ) :=
  if x.shape ≠ c.shape1 then .error .valueError else .ok x.flatten

/-- Entrywise sum of two arrays of the same shape. -/
def addArr (a b : Arr ℝ) : Arr ℝ := ⟨a.shape, fun i => a.get i + b.get i⟩

/-- `other * array`. -/
def smulArr (s : ℝ) (a : Arr ℝ) : Arr ℝ := ⟨a.shape, fun i => s * a.get i⟩

/-- `_covariance.py:193-196` and `250-255` (`__rmul__` with a scalar). -/
def Cov.smul (s : ℝ) : Cov → Except Err Cov
  | .array s0 s1 a => mkArray (smulArr s a) s0 s1
  | .linop s0 s1 m => mkLinop (smulArr s m) s0 s1

/-- `_covariance.py:175-176`, `231-232` (`__neg__`). -/
def Cov.neg (c : Cov) : Except Err Cov := c.smul (-1)

/-- `_covariance.py:234-245` (`LinearOperatorCovariance.__add__`); `NotImplemented` ends in a
`TypeError`, as no class defines `__radd__`. -/
def addLinop (s0 s1 : Shp) (m : Arr ℝ) (other : Cov) : Except Err Cov :=
  if s0 = other.shape0 ∧ s1 = other.shape1 then do
    let o ← other.linopView
    mkLinop (addArr m o) s0 s1
  else .error .typeError

/-- `_covariance.py:178-188` and `234-245` (`__add__`). -/
def Cov.add : Cov → Cov → Except Err Cov
  | .array s0 s1 a, .array t0 t1 b =>
    if s0 = t0 ∧ s1 = t1 then mkArray (addArr a b) s0 s1 else .error .typeError
  | .array s0 s1 a, .linop t0 t1 m => addLinop t0 t1 m (.array s0 s1 a)
  | .linop s0 s1 m, other => addLinop s0 s1 m other

/-- `_covariance.py:190-191` and `247-248` (`__sub__`). -/
def Cov.sub (c d : Cov) : Except Err Cov := do
  let nd ← d.neg
  c.add nd

/-! ## Specification -/

/-- What the constructors guarantee. -/
def Cov.Valid : Cov → Prop
  | .array s0 s1 a => a.shape = s0 ++ s1
  | .linop s0 s1 m => m.shape = [s0.prod, s1.prod]

/-- `K` lists the covariances of the entries: `K i j = Cov(x0[i], x1[j])`. -/
def Cov.Represents (c : Cov) (s0 s1 : Shp) (K : List ℕ → List ℕ → ℝ) : Prop :=
  c.shape0 = s0 ∧ c.shape1 = s1 ∧
  ∃ a, c.arrayView = .ok a ∧ a.shape = s0 ++ s1 ∧ ∀ i j, Fits s0 i → Fits s1 j → a.get (i ++ j) = K i j

end LinPDE.Covar
