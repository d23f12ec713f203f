import Verif.CovAlg.Model

/-!
# Base classes of transformed covariance functions

Model of the shape bookkeeping in `randprocs/covfuncs/linfuncops/_abstract.py` and `randprocs/crosscov/linfunctls/_base.py`.
An operator or functional enters through its shapes.
-/

namespace LinPDE.XCov.Bases
open LinPDE.CovAlg LinPDE.Nd

/-- Exceptions. -/
inductive Err
  | valueError
deriving DecidableEq, Repr

/-- The shapes of a linear function operator. -/
structure OpSh where
  inDom : List ℕ
  inCod : List ℕ
  outDom : List ℕ
  outCod : List ℕ

/-- The shapes of a linear functional. -/
structure FunctlSh where
  inDom : List ℕ
  inCod : List ℕ
  out : List ℕ

/-- `CrossCovarianceFunction_Identity_LinearFunctionOperator.__init__` (`_abstract.py:9-47`). -/
def identityOp (k : KSh) (L : OpSh) (reverse : Bool) : Except Err KSh :=
  if L.inDom ≠ (if reverse then k.in0 else k.in1) then .error .valueError
  else if L.inCod ≠ (if reverse then k.out0 else k.out1) then .error .valueError
  else if reverse then .ok ⟨L.outDom, k.in1, L.outCod, k.out1⟩
  else .ok ⟨k.in0, L.outDom, k.out0, L.outCod⟩

/-- `CovarianceFunction_LinearFunctionOperator.__init__` (`_abstract.py:66-95`). -/
def bothOps (k : KSh) (L0 L1 : OpSh) : Except Err KSh :=
  if L0.inDom ≠ k.in0 then .error .valueError
  else if L0.inCod ≠ k.out0 then .error .valueError
  else if L1.inDom ≠ k.in1 then .error .valueError
  else if L1.inCod ≠ k.out1 then .error .valueError
  else .ok ⟨L0.outDom, L1.outDom, L0.outCod, L1.outCod⟩

/-- Shapes of a cross-covariance: input and output shape of the process, shape of the vector, `reverse`. -/
structure PVSh where
  inS : List ℕ
  outS : List ℕ
  rv : List ℕ
  rev : Bool

/-- `LinearFunctionalProcessVectorCrossCovariance.__init__` (`_base.py:9-59`). -/
def functlPV (k : KSh) (f : FunctlSh) (reverse : Bool) : Except Err PVSh :=
  if f.inDom ≠ (if reverse then k.in0 else k.in1) then .error .valueError
  else if f.inCod ≠ (if reverse then k.out0 else k.out1) then .error .valueError
  else .ok ⟨if reverse then k.in1 else k.in0, if reverse then k.out1 else k.out0, f.out, reverse⟩

end LinPDE.XCov.Bases
