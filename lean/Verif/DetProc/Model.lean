import Verif.Op.Model

/-!
# Deterministic processes

Model of `randprocs/_deterministic_process.py` and `randprocs/_utils.py`, on the functions, operators and functionals of
`Op.Model`.  The classes of `linfuncops/` and `linfunctls/` dispatch on the argument's type, so a process takes another path
than a function.

Outside contracts: arithmetic of ProbNum's constant random variables is arithmetic of their values; random processes have no
arithmetic, so `scalar * process` raises `TypeError`.
-/

namespace LinPDE.DetProc
open LinPDE.Ops

variable {X : Type}

/-- `DeterministicProcess` (`_deterministic_process.py:8-17`). -/
structure DP (X : Type) where
  fn : JFn X

/-- `pn.randvars.Constant`. -/
structure ConstRV where
  support : Arr

/-- `DeterministicProcess.__call__` (`_deterministic_process.py:19-20`) at one point: the entries of the constant. -/
noncomputable def DP.call (p : DP X) (x : X) : ConstRV := ⟨⟨p.fn.sh.2, p.fn.eval x⟩⟩

/-- `mean` and `as_fn` (`_deterministic_process.py:22-27`). -/
def DP.mean (p : DP X) : JFn X := p.fn

mutual
/-- An operator applied to a deterministic process: `Identity` `_identity.py:34-42`; other classes without a rule of their own
reach `_deterministic_process.py:44-48`; sums `linfuncops/_arithmetic.py:104-106`, which do too; scaled operators 36-38 (and
`diffops/_arithmetic.py:34-36`), which multiply the **process**; compositions 112-118. -/
noncomputable def Op.callDP (n : ℕ) : Op X → DP X → Except Err (DP X)
  | .ident s, p => if p.fn.sh ≠ s then .error .valueError else .ok p
  | .base i o T b, p => do
    let g ← (Op.base i o T b).call n p.fn
    .ok ⟨g⟩
  | .scaled L _, p => do
    let _ ← Op.callDP n L p
    .error .typeError
  | .scaledDiff L _, p => do
    let _ ← Op.callDP n L p
    .error .typeError
  | .sum i o ops, p => do
    let g ← (Op.sum i o ops).call n p.fn
    .ok ⟨g⟩
  | .comp _ _ ops, p => seqDP n ops p
/-- The composition: the last operator is applied first. -/
noncomputable def seqDP (n : ℕ) : List (Op X) → DP X → Except Err (DP X)
  | [], p => .ok p
  | L :: Ls, p => do
    let q ← seqDP n Ls p
    Op.callDP n L q
end

/-- A functional applied to a deterministic process: `_deterministic_process.py:37-41`, reached directly or from sums
(`linfunctls/_arithmetic.py:87-89`) and compositions (136-138); scaled functionals (37-39) multiply the random variable. -/
noncomputable def Fnl.callDP (n : ℕ) : Fnl X → DP X → Except Err ConstRV
  | .base i o T, p => do
    let v ← (Fnl.base i o T).call n p.fn
    .ok ⟨v⟩
  | .scaled F c, p => do
    let v ← Fnl.callDP n F p
    .ok ⟨v.support.smul c⟩
  | .sum i o fs, p => do
    let v ← (Fnl.sum i o fs).call n p.fn
    .ok ⟨v⟩
  | .comp A F L, p => do
    let v ← (Fnl.comp A F L).call n p.fn
    .ok ⟨v⟩

/-- What can be passed where a random process is expected: a random process (deterministic, or another one, identified by a
number), a function, something else. -/
inductive ProcLike (X : Type)
  | det (p : DP X)
  | proc (id : ℕ)
  | fn (f : JFn X)
  | other

/-- `asrandproc` (`_utils.py:8-17`). -/
def asrandproc : ProcLike X → Except Err (ProcLike X)
  | .det p => .ok (.det p)
  | .proc k => .ok (.proc k)
  | .fn f => .ok (.det ⟨f⟩)
  | .other => .error .typeError

end LinPDE.DetProc
