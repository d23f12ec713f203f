import Verif.XCov.FunctlProps

/-!
# Linear function operators applied to cross-covariances

Model of `randprocs/crosscov/linfuncops.py` and of the dispatch that leads there (`linfuncops/_identity.py`,
`linfuncops/_select_output.py`, `linfuncops/_arithmetic.py`, `linfuncops/diffops/`).  An operator is called on a
cross-covariance without `argnum`; it acts on the process.
-/

namespace LinPDE.XCov
open LinPDE.Nd LinPDE.Ops LinPDE.CovAlg LinPDE.Covar
variable {X : Type}

/-- `SumProcessVectorCrossCovariance(*cs)` (`_arithmetic.py:52-72`). -/
def mkSumPV : List (PV X) → Except Err (PV X)
  | [] => .error .indexError
  | c :: cs => if (c :: cs).all fun d => d.inS = c.inS ∧ d.outS = c.outS ∧ d.rv = c.rv ∧ d.rev = c.rev then
      .ok (.sum c.inS c.outS c.rv c.rev (c :: cs))
    else .error .assertionError

/-- `CovarianceFunction_Identity_Dirac(k, f)`, `CovarianceFunction_Identity_Evaluation(k, f)` (`linfunctls/_dirac.py:23-37`,
`_evaluation.py:23-37`): `covfunc.input_shape` raises when the two arguments have different shapes. -/
def mkPoint (k : K X) (f : Point X) : Except Err (PV X) :=
  if k.sh.in1 ≠ k.sh.in0 then .error .valueError else .ok (.point k f false)

/-- A class of operators as seen from cross-covariances: output shapes, its action on argument 0 of covariance functions,
its own registrations, what happens after a `NotImplementedError` of the general rules, and whether `__call__` returns the
result of the general rules (`Identity.__call__` does not, `_identity.py:20-22`). -/
structure PH (X : Type) where
  o : Shapes
  onK : K X → Except CovAlg.Err (K X)
  own : PV X → Option (Except Err (PV X))
  rescue : PV X → Except Err (PV X)
  keep : Bool

/-- Dispatch: own registration first, then the general rule `g`. -/
def PH.wrap (h : PH X) (c : PV X) (g : Except Err (PV X)) : Except Err (PV X) :=
  match h.own c with
  | some r => r
  | none => match g with
    | .error .notImplemented => h.rescue c
    | .error e => .error e
    | .ok c' => if h.keep then .ok c' else .error .notAKernel

mutual
/-- `self(pv_crosscov)`: `crosscov/linfuncops.py:19-82`.  For a functional in argument 0 the code applies the operator with
`argnum=1` to the cross-covariance itself (lines 59, 79); the registration takes no `argnum`.  The other classes have no
registration (`linfuncops/_linfuncop.py`). -/
noncomputable def PH.call (h : PH X) : PV X → Except Err (PV X)
  | .scaled c s => h.wrap (.scaled c s) do
    let c' ← PH.call h c
    .ok (.scaled c' s)
  | .sum i o r rev cs => h.wrap (.sum i o r rev cs) do
    let cs' ← PH.callAll h cs
    mkSumPV cs'
  | .zero i o r rev => h.wrap (.zero i o r rev) (.ok (.zero h.o.1 h.o.2 r rev))
  | .point k f rev => h.wrap (.point k f rev) (if rev then .error .typeError else
      match h.onK k with
      | .ok k' => mkPoint k' f
      | .error e => .error (liftErr e))
  | .base i o r rev ev => h.wrap (.base i o r rev ev) (.error .notImplemented)
  | .quad k o T rev => h.wrap (.quad k o T rev) (.error .notImplemented)
  | .linop A c => h.wrap (.linop A c) (.error .notImplemented)
  | .stack i r rev s cs => h.wrap (.stack i r rev s cs) (.error .notImplemented)
  | .param i C b n rev => h.wrap (.param i C b n rev) (.error .notImplemented)
/-- Every part. -/
noncomputable def PH.callAll (h : PH X) : List (PV X) → Except Err (List (PV X))
  | [] => .ok []
  | c :: cs => do
    let c' ← PH.call h c
    let cs' ← PH.callAll h cs
    .ok (c' :: cs')
end

/-! ## Classes of operators -/

/-- `Identity`. -/
noncomputable def identP (s : Shapes) : PH X where
  o := s
  onK := LOp.call false (.ident s)
  own _ := none
  rescue _ := .error .notImplemented
  keep := false

/-- `SelectOutput` (`linfuncops.py:85-87`): entry of a stack; nothing is validated. -/
noncomputable def selectP (i : Shapes) (idx : SIdx) : PH X where
  o := (i.1, [])
  onK := LOp.call false (.select i idx)
  own
    | .stack _ _ _ s cs => some (match idx.resolve s with
      | .error e => .error (liftErr e)
      | .ok l => match cs[ravel s l]? with
        | some c => .ok c
        | none => .error .indexError)
    | _ => none
  rescue _ := .error .notImplemented
  keep := true

/-- Any other operator class. -/
noncomputable def genP (g : Gen X) : PH X where
  o := g.o
  onK := LOp.call false (.gen g)
  own _ := none
  rescue _ := .error .notImplemented
  keep := true

/-- Order 0 returns its argument (`linfuncops/diffops/_partial_derivative.py:57-61`). -/
def pdOwnP (D : PD X) (c : PV X) : Option (Except Err (PV X)) := if D.order = 0 then some (.ok c) else none

/-- `PartialDerivative`; the fallback (`_lindiffop.py:103-128`) returns a `JaxLambdaFunction`. -/
noncomputable def pdP (D : PD X) : PH X where
  o := (D.dom, [])
  onK := LOp.call false (.pd D)
  own := pdOwnP D
  rescue _ := .error .notAKernel
  keep := true

/-- `_PartialDerivativeNoJax`: no fallback (`_partial_derivative.py:115-128`). -/
noncomputable def pdNoJaxP (D : PD X) : PH X where
  o := (D.dom, [])
  onK := (D.hNoJax false).call false
  own := pdOwnP D
  rescue _ := .error .notImplemented
  keep := true

/-- `functools.reduce(operator.add, (f(a) for a in as))`. -/
def reduceP {α : Type} (f : α → Except Err (PV X)) : List α → Except Err (PV X)
  | [] => .error .typeError
  | a :: as => do
    let c ← f a
    as.foldlM (fun acc b => do
      let d ← f b
      acc.add d) c

/-- The entry a summand looks at (`_lindiffop.py:84-87`). -/
noncomputable def entryP (D : Diff X) (c : PV X) (out : List ℕ) : Except Err (PV X) :=
  if out = [] then .ok c else (selectP D.i (.tup (out.map Int.ofNat))).call c

/-- One summand `coefficient * (PartialDerivative @ SelectOutput)` (`_lindiffop.py:76-101`). -/
noncomputable def summandP (D : Diff X) (c : PV X) (out : List ℕ) (t : PD X × ℝ) : Except Err (PV X) := do
  let d ← entryP D c out
  let d' ← (pdNoJaxP t.1).call d
  .ok (.scaled d' t.2)

/-- `_to_sum_no_jax()(c)`. -/
noncomputable def toSumP (D : Diff X) (c : PV X) : Except Err (PV X) :=
  if D.terms = [] ∨ ∃ t ∈ D.terms, t.2 = [] then .error .indexError
  else reduceP (fun t => reduceP (summandP D c t.1) t.2) D.terms

/-- `LinearDifferentialOperator.__call__` (`_lindiffop.py:103-148`); the last fallback returns a `JaxLambdaFunction`. -/
noncomputable def diffP (D : Diff X) : PH X where
  o := (D.i.1, [])
  onK := LOp.call false (.diff D)
  own _ := none
  rescue c := match toSumP D c with
    | .error .notImplemented => .error .notAKernel
    | r => r
  keep := true

mutual
/-- `L(pv_crosscov)`: `linfuncops/_arithmetic.py:36-38, 98-102, 126-132`, `diffops/_arithmetic.py:34-36` for scaled, summed
and composed operators. -/
noncomputable def opCall : LOp X → PV X → Except Err (PV X)
  | .ident s, c => (identP s).call c
  | .select i idx, c => (selectP i idx).call c
  | .gen g, c => (genP g).call c
  | .pd D, c => (pdP D).call c
  | .diff D, c => (diffP D).call c
  | .scaled L a, c => do
    let d ← opCall L c
    .ok (.scaled d a)
  | .sum Ls, c => do
    let ds ← opCallAll Ls c
    reducePV ds
  | .comp Ls, c => opSeq Ls c
/-- Every summand. -/
noncomputable def opCallAll : List (LOp X) → PV X → Except Err (List (PV X))
  | [], _ => .ok []
  | L :: Ls, c => do
    let d ← opCall L c
    let ds ← opCallAll Ls c
    .ok (d :: ds)
/-- The last operator is applied first. -/
noncomputable def opSeq : List (LOp X) → PV X → Except Err (PV X)
  | [], c => .ok c
  | L :: Ls, c => do
    let d ← opSeq Ls c
    opCall L d
end

/-! ## Meaning -/

mutual
/-- The covariance functions inside point cross-covariances meet the requirements of `CovAlg.apply_correct`. -/
def PV.Kers (s : Option Shp) : PV X → Prop
  | .point k _ _ => k.WF ∧ Side s false k
  | .scaled c _ => PV.Kers s c
  | .sum _ _ _ _ cs => kersAll s cs
  | .stack _ _ _ _ cs => kersAll s cs
  | .linop _ c => PV.Kers s c
  | .base .. => True
  | .quad .. => True
  | .zero .. => True
  | .param .. => True
/-- Every part. -/
def kersAll (s : Option Shp) : List (PV X) → Prop
  | [] => True
  | c :: cs => PV.Kers s c ∧ kersAll s cs
end

/-- `c'` is the cross-covariance between the image of the process under `T` and the vector of `c`. -/
structure GoodP (T : Val X →ₗ[ℝ] Val X) (o : Shapes) (s : Option Shp) (c c' : PV X) : Prop where
  wf : c'.WF
  kers : c'.Kers s
  inS : c'.inS = o.1
  outS : c'.outS = o.2
  rv : c'.rv = c.rv
  rev : c'.rev = c.rev
  den : ∀ x p r, p < o.2.prod → r < c.rv.prod → c'.den x p r = T (fun y q => c.den y q r) x p

/-- The process of the cross-covariance has the shapes `i`. -/
def PFit (i : Shapes) (c : PV X) : Prop := c.inS = i.1 ∧ c.outS = i.2

end LinPDE.XCov
