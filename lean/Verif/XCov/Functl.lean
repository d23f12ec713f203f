import Verif.XCov.LinopProps

/-!
# Linear functionals applied to covariance functions

Model of `randprocs/covfuncs/linfunctls/_registry.py` and of the dispatch in `linfunctls/_linfunctl.py`,
`linfunctls/_arithmetic.py`, `linfunctls/_integrals.py`, `linfunctls/projections/l2/_fem.py`.  Tensor-product and Galerkin
kernels, which have their own registrations, are modelled elsewhere.
-/

namespace LinPDE.XCov
open LinPDE.Nd LinPDE.Ops LinPDE.CovAlg LinPDE.Covar
variable {X : Type}

/-- A class of functionals: input shapes, output shape and meaning; `quad` for the classes with a quadrature fallback
(`LebesgueIntegral`, `L2Projection_UnivariateLinearInterpolationBasis`), which also have closed forms for the kernels in
`closed`.  The numbers in the closed forms are not modelled here (see `Verif.Matern`, `Verif.Fem`). -/
structure BFn (X : Type) where
  i : Shapes
  o : Shp
  T : Fl X
  quad : Bool
  closed : ℕ → Bool → Bool

/-- `validate_covfunc_transformation` (`covfuncs/_utils.py:6-41`). -/
def chk (i : Shapes) (k : K X) (arg : Bool) : Except Err Unit :=
  match validate i k arg with
  | .ok u => .ok u
  | .error e => .error (liftErr e)

/-- `c + d` (`_pv_crosscov.py:166-174`, `_arithmetic.py:52-72`). -/
def PV.add (c d : PV X) : Except Err (PV X) :=
  if d.inS = c.inS ∧ d.outS = c.outS ∧ d.rv = c.rv ∧ d.rev = c.rev then .ok (.sum c.inS c.outS c.rv c.rev [c, d])
  else .error .assertionError

/-- `functools.reduce(operator.add, cs)`. -/
def reducePV : List (PV X) → Except Err (PV X)
  | [] => .error .typeError
  | c :: cs => cs.foldlM PV.add c

/-- `StackedProcessVectorCrossCovariance.__init__` (`_stack.py:11-45`). -/
def mkStackPV (shape : Shp) (cs : List (PV X)) : Except Err (PV X) :=
  match cs with
  | [] => .error .indexError
  | c :: ds =>
    if ¬((c :: ds).all fun d => d.inS = c.inS) then .error .valueError
    else if ¬((c :: ds).all fun d => d.outS = []) then .error .valueError
    else if ¬((c :: ds).all fun d => d.rv = c.rv) then .error .valueError
    else if ¬((c :: ds).all fun d => d.rev = c.rev) then .error .valueError
    else .ok (.stack c.inS c.rv c.rev shape (c :: ds))

/-- `LinOpProcessVectorCrossCovariance.__init__` (`_arithmetic.py:94-110`). -/
def mkLinopPV (A : LMat) (c : PV X) : Except Err (PV X) :=
  if c.rv.length ≠ 1 then .error .assertionError
  else if [A.cols] ≠ c.rv then .error .assertionError
  else .ok (.linop A c)

/-- Kernels without a general rule: `_registry.py:154-170, 197-215` for the classes with quadrature (whose
constructors refuse functionals with array values, `_covfunc_lebesgue.py:32-33`), `_linfunctl.py:60-62` otherwise. -/
noncomputable def BFn.noRule (b : BFn X) (arg : Bool) (k : K X) (closed : Option (PV X)) : Except Err (PV X) :=
  if b.quad then do
    chk b.i k arg
    match closed with
    | some c => .ok c
    | none => if b.i.2 ≠ [] then .error .notImplemented else .ok (.quad k b.o b.T (!arg))
  else .error .notImplemented

mutual
/-- `self(k, argnum=arg)`: `_registry.py:24-40, 64-90` (general rules); `arg` is true for argument 1. -/
noncomputable def BFn.call (b : BFn X) (arg : Bool) : K X → Except Err (PV X)
  | .base sh cls j ev => b.noRule arg (.base sh cls j ev)
      (if b.closed cls arg then some (.base (sh.inA (!arg)) (sh.outA (!arg)) b.o (!arg) (actF b.T (!arg) ev)) else none)
  | .scaled m s => do
    chk b.i (.scaled m s) arg
    let c ← BFn.call b arg m
    .ok (.scaled c s)
  | .sum sh ks => do
    chk b.i (.sum sh ks) arg
    let cs ← BFn.callAll b arg ks
    reducePV cs
  | .stack i0 i1 s idx ks => do
    chk b.i (.stack i0 i1 s idx ks) arg
    let cs ← BFn.callAll b arg ks
    mkStackPV s cs
  | .imo i ks => b.noRule arg (.imo i ks) none
  | .zero sh => do
    chk b.i (.zero sh : K X) arg
    .ok (.zero (sh.inA (!arg)) (sh.outA (!arg)) b.o (!arg))
/-- Every part. -/
noncomputable def BFn.callAll (b : BFn X) (arg : Bool) : List (K X) → Except Err (List (PV X))
  | [] => .ok []
  | k :: ks => do
    let c ← BFn.call b arg k
    let cs ← BFn.callAll b arg ks
    .ok (c :: cs)
end

/-- Functionals.  `comp i A F L`: `CompositeLinearFunctional` with input shapes `i` (`linfunctls/_arithmetic.py:84-120`);
`scaled`, `sum`: `_arithmetic.py:13-81`. -/
inductive Fn (X : Type)
  | base (b : BFn X)
  | point (f : Point X)
  | comp (i : Shapes) (A : Option LMat) (F : Fn X) (L : Option (LOp X))
  | scaled (F : Fn X) (c : ℝ)
  | sum (Fs : List (Fn X))

/-- `self.linfuncop(res, argnum)` if there is an operator (`_registry.py:49-50`). -/
noncomputable def preOp (L : Option (LOp X)) (arg : Bool) (k : K X) : Except Err (K X) :=
  match L with
  | none => .ok k
  | some L => match L.call arg k with
    | .ok k' => .ok k'
    | .error e => .error (liftErr e)

/-- `LinOpProcessVectorCrossCovariance(self.linop, res)` if there is a matrix (`_registry.py:54-59`). -/
def postOp (A : Option LMat) (c : PV X) : Except Err (PV X) :=
  match A with
  | none => .ok c
  | some A => mkLinopPV A c

mutual
/-- `F(k, argnum=arg)`: `_registry.py:43-61` (composite), 99-150 (point evaluations), `linfunctls/_arithmetic.py:33-35,
68-72` (scaled and summed functionals). -/
noncomputable def Fn.call (arg : Bool) : Fn X → K X → Except Err (PV X)
  | .base b, k => b.call arg k
  | .point f, k => do
    chk f.i k arg
    .ok (.point k f (!arg))
  | .comp i A F L, k => do
    chk i k arg
    let k' ← preOp L arg k
    let c ← Fn.call arg F k'
    postOp A c
  | .scaled F s, k => do
    let c ← Fn.call arg F k
    .ok (.scaled c s)
  | .sum Fs, k => do
    let cs ← Fn.callAll arg Fs k
    reducePV cs
/-- Every summand. -/
noncomputable def Fn.callAll (arg : Bool) : List (Fn X) → K X → Except Err (List (PV X))
  | [], _ => .ok []
  | F :: Fs, k => do
    let c ← Fn.call arg F k
    let cs ← Fn.callAll arg Fs k
    .ok (c :: cs)
end

/-! ## Meaning -/

/-- A matrix applied to a vector. -/
noncomputable def LMat.T (A : LMat) : (ℕ → ℝ) →ₗ[ℝ] (ℕ → ℝ) where
  toFun v := fun r => ∑ j ∈ Finset.range A.cols, A.a r j * v j
  map_add' v w := by funext r; simp [mul_add, Finset.sum_add_distrib]
  map_smul' c v := by
    funext r
    simp only [Pi.smul_apply, smul_eq_mul, RingHom.id_apply, Finset.mul_sum]
    exact Finset.sum_congr rfl fun _ _ => by ring

/-- The operator's meaning, the identity if there is none. -/
noncomputable def preT (L : Option (LOp X)) : Val X →ₗ[ℝ] Val X :=
  match L with
  | none => LinearMap.id
  | some L => L.T

/-- The matrix's meaning, the identity if there is none. -/
noncomputable def postT (A : Option LMat) : (ℕ → ℝ) →ₗ[ℝ] (ℕ → ℝ) :=
  match A with
  | none => LinearMap.id
  | some A => A.T

mutual
/-- The functional as a linear map from functions to vectors. -/
noncomputable def Fn.T : Fn X → Fl X
  | .base b => b.T
  | .point f => f.T
  | .comp _ A F L => postT A ∘ₗ Fn.T F ∘ₗ preT L
  | .scaled F c => c • Fn.T F
  | .sum Fs => sumFT Fs
/-- The sum. -/
noncomputable def sumFT : List (Fn X) → Fl X
  | [] => 0
  | F :: Fs => Fn.T F + sumFT Fs
end

mutual
/-- The functional maps functions of the shapes `i` to arrays of the shape `o`; all points have the shape `dom`. -/
def Fn.Typed (dom : Shp) : Fn X → Shapes → Shp → Prop
  | .base b, i, o => b.i = i ∧ b.o = o ∧ FLoc i.2 o b.T
  | .point f, i, o => f.i = i ∧ f.out = o ∧ f.xs.inS = dom ∧ f.i.1 = dom
  | .comp j A F L, i, o => j = i ∧ ∃ m n, (match L with | none => m = i | some L => L.Typed i m) ∧ Fn.Typed dom F m n ∧
      (match A with | none => n = o | some A => n = [A.cols] ∧ o = [A.rows])
  | .scaled F _, i, o => Fn.Typed dom F i o
  | .sum Fs, i, o => Fs ≠ [] ∧ typedFs dom Fs i o
/-- Every summand. -/
def typedFs (dom : Shp) : List (Fn X) → Shapes → Shp → Prop
  | [], _, _ => True
  | F :: Fs, i, o => Fn.Typed dom F i o ∧ typedFs dom Fs i o
end

mutual
/-- The operators inside meet the requirements of `CovAlg.apply_correct`. -/
def Fn.Doms (s : Option Shp) : Fn X → Prop
  | .base _ => True
  | .point _ => True
  | .comp _ _ F L => Fn.Doms s F ∧ (match L with | none => True | some L => L.Doms s)
  | .scaled F _ => Fn.Doms s F
  | .sum Fs => domsFs s Fs
/-- Every summand. -/
def domsFs (s : Option Shp) : List (Fn X) → Prop
  | [] => True
  | F :: Fs => Fn.Doms s F ∧ domsFs s Fs
end

mutual
/-- The functional contains a class with quadrature or closed forms. -/
def Fn.hasBase : Fn X → Bool
  | .base _ => true
  | .point _ => false
  | .comp _ _ F _ => Fn.hasBase F
  | .scaled F _ => Fn.hasBase F
  | .sum Fs => hasBaseAny Fs
/-- Some summand. -/
def hasBaseAny : List (Fn X) → Bool
  | [] => false
  | F :: Fs => Fn.hasBase F || hasBaseAny Fs
end

/-- `c` is the cross-covariance of the kernel `k` with the functional `T` of output shape `o` in argument `arg`. -/
structure GoodF (T : Fl X) (o : Shp) (arg : Bool) (k : K X) (c : PV X) : Prop where
  wf : c.WF
  inS : c.inS = k.sh.inA (!arg)
  outS : c.outS = k.sh.outA (!arg)
  rv : c.rv = o
  rev : c.rev = !arg
  den : ∀ x p r, p < (k.sh.outA (!arg)).prod → r < o.prod → c.den x p r = actF T (!arg) k.eval x p r

end LinPDE.XCov
