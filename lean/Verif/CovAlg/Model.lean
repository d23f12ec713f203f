import Verif.Op.Model

/-!
# Model of the algebra of covariance functions and of operators applied to it

`randprocs/covfuncs/_jax.py`, `_jax_arithmetic.py`, `_stack.py`, `_independent_multi_output.py`, `_zero.py`, `_utils.py`,
`covfuncs/linfuncops/_registry.py`, the general part (1-30) of `covfuncs/linfuncops/diffops/_registry.py`, and the
dispatch in `linfuncops/_linfuncop.py`, `_identity.py`, `_select_output.py`, `_arithmetic.py`,
`linfuncops/diffops/_lindiffop.py`, `_partial_derivative.py`, `_arithmetic.py`.

A kernel value is `X → X → ℕ → ℕ → ℝ`: two points and the positions (C order) of an entry in the two output shapes.
Base operators are arbitrary linear maps on functions that look only at the positions of their input codomain; a
differential operator is one of them, extended linearly to all functions.
-/

namespace LinPDE.CovAlg
open LinPDE.Nd LinPDE.Ops

/-- Exceptions; `notAKernel`: the call returns an object that is not a covariance function
(`linfuncops/diffops/_lindiffop.py:124-129` wraps a non-JAX kernel in a `JaxLambdaFunction`). -/
inductive Err
  | assertionError
  | typeError
  | valueError
  | indexError
  | notImplemented
  | notAKernel
deriving DecidableEq, Repr

/-- `input_shape_0, input_shape_1, output_shape_0, output_shape_1`. -/
structure KSh where
  in0 : Shp
  in1 : Shp
  out0 : Shp
  out1 : Shp
deriving DecidableEq, Repr

/-- Values of a covariance function. -/
abbrev KVal (X : Type) := X → X → ℕ → ℕ → ℝ

/-- Input shape of argument `arg` (`false`: 0, `true`: 1). -/
def KSh.inA (s : KSh) (arg : Bool) : Shp := if arg then s.in1 else s.in0
/-- Output shape belonging to argument `arg`. -/
def KSh.outA (s : KSh) (arg : Bool) : Shp := if arg then s.out1 else s.out0
/-- Replace the shapes belonging to argument `arg`. -/
def KSh.set (s : KSh) (arg : Bool) (o : Shapes) : KSh :=
  if arg then ⟨s.in0, o.1, s.out0, o.2⟩ else ⟨o.1, s.in1, o.2, s.out1⟩

/-- Covariance functions.  `base`: any class without arithmetic meaning; `cls` identifies the class and parameters for
the dispatch, `jax` says whether it has the `JaxCovarianceFunctionMixin`.  `scaled`, `sum`: `_jax_arithmetic.py:14-70`
(and the classes of the same meaning in ProbNum when a part has no JAX mixin).  `stack`: `_stack.py:14-50`, `idx` true
for `output_idx = 1`, parts in C order.  `imo`: `_independent_multi_output.py:11-30`.  `zero`: `_zero.py:11`. -/
inductive K (X : Type)
  | base (sh : KSh) (cls : ℕ) (jax : Bool) (ev : KVal X)
  | scaled (k : K X) (c : ℝ)
  | sum (sh : KSh) (ks : List (K X))
  | stack (in0 in1 : Shp) (shape : Shp) (idx : Bool) (ks : List (K X))
  | imo (inS : Shp) (ks : List (K X))
  | zero (sh : KSh)

variable {X : Type}

/-- The four shapes. -/
def K.sh : K X → KSh
  | .base sh _ _ _ => sh
  | .scaled k _ => k.sh
  | .sum sh _ => sh
  | .stack i0 i1 s idx _ => ⟨i0, i1, if idx then [] else s, if idx then s else []⟩
  | .imo i ks => ⟨i, i, [ks.length], [ks.length]⟩
  | .zero sh => sh

mutual
/-- `isinstance(k, JaxCovarianceFunctionMixin)`. -/
def K.isJax : K X → Bool
  | .base _ _ j _ => j
  | .scaled k _ => K.isJax k
  | .sum _ ks => allJax ks
  | .stack .. => true
  | .imo .. => true
  | .zero _ => true
/-- `_jax_arithmetic.py:51-55`. -/
def allJax : List (K X) → Bool
  | [] => true
  | k :: ks => K.isJax k && allJax ks
end

mutual
/-- Evaluation.  With `jax = false` the NumPy view: `_jax_arithmetic.py` (ProbNum's `_evaluate`), `_stack.py:60-72`,
`_independent_multi_output.py:36-51`, `_zero.py:12-20`.  With `jax = true` the JAX view: `_jax_arithmetic.py:30-31,
64-68`, `_independent_multi_output.py:53-70`, `_zero.py:22-30` and `_stack.py:74-86`, which drops the results of
`.at[...].set(...)` and returns zeros. -/
noncomputable def K.evalG (jax : Bool) : K X → KVal X
  | .base _ _ _ ev => ev
  | .scaled k c => fun x0 x1 p q => c * K.evalG jax k x0 x1 p q
  | .sum _ ks => fun x0 x1 p q => ((evalAll jax ks).map fun e => e x0 x1 p q).sum
  | .stack _ _ _ idx ks => fun x0 x1 p q => if jax then 0 else
      (((evalAll jax ks)[if idx then q else p]?).map fun e => e x0 x1 0 0).getD 0
  | .imo _ ks => fun x0 x1 p q => if p = q then (((evalAll jax ks)[p]?).map fun e => e x0 x1 0 0).getD 0 else 0
  | .zero _ => fun _ _ _ _ => 0
/-- Values of a list of kernels. -/
noncomputable def evalAll (jax : Bool) : List (K X) → List (KVal X)
  | [] => []
  | k :: ks => K.evalG jax k :: evalAll jax ks
end

/-- `k(x0, x1)`. -/
noncomputable def K.eval (k : K X) : KVal X := k.evalG false

/-- `k.jax(x0, x1)`. -/
noncomputable def K.evalJax (k : K X) : KVal X := k.evalG true

/-- `scalar * k`: `_jax.py:94-100` and `_jax_arithmetic.py:33-40`, which folds the scalars. -/
noncomputable def K.smul (c : ℝ) : K X → K X
  | .scaled k d => .scaled k (c * d)
  | k => .scaled k c

/-- ProbNum flattens sums of sums. -/
def expandK : List (K X) → List (K X)
  | [] => []
  | .sum _ gs :: ks => gs ++ expandK ks
  | k :: ks => k :: expandK ks

/-- ProbNum's `SumCovarianceFunction.__init__`: equal shapes. -/
def mkPnSum : List (K X) → Except Err (K X)
  | [] => .error .indexError
  | k :: ks => if (k :: ks).all fun m => m.sh = k.sh then .ok (.sum k.sh (expandK (k :: ks))) else .error .valueError

/-- `JaxSumCovarianceFunction.__init__` (`_jax_arithmetic.py:50-57`). -/
def mkJaxSum (ks : List (K X)) : Except Err (K X) := if allJax ks then mkPnSum ks else .error .typeError

/-- `k + m`: `_jax.py:84-92`; without the mixin ProbNum's sum. -/
def K.add (k m : K X) : Except Err (K X) := if k.isJax then mkJaxSum [k, m] else mkPnSum [k, m]

/-- `StackCovarianceFunction.__init__` (`_stack.py:17-50`) for an array of kernels of the given shape. -/
def mkStack (shape : Shp) (ks : List (K X)) (idx : Bool) : Except Err (K X) :=
  match ks with
  | [] => .error .indexError
  | k :: ms =>
    if ¬((k :: ms).all fun m => m.sh.in0 = k.sh.in0) then .error .valueError
    else if ¬((k :: ms).all fun m => m.sh.in1 = k.sh.in1) then .error .valueError
    else if ¬((k :: ms).all fun m => m.sh.out0 = [] ∧ m.sh.out1 = []) then .error .valueError
    else .ok (.stack k.sh.in0 k.sh.in1 shape idx (k :: ms))

/-- `IndependentMultiOutputCovarianceFunction.__init__` (`_independent_multi_output.py:12-30`). -/
def mkImo (ks : List (K X)) : Except Err (K X) :=
  match ks with
  | [] => .error .assertionError
  | k :: ms =>
    if (k :: ms).all fun m => m.sh.in0 = k.sh.in0 ∧ m.sh.in1 = k.sh.in0 ∧ m.sh.out0 = [] ∧ m.sh.out1 = []
    then .ok (.imo k.sh.in0 (k :: ms)) else .error .assertionError

/-- `validate_covfunc_transformation` (`_utils.py:6-41`); an `argnum` other than 0 and 1 is a
`ValueError` there (13-14) and is not represented. -/
def validate (i : Shapes) (k : K X) (arg : Bool) : Except Err Unit :=
  if k.sh.inA arg ≠ i.1 then .error .valueError
  else if k.sh.outA arg ≠ i.2 then .error .valueError
  else .ok ()

/-- The kernel with the linear map `T` applied in argument `arg`. -/
noncomputable def act (T : Val X →ₗ[ℝ] Val X) (arg : Bool) (k : KVal X) : KVal X := fun x0 x1 p q =>
  if arg then T (fun y r => k x0 y p r) x1 q else T (fun y r => k y x1 r q) x0 p

/-! ## Dispatch -/

/-- A class of operators: its shapes, the kernels it handles itself (`own`, registered on the class), whether a
kernel without a general rule is validated first (`pre`, the case for differential operators), and what happens when
the general rules raise `NotImplementedError` (`rescue`). -/
structure H (X : Type) where
  i : Shapes
  o : Shapes
  pre : Bool
  own : K X → Option (Except Err (K X))
  rescue : K X → Except Err (K X)

/-- One call of `self(k, argnum)`: registrations of the class, then the general rule `g`, then the rescue. -/
def H.wrap (h : H X) (k : K X) (g : Except Err (K X)) : Except Err (K X) :=
  match h.own k with
  | some r => r
  | none => match g with
    | .error .notImplemented => h.rescue k
    | r => r

/-- Kernels without a general rule: `linfuncops/_linfuncop.py:66-68`, for differential operators after the validation in
`covfuncs/linfuncops/diffops/_registry.py:17`. -/
def H.noRule (h : H X) (k : K X) (arg : Bool) : Except Err (K X) :=
  if h.pre then do
    validate h.i k arg
    .error .notImplemented
  else .error .notImplemented

mutual
/-- `self(k, argnum=arg)`: `covfuncs/linfuncops/_registry.py:15-63`. -/
noncomputable def H.call (h : H X) (arg : Bool) : K X → Except Err (K X)
  | .base sh cls j ev => h.wrap (.base sh cls j ev) (h.noRule (.base sh cls j ev) arg)
  | .scaled m c => h.wrap (.scaled m c) (if m.isJax then do
        validate h.i (.scaled m c) arg
        let m' ← H.call h arg m
        .ok (m'.smul c)
      else .error .notImplemented)
  | .sum sh ks => h.wrap (.sum sh ks) (if allJax ks then do
        validate h.i (.sum sh ks) arg
        let ks' ← callAll h arg ks
        mkJaxSum ks'
      else .error .notImplemented)
  | .stack i0 i1 s idx ks => h.wrap (.stack i0 i1 s idx ks) (do
      validate h.i (.stack i0 i1 s idx ks) arg
      if arg ≠ idx then
        let ks' ← callAll h arg ks
        mkStack s ks' idx
      else .error .notImplemented)
  | .imo i ks => h.wrap (.imo i ks) (h.noRule (.imo i ks) arg)
  | .zero sh => h.wrap (.zero sh) (do
      validate h.i (.zero sh : K X) arg
      .ok (.zero (sh.set arg h.o)))
/-- `self(covfunc, argnum)` for every part. -/
noncomputable def callAll (h : H X) (arg : Bool) : List (K X) → Except Err (List (K X))
  | [] => .ok []
  | k :: ks => do
    let k' ← H.call h arg k
    let ks' ← callAll h arg ks
    .ok (k' :: ks')
end

/-! ## Classes of operators -/

/-- `Identity` (`covfuncs/linfuncops/_registry.py:70-76`). -/
def identH (s : Shapes) (arg : Bool) : H X where
  i := s
  o := s
  pre := false
  own k := some do
    validate s k arg
    .ok k
  rescue _ := .error .notImplemented

/-- An index given to `SelectOutput`: an integer or a tuple. -/
inductive SIdx
  | int (n : ℤ)
  | tup (l : List ℤ)
deriving DecidableEq, Repr

/-- NumPy's treatment of one index: negative indices count from the end. -/
def normIdx (m : ℕ) (n : ℤ) : Except Err ℕ :=
  if 0 ≤ n ∧ n < m then .ok n.toNat else if -m ≤ n ∧ n < 0 then .ok (n + m).toNat else .error .indexError

/-- All indices of a tuple. -/
def normAll : Shp → List ℤ → Except Err (List ℕ)
  | [], [] => .ok []
  | m :: s, n :: l => do
    let a ← normIdx m n
    let b ← normAll s l
    .ok (a :: b)
  | [], _ :: _ => .error .indexError
  | _ :: _, [] => .error .typeError

/-- `linfuncops/_select_output.py:15-26`: `np.empty(input_shapes[1], dtype=[])[idx]` is an (empty) structured scalar, which
`as_shape` turns into `()`, when the index is complete; otherwise it is an array, which `as_shape` rejects. -/
def SIdx.resolve (shape : Shp) : SIdx → Except Err (List ℕ)
  | .int n => normAll shape [n]
  | .tup l => normAll shape l

/-- `SelectOutput` (`covfuncs/linfuncops/_registry.py:83-122`). -/
def selectH (i : Shapes) (idx : SIdx) (arg : Bool) : H X where
  i := i
  o := (i.1, [])
  pre := false
  own
    | .stack i0 i1 s j ks => if arg = j then some do
        validate i (.stack i0 i1 s j ks) arg
        let l ← idx.resolve s
        match ks[ravel s l]? with
        | some k => .ok k
        | none => .error .indexError
      else none
    | .imo inS ks => some do
        validate i (.imo inS ks) arg
        let zero : K X := .zero ⟨inS, inS, [], []⟩
        match idx with
        | .tup _ => .error .assertionError
        | .int n => do
          let a ← normIdx ks.length n
          match ks[a]? with
          | none => .error .indexError
          | some k =>
            let parts := List.replicate n.toNat zero ++ [k] ++ List.replicate ((ks.length : ℤ) - n - 1).toNat zero
            mkStack [parts.length] parts (!arg)
    | _ => none
  rescue _ := .error .notImplemented

/-- A class whose registrations cover the base kernels `cls` listed in `closed` (giving the class and the JAX flag of the
result), and nothing else. -/
structure Gen (X : Type) where
  i : Shapes
  o : Shapes
  T : Val X →ₗ[ℝ] Val X
  closed : ℕ → Bool → Option (ℕ × Bool)

/-- Base kernels with a registration of the class. -/
noncomputable def ownClosed (i o : Shapes) (T : Val X →ₗ[ℝ] Val X) (closed : ℕ → Bool → Option (ℕ × Bool)) (arg : Bool) :
    K X → Option (Except Err (K X))
  | .base sh cls j ev => match closed cls arg with
    | some (cls', j') => some do
      validate i (.base sh cls j ev) arg
      .ok (.base (sh.set arg o) cls' j' (act T arg ev))
    | none => none
  | _ => none

/-- Any other operator class. -/
noncomputable def Gen.h (g : Gen X) (arg : Bool) : H X where
  i := g.i
  o := g.o
  pre := false
  own := ownClosed g.i g.o g.T g.closed arg
  rescue _ := .error .notImplemented

/-- `PartialDerivative`: domain shape, order, meaning and the kernels with a closed form. -/
structure PD (X : Type) where
  dom : Shp
  order : ℕ
  T : Val X →ₗ[ℝ] Val X
  closed : ℕ → Bool → Option (ℕ × Bool)

/-- Class of the kernels made by the JAX fallback. -/
def lambdaCls : ℕ := 0

/-- Registrations of `PartialDerivative`: closed forms (`diffops/_registry.py:80-131`), and order 0 returns its argument
(`linfuncops/diffops/_partial_derivative.py:57-61`) without looking at it. -/
noncomputable def PD.own (D : PD X) (arg : Bool) (k : K X) : Option (Except Err (K X)) :=
  match ownClosed (D.dom, []) (D.dom, []) D.T D.closed arg k with
  | some r => some r
  | none => if D.order = 0 then some (.ok k) else none

/-- The JAX fallback: `covfuncs/linfuncops/diffops/_registry.py:22-29` wraps the derivative of `k.jax` in a
`JaxLambdaCovarianceFunction`, passing only `input_shape`, so that both output shapes are `()`. -/
noncomputable def jaxFallback (dom : Shp) (T : Val X →ₗ[ℝ] Val X) (arg : Bool) (k : K X) : K X :=
  .base ⟨dom, dom, [], []⟩ lambdaCls true (act T arg k.evalJax)

/-- `PartialDerivative.__call__`: `_lindiffop.py:130-143` refuses to decompose a partial derivative; then the fallback. -/
noncomputable def PD.h (D : PD X) (arg : Bool) : H X where
  i := (D.dom, [])
  o := (D.dom, [])
  pre := true
  own := D.own arg
  rescue k := if k.isJax then .ok (jaxFallback D.dom D.T arg k) else .error .notAKernel

/-- `_PartialDerivativeNoJax` (`_partial_derivative.py:115-128`): no fallback. -/
noncomputable def PD.hNoJax (D : PD X) (arg : Bool) : H X where
  i := (D.dom, [])
  o := (D.dom, [])
  pre := true
  own := D.own arg
  rescue _ := .error .notImplemented

/-- `functools.reduce(operator.add, (f(a) for a in as))`. -/
def reduceK {α : Type} (f : α → Except Err (K X)) : List α → Except Err (K X)
  | [] => .error .typeError
  | a :: as => do
    let k ← f a
    as.foldlM (fun acc b => do
      let m ← f b
      acc.add m) k

/-- `LinearDifferentialOperator`: shapes of its input, coefficients per entry of the codomain, closed forms, and whether
the class brings its own JAX fallback (`WeightedLaplacian`, `DirectionalDerivative`). -/
structure Diff (X : Type) where
  i : Shapes
  terms : List (List ℕ × List (PD X × ℝ))
  closed : ℕ → Bool → Option (ℕ × Bool)
  custom : Bool

/-- The entry a summand looks at (`_lindiffop.py:84-87`). -/
noncomputable def Diff.entry (D : Diff X) (arg : Bool) (k : K X) (out : List ℕ) : Except Err (K X) :=
  if out = [] then .ok k else (selectH D.i (.tup (out.map Int.ofNat)) arg).call arg k

/-- One summand `coefficient * PartialDerivative @ SelectOutput` applied to `k` (`_lindiffop.py:76-101`). -/
noncomputable def Diff.summand (D : Diff X) (arg : Bool) (k : K X) (out : List ℕ) (t : PD X × ℝ) : Except Err (K X) := do
  let m ← D.entry arg k out
  let m' ← (t.1.hNoJax arg).call arg m
  .ok (m'.smul t.2)

/-- `_to_sum_no_jax()(k, argnum)`; a sum without summands raises `IndexError` when it is built
(`linfuncops/_arithmetic.py:64-70`). -/
noncomputable def Diff.toSumNoJax (D : Diff X) (arg : Bool) (k : K X) : Except Err (K X) :=
  if D.terms = [] ∨ ∃ t ∈ D.terms, t.2 = [] then .error .indexError
  else reduceK (fun t => reduceK (D.summand arg k t.1) t.2) D.terms

/-- Entry of a function. -/
def selLin (X : Type) (n : ℕ) : Val X →ₗ[ℝ] Val X where
  toFun f := fun x _ => f x n
  map_add' _ _ := rfl
  map_smul' _ _ := rfl

/-- What the differential operator means: the sum over its coefficients. -/
noncomputable def Diff.T (D : Diff X) : Val X →ₗ[ℝ] Val X :=
  (D.terms.map fun t => (t.2.map fun u => u.2 • u.1.T ∘ₗ selLin X (ravel D.i.2 t.1)).sum).sum

/-- `LinearDifferentialOperator.__call__`: `covfuncs/linfuncops/diffops/_registry.py:15-29`, `_lindiffop.py:103-148`.  The
generic `_jax_fallback` adds `JaxLambdaFunction`s of one argument, so evaluating the resulting kernel at two points is
a `TypeError`; it is reported here at the call. -/
noncomputable def Diff.h (D : Diff X) (arg : Bool) : H X where
  i := D.i
  o := (D.i.1, [])
  pre := true
  own := ownClosed D.i (D.i.1, []) D.T D.closed arg
  rescue k := match D.toSumNoJax arg k with
    | .error .notImplemented =>
      if k.isJax then if D.custom then .ok (jaxFallback D.i.1 D.T arg k) else .error .typeError
      else .error .notAKernel
    | r => r

/-- Operators. -/
inductive LOp (X : Type)
  | ident (s : Shapes)
  | select (i : Shapes) (idx : SIdx)
  | gen (g : Gen X)
  | pd (D : PD X)
  | diff (D : Diff X)
  | scaled (L : LOp X) (c : ℝ)
  | sum (Ls : List (LOp X))
  | comp (Ls : List (LOp X))

mutual
/-- `L(k, argnum)`: `linfuncops/_arithmetic.py:36-38, 98-102, 126-132` for scaled, summed and composed operators
(`diffops/_arithmetic.py:34-36` for scaled differential operators). -/
noncomputable def LOp.call (arg : Bool) : LOp X → K X → Except Err (K X)
  | .ident s, k => (identH s arg).call arg k
  | .select i idx, k => (selectH i idx arg).call arg k
  | .gen g, k => (g.h arg).call arg k
  | .pd D, k => (D.h arg).call arg k
  | .diff D, k => (D.h arg).call arg k
  | .scaled L c, k => do
    let m ← LOp.call arg L k
    .ok (m.smul c)
  | .sum Ls, k => reduceOps arg none Ls k
  | .comp Ls, k => callSeq arg Ls k
/-- `functools.reduce(operator.add, (summand(f) for summand in summands))`, with the sum so far. -/
noncomputable def reduceOps (arg : Bool) : Option (K X) → List (LOp X) → K X → Except Err (K X)
  | none, [], _ => .error .typeError
  | some acc, [], _ => .ok acc
  | none, L :: Ls, k => do
    let m ← LOp.call arg L k
    reduceOps arg (some m) Ls k
  | some acc, L :: Ls, k => do
    let m ← LOp.call arg L k
    let acc' ← acc.add m
    reduceOps arg (some acc') Ls k
/-- The composition: the last operator is applied first. -/
noncomputable def callSeq (arg : Bool) : List (LOp X) → K X → Except Err (K X)
  | [], k => .ok k
  | L :: Ls, k => do
    let m ← callSeq arg Ls k
    LOp.call arg L m
end

end LinPDE.CovAlg
