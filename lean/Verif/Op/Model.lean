import Verif.Nd.Basic
import Verif.Coeff.Model
import Mathlib.Data.Real.Basic
import Mathlib.Algebra.Module.LinearMap.Defs
import Mathlib.Algebra.Module.LinearMap.End
import Mathlib.Algebra.Module.Pi
import Mathlib.Algebra.BigOperators.Pi
import Mathlib.Algebra.BigOperators.Ring.Finset

/-!
# Model of function, operator and functional arithmetic

`functions/_jax.py`, `functions/_jax_arithmetic.py`, `functions/_constant.py`, `linfuncops/_linfuncop.py`,
`linfuncops/_arithmetic.py`, `linfuncops/_identity.py`, `linfuncops/diffops/_arithmetic.py`,
`linfunctls/_linfunctl.py`, `linfunctls/_arithmetic.py`.

A function value is `X → ℕ → ℝ`: the argument is a point (of any domain) and the position of an entry of the output
array in C order.  Base operators and functionals are arbitrary linear maps on such values.
-/

namespace LinPDE.Ops
open LinPDE.Nd

/-- Exceptions. -/
inductive Err
  | assertionError
  | typeError
  | valueError
  | indexError
  | recursionError
deriving DecidableEq, Repr

/-- `(domain shape, codomain shape)`. -/
abbrev Shapes := Shp × Shp

/-- Values of a function. -/
abbrev Val (X : Type) := X → ℕ → ℝ

/-- Evaluate a partial function on every element, stopping at the first exception. -/
def mapE {α β ε : Type} (f : α → Except ε β) : List α → Except ε (List β)
  | [] => .ok []
  | a :: as => do
    let b ← f a
    let bs ← mapE f as
    .ok (b :: bs)

/-! ## Functions -/

/-- `JaxFunction` and the subclasses that take part in arithmetic: `Constant` (`_constant.py:12-43`), `Zero`
(52-60), `JaxScaledFunction` and `JaxSumFunction` (`_jax_arithmetic.py`); every other function is a `base`. -/
inductive JFn (X : Type)
  | base (sh : Shapes) (ev : Val X)
  | const (inS outS : Shp) (value : ℕ → ℝ)
  | zero (inS outS : Shp)
  | scaled (f : JFn X) (c : ℝ)
  | sum (sh : Shapes) (fs : List (JFn X))

variable {X : Type}

/-- Shapes of a function. -/
def JFn.sh : JFn X → Shapes
  | .base sh _ => sh
  | .const i o _ => (i, o)
  | .zero i o => (i, o)
  | .scaled f _ => f.sh
  | .sum sh _ => sh

mutual
/-- Evaluation: `_constant.py:22-32`, `_jax_arithmetic.py:35-39` (scaled), `67-75` (sum, `functools.reduce`). -/
noncomputable def JFn.eval : JFn X → Val X
  | .base _ ev => ev
  | .const _ _ v => fun _ => v
  | .zero _ _ => fun _ _ => 0
  | .scaled f c => fun x p => c * JFn.eval f x p
  | .sum _ [] => fun _ _ => 0
  | .sum _ (f :: fs) => evalFrom (JFn.eval f) fs
/-- The accumulator of `functools.reduce`. -/
noncomputable def evalFrom : Val X → List (JFn X) → Val X
  | acc, [] => acc
  | acc, f :: fs => evalFrom (fun x p => acc x p + JFn.eval f x p) fs
end

/-- `_jax_arithmetic.py:77-87` (`_expand_summands`). -/
def expand : List (JFn X) → List (JFn X)
  | [] => []
  | .sum _ gs :: fs => gs ++ expand fs
  | f :: fs => f :: expand fs

/-- `_jax_arithmetic.py:52-61` (`JaxSumFunction.__init__`). -/
def mkSum : List (JFn X) → Except Err (JFn X)
  | [] => .error .indexError
  | f :: fs => if (f :: fs).all fun g => g.sh == f.sh then .ok (.sum f.sh (expand (f :: fs))) else .error .assertionError

/-- Position in an array of shape `s` of the entry that is broadcast to position `p` of shape `r`. -/
def bpos (s r : Shp) (p : ℕ) : ℕ :=
  let idx := unravel r p
  ravel s (List.zipWith (fun n i => if n = 1 then 0 else i) s (idx.drop (idx.length - s.length)))

/-- `_constant.py:45-49`: sum of two constants (NumPy addition of the values, with broadcasting). -/
noncomputable def constAdd (i s : Shp) (v : ℕ → ℝ) (i' t : Shp) (w : ℕ → ℝ) : Except Err (JFn X) :=
  if i ≠ i' then .error .assertionError
  else if s = t then .ok (.const i s fun p => v p + w p)
  else match Coeff.bcast s t with
    | none => .error .valueError
    | some r => .ok (.const i r fun p => v (bpos s r p) + w (bpos t r p))

/-- `_constant.py:63-69`: adding `Zero` on the right. -/
def addZero (f : JFn X) (i o : Shp) : Except Err (JFn X) :=
  if i ≠ f.sh.1 then .error .assertionError else if o ≠ f.sh.2 then .error .assertionError else .ok f

/-- `+` on functions: `_jax.py:41-47` and `_constant.py:34-36, 45-49, 63-69` (dispatch on the right operand). -/
noncomputable def JFn.add (f g : JFn X) : Except Err (JFn X) :=
  match f, g with
  | f, .zero i o => addZero f i o
  | .const i s v, .const i' t w => constAdd i s v i' t w
  | .zero i s, .const i' t w => constAdd i s (fun _ => 0) i' t w
  | f, g => mkSum [f, g]

/-- Scalar multiple: `_jax.py:49-58`, `_jax_arithmetic.py:41-48`, `_constant.py:38-42, 56-60`. -/
noncomputable def JFn.smul (c : ℝ) : JFn X → JFn X
  | .scaled f d => .scaled f (c * d)
  | .const i s v => .const i s fun p => c * v p
  | .zero i s => .zero i s
  | f => .scaled f c

/-- `Function.__neg__` (probnum): `-1.0 * self`. -/
noncomputable def JFn.neg (f : JFn X) : JFn X := f.smul (-1)

/-- `Function.__sub__` (probnum): `self + (-other)`. -/
noncomputable def JFn.sub (f g : JFn X) : Except Err (JFn X) := f.add g.neg

/-! ## Operators -/

/-- Operators: `Identity`, a base operator (`diff`: a `LinearDifferentialOperator`), and the arithmetic classes.
`scaledDiff` is `ScaledLinearDifferentialOperator`. -/
inductive Op (X : Type)
  | ident (s : Shapes)
  | base (i o : Shapes) (T : Val X →ₗ[ℝ] Val X) (diff : Bool)
  | scaled (L : Op X) (c : ℝ)
  | scaledDiff (L : Op X) (c : ℝ)
  | sum (i o : Shapes) (ops : List (Op X))
  | comp (i o : Shapes) (ops : List (Op X))

/-- `input_shapes`. -/
def Op.inS : Op X → Shapes
  | .ident s => s
  | .base i _ _ _ => i
  | .scaled L _ => L.inS
  | .scaledDiff L _ => L.inS
  | .sum i _ _ => i
  | .comp i _ _ => i

/-- `output_shapes`. -/
def Op.outS : Op X → Shapes
  | .ident s => s
  | .base _ o _ _ => o
  | .scaled L _ => L.outS
  | .scaledDiff L _ => L.outS
  | .sum _ o _ => o
  | .comp _ o _ => o

/-- `linfuncops/_arithmetic.py:63-91` (`SumLinearFunctionOperator.__init__`). -/
def Op.mkSum : List (Op X) → Except Err (Op X)
  | [] => .error .indexError
  | L :: Ls => if (L :: Ls).all fun M => M.inS == L.inS && M.outS == L.outS
      then .ok (.sum L.inS L.outS (L :: Ls)) else .error .assertionError

/-- Adjacent shapes of a composition fit. -/
def chainOK : List (Op X) → Bool
  | L0 :: L1 :: Ls => L0.inS == L1.outS && chainOK (L1 :: Ls)
  | _ => true

/-- `linfuncops/_arithmetic.py:112-124` (`CompositeLinearFunctionOperator.__init__`). -/
def Op.mkComp (Ls : List (Op X)) : Except Err (Op X) :=
  if chainOK Ls then
    match Ls.head?, Ls.getLast? with
    | some L0, some Ln => .ok (.comp Ln.inS L0.outS Ls)
    | _, _ => .error .indexError
  else .error .assertionError

/-- Scalar multiple of an operator: `_linfuncop.py:120-128`, `_arithmetic.py:47-54` (folding),
`diffops/_lindiffop.py:150-158`, and `diffops/_arithmetic.py:48-53`, which passes a positional-only parameter by
keyword and raises. -/
noncomputable def Op.smul (c : ℝ) : Op X → Except Err (Op X)
  | .scaled L d => .ok (.scaled L (c * d))
  | .scaledDiff _ _ => .error .typeError
  | .base i o T diff => if diff then .ok (.scaledDiff (.base i o T diff) c) else .ok (.scaled (.base i o T diff) c)
  | L => .ok (.scaled L c)

/-- `_linfuncop.py:107-108`. -/
noncomputable def Op.neg (L : Op X) : Except Err (Op X) := L.smul (-1)

/-- `_linfuncop.py:110-115`. -/
def Op.add (L M : Op X) : Except Err (Op X) := Op.mkSum [L, M]

/-- `_linfuncop.py:117-118`. -/
noncomputable def Op.sub (L M : Op X) : Except Err (Op X) := do
  let N ← M.neg
  L.add N

mutual
/-- `_linfuncop.py:130-136` and `_arithmetic.py:142-144`: composition distributes over a sum on the right. -/
def Op.matmul (L : Op X) : Op X → Except Err (Op X)
  | .sum _ _ ops => do
    let Ls ← matmulAll L ops
    Op.mkSum Ls
  | .ident s => Op.mkComp [L, .ident s]
  | .base i o T b => Op.mkComp [L, .base i o T b]
  | .scaled M c => Op.mkComp [L, .scaled M c]
  | .scaledDiff M c => Op.mkComp [L, .scaledDiff M c]
  | .comp i o ops => Op.mkComp [L, .comp i o ops]
/-- `self @ summand for summand in other.summands`. -/
def matmulAll (L : Op X) : List (Op X) → Except Err (List (Op X))
  | [] => .ok []
  | M :: Ms => do
    let N ← Op.matmul L M
    let Ns ← matmulAll L Ms
    .ok (N :: Ns)
end

/-- Base operator applied to a function; the first argument is the recursion limit of the interpreter.
`_linfuncop.py:72-91`: sums are mapped (76-78), a scaled function calls the operator on **itself** (80-82), `Zero`
gives `Zero` (84-91); other functions are handled by the operator (`diffops/_lindiffop.py:103-129`). -/
noncomputable def callBase (i o : Shapes) (T : Val X →ₗ[ℝ] Val X) : ℕ → JFn X → Except Err (JFn X)
  | 0, _ => .error .recursionError
  | n + 1, .sum _ fs => do
    let gs ← mapE (callBase i o T n) fs
    mkSum gs
  | n + 1, .scaled f c => do
    let g ← callBase i o T n (.scaled f c)
    .ok (.scaled g c)
  | _ + 1, .zero _ _ => .ok (.zero o.1 o.2)
  | _ + 1, f => if f.sh ≠ i then .error .valueError else .ok (.base o (T f.eval))

/-- `functools.reduce(operator.add, …)` on functions. -/
noncomputable def reduceAdd : List (JFn X) → Except Err (JFn X)
  | [] => .error .typeError
  | f :: fs => fs.foldl (fun acc g => acc >>= fun a => JFn.add a g) (.ok f)

mutual
/-- Application: `_identity.py:24-32`, `_arithmetic.py:36-38` (scaled), `98-102` (sum), `126-132` (composition),
`diffops/_arithmetic.py:34-36`. -/
noncomputable def Op.call (n : ℕ) : Op X → JFn X → Except Err (JFn X)
  | .ident s, f => if f.sh ≠ s then .error .valueError else .ok f
  | .base i o T _, f => callBase i o T n f
  | .scaled L c, f => do
    let g ← Op.call n L f
    .ok (g.smul c)
  | .scaledDiff L c, f => do
    let g ← Op.call n L f
    .ok (g.smul c)
  | .sum _ _ ops, f => do
    let gs ← callAll n ops f
    reduceAdd gs
  | .comp _ _ ops, f => callSeq n ops f
/-- All summands applied to the same function. -/
noncomputable def callAll (n : ℕ) : List (Op X) → JFn X → Except Err (List (JFn X))
  | [], _ => .ok []
  | L :: Ls, f => do
    let g ← Op.call n L f
    let gs ← callAll n Ls f
    .ok (g :: gs)
/-- The composition: the last operator is applied first. -/
noncomputable def callSeq (n : ℕ) : List (Op X) → JFn X → Except Err (JFn X)
  | [], f => .ok f
  | L :: Ls, f => do
    let g ← callSeq n Ls f
    Op.call n L g
end

/-! ## Functionals -/

/-- An array of values. -/
structure Arr where
  shape : Shp
  get : ℕ → ℝ

/-- Sum of arrays: equal shapes, or one of them a scalar (all that can occur; other shapes do not broadcast here). -/
noncomputable def Arr.add (a b : Arr) : Except Err Arr :=
  if a.shape = b.shape then .ok ⟨a.shape, fun p => a.get p + b.get p⟩
  else if a.shape = [] then .ok ⟨b.shape, fun p => a.get 0 + b.get p⟩
  else if b.shape = [] then .ok ⟨a.shape, fun p => a.get p + b.get 0⟩
  else .error .valueError

/-- Scalar multiple of an array. -/
noncomputable def Arr.smul (c : ℝ) (a : Arr) : Arr := ⟨a.shape, fun p => c * a.get p⟩

/-- A matrix-backed linear operator. -/
structure LinOp where
  m : ℕ
  n : ℕ
  mat : ℕ → ℕ → ℝ

/-- Product of vector and matrix. -/
noncomputable def LinOp.mv (A : LinOp) (v : ℕ → ℝ) : ℕ → ℝ := fun p => ∑ q ∈ Finset.range A.n, A.mat p q * v q

/-- `linop(v, axis=-1)`; needs a vector of the right length. -/
noncomputable def LinOp.call (A : LinOp) (v : Arr) : Except Err Arr :=
  if v.shape = [A.n] then .ok ⟨[A.m], A.mv v.get⟩ else .error .valueError

/-- `other @ linop`. -/
noncomputable def LinOp.mul (A B : LinOp) : Except Err LinOp :=
  if A.n = B.m then .ok ⟨A.m, B.n, fun p r => ∑ q ∈ Finset.range A.n, A.mat p q * B.mat q r⟩ else .error .valueError

/-- Functionals: base functionals and the classes of `linfunctls/_arithmetic.py`. -/
inductive Fnl (X : Type)
  | base (i : Shapes) (o : Shp) (T : Val X →ₗ[ℝ] (ℕ → ℝ))
  | scaled (F : Fnl X) (c : ℝ)
  | sum (i : Shapes) (o : Shp) (fs : List (Fnl X))
  | comp (A : Option LinOp) (F : Fnl X) (L : Option (Op X))

/-- `input_shapes` (`_arithmetic.py:111-116` for compositions). -/
def Fnl.inS : Fnl X → Shapes
  | .base i _ _ => i
  | .scaled F _ => F.inS
  | .sum i _ _ => i
  | .comp _ F L => match L with
    | none => F.inS
    | some L => L.inS

/-- `output_shape` (`_arithmetic.py:117-121` for compositions). -/
def Fnl.outS : Fnl X → Shp
  | .base _ o _ => o
  | .scaled F _ => F.outS
  | .sum _ o _ => o
  | .comp A F _ => match A with
    | none => F.outS
    | some A => [A.m]

/-- `linfunctls/_arithmetic.py:59-79` (`SumLinearFunctional.__init__`). -/
def Fnl.mkSum : List (Fnl X) → Except Err (Fnl X)
  | [] => .error .indexError
  | F :: Fs => if (F :: Fs).all fun G => G.inS == F.inS && G.outS == F.outS
      then .ok (.sum F.inS F.outS (F :: Fs)) else .error .assertionError

/-- `linfunctls/_arithmetic.py:93-122` (`CompositeLinearFunctional.__init__`). -/
def Fnl.mkComp (A : Option LinOp) (F : Fnl X) (L : Option (Op X)) : Except Err (Fnl X) :=
  if (match L with | none => true | some L => L.outS == F.inS) then
    if (match A with | none => true | some A => F.outS == [A.n]) then .ok (.comp A F L) else .error .assertionError
  else .error .assertionError

/-- `linfunctls/_linfunctl.py:93-101` and `_arithmetic.py:48-55`. -/
noncomputable def Fnl.smul (c : ℝ) : Fnl X → Fnl X
  | .scaled F d => .scaled F (c * d)
  | F => .scaled F c

/-- `_linfunctl.py:75-76`. -/
noncomputable def Fnl.neg (F : Fnl X) : Fnl X := F.smul (-1)

/-- `_linfunctl.py:80-88`. -/
def Fnl.add (F G : Fnl X) : Except Err (Fnl X) := Fnl.mkSum [F, G]

/-- `_linfunctl.py:90-91`. -/
noncomputable def Fnl.sub (F G : Fnl X) : Except Err (Fnl X) := F.add G.neg

/-- `F @ L`: `_linfunctl.py:103-115` and `_arithmetic.py:154-164`. -/
def Fnl.matmul : Fnl X → Op X → Except Err (Fnl X)
  | .comp A F none, M => Fnl.mkComp A F (some M)
  | .comp A F (some L), M => do
    let N ← L.matmul M
    Fnl.mkComp A F (some N)
  | F, M => Fnl.mkComp none F (some M)

/-- `A @ F`: `_linfunctl.py:117-129` and `_arithmetic.py:166-174`. -/
noncomputable def Fnl.rmatmul (A : LinOp) : Fnl X → Except Err (Fnl X)
  | .comp none F L => Fnl.mkComp (some A) F L
  | .comp (some B) F L => do
    let C ← A.mul B
    Fnl.mkComp (some C) F L
  | F => Fnl.mkComp (some A) F none

/-- Base functional applied to a function: `_linfunctl.py:59-73`; sums use Python's `sum` (starting at `0`), a scaled
function calls the functional on **itself**, `Zero` gives an array of shape `()`. -/
noncomputable def callFnlBase (i : Shapes) (o : Shp) (T : Val X →ₗ[ℝ] (ℕ → ℝ)) : ℕ → JFn X → Except Err Arr
  | 0, _ => .error .recursionError
  | n + 1, .sum _ fs => do
    let vs ← mapE (callFnlBase i o T n) fs
    vs.foldl (fun acc v => acc >>= fun a => Arr.add a v) (.ok ⟨[], fun _ => 0⟩)
  | n + 1, .scaled f c => do
    let v ← callFnlBase i o T n (.scaled f c)
    .ok (v.smul c)
  | _ + 1, .zero _ _ => .ok ⟨[], fun _ => 0⟩
  | _ + 1, f => if f.sh ≠ i then .error .valueError else .ok ⟨o, T f.eval⟩

/-- `functools.reduce(operator.add, …)` on arrays. -/
noncomputable def reduceArr : List Arr → Except Err Arr
  | [] => .error .typeError
  | v :: vs => vs.foldl (fun acc w => acc >>= fun a => Arr.add a w) (.ok v)

/-- Apply the optional operator of a composition. -/
noncomputable def callOpt (n : ℕ) (L : Option (Op X)) (f : JFn X) : Except Err (JFn X) :=
  match L with
  | none => .ok f
  | some L => L.call n f

/-- Apply the optional matrix of a composition. -/
noncomputable def linOpt (A : Option LinOp) (v : Arr) : Except Err Arr :=
  match A with
  | none => .ok v
  | some A => A.call v

mutual
/-- Application: `linfunctls/_arithmetic.py:37-39` (scaled), `81-85` (sum), `140-152` (composition). -/
noncomputable def Fnl.call (n : ℕ) : Fnl X → JFn X → Except Err Arr
  | .base i o T, f => callFnlBase i o T n f
  | .scaled F c, f => do
    let v ← Fnl.call n F f
    .ok (v.smul c)
  | .sum _ _ fs, f => do
    let vs ← fnlAll n fs f
    reduceArr vs
  | .comp A F L, f => do
    let g ← callOpt n L f
    let v ← Fnl.call n F g
    linOpt A v
/-- All summands. -/
noncomputable def fnlAll (n : ℕ) : List (Fnl X) → JFn X → Except Err (List Arr)
  | [], _ => .ok []
  | F :: Fs, f => do
    let v ← Fnl.call n F f
    let vs ← fnlAll n Fs f
    .ok (v :: vs)
end

/-! ## Specification: expressions and their meaning -/

/-- Function expressions as a user writes them. -/
inductive FExpr (X : Type)
  | leaf (sh : Shapes) (ev : Val X)
  | const (inS outS : Shp) (value : ℕ → ℝ)
  | zero (inS outS : Shp)
  | add (e e' : FExpr X)
  | sub (e e' : FExpr X)
  | neg (e : FExpr X)
  | smul (c : ℝ) (e : FExpr X)

/-- The object the code builds. -/
noncomputable def FExpr.build : FExpr X → Except Err (JFn X)
  | .leaf sh ev => .ok (.base sh ev)
  | .const i o v => .ok (.const i o v)
  | .zero i o => .ok (.zero i o)
  | .add e e' => do
    let f ← e.build
    let g ← e'.build
    f.add g
  | .sub e e' => do
    let f ← e.build
    let g ← e'.build
    f.sub g
  | .neg e => do
    let f ← e.build
    .ok f.neg
  | .smul c e => do
    let f ← e.build
    .ok (f.smul c)

/-- Meaning: pointwise arithmetic. -/
noncomputable def FExpr.den : FExpr X → Val X
  | .leaf _ ev => ev
  | .const _ _ v => fun _ => v
  | .zero _ _ => 0
  | .add e e' => e.den + e'.den
  | .sub e e' => e.den - e'.den
  | .neg e => -e.den
  | .smul c e => c • e.den

/-- All leaves have the given shapes. -/
def FExpr.Typed (s : Shapes) : FExpr X → Prop
  | .leaf sh _ => sh = s
  | .const i o _ => (i, o) = s
  | .zero i o => (i, o) = s
  | .add e e' => e.Typed s ∧ e'.Typed s
  | .sub e e' => e.Typed s ∧ e'.Typed s
  | .neg e => e.Typed s
  | .smul _ e => e.Typed s

/-- Operator expressions. -/
inductive OExpr (X : Type)
  | ident (s : Shapes)
  | base (i o : Shapes) (T : Val X →ₗ[ℝ] Val X) (diff : Bool)
  | add (e e' : OExpr X)
  | sub (e e' : OExpr X)
  | neg (e : OExpr X)
  | smul (c : ℝ) (e : OExpr X)
  | matmul (e e' : OExpr X)

/-- The object the code builds. -/
noncomputable def OExpr.build : OExpr X → Except Err (Op X)
  | .ident s => .ok (.ident s)
  | .base i o T b => .ok (.base i o T b)
  | .add e e' => do
    let L ← e.build
    let M ← e'.build
    L.add M
  | .sub e e' => do
    let L ← e.build
    let M ← e'.build
    L.sub M
  | .neg e => do
    let L ← e.build
    L.neg
  | .smul c e => do
    let L ← e.build
    L.smul c
  | .matmul e e' => do
    let L ← e.build
    let M ← e'.build
    L.matmul M

/-- Meaning: the algebra of linear maps. -/
noncomputable def OExpr.den : OExpr X → Module.End ℝ (Val X)
  | .ident _ => 1
  | .base _ _ T _ => T
  | .add e e' => e.den + e'.den
  | .sub e e' => e.den - e'.den
  | .neg e => -e.den
  | .smul c e => c • e.den
  | .matmul e e' => e.den * e'.den

/-- The expression fits together, with the given input and output shapes. -/
def OExpr.Typed : OExpr X → Shapes → Shapes → Prop
  | .ident s, i, o => s = i ∧ s = o
  | .base i' o' _ _, i, o => i' = i ∧ o' = o
  | .add e e', i, o => e.Typed i o ∧ e'.Typed i o
  | .sub e e', i, o => e.Typed i o ∧ e'.Typed i o
  | .neg e, i, o => e.Typed i o
  | .smul _ e, i, o => e.Typed i o
  | .matmul e e', i, o => ∃ m, e'.Typed i m ∧ e.Typed m o

/-- Functional expressions. -/
inductive LExpr (X : Type)
  | base (i : Shapes) (o : Shp) (T : Val X →ₗ[ℝ] (ℕ → ℝ))
  | add (e e' : LExpr X)
  | sub (e e' : LExpr X)
  | neg (e : LExpr X)
  | smul (c : ℝ) (e : LExpr X)
  | matmul (e : LExpr X) (L : OExpr X)
  | rmatmul (A : LinOp) (e : LExpr X)

/-- The object the code builds. -/
noncomputable def LExpr.build : LExpr X → Except Err (Fnl X)
  | .base i o T => .ok (.base i o T)
  | .add e e' => do
    let F ← e.build
    let G ← e'.build
    F.add G
  | .sub e e' => do
    let F ← e.build
    let G ← e'.build
    F.sub G
  | .neg e => do
    let F ← e.build
    .ok F.neg
  | .smul c e => do
    let F ← e.build
    .ok (F.smul c)
  | .matmul e L => do
    let F ← e.build
    let M ← L.build
    F.matmul M
  | .rmatmul A e => do
    let F ← e.build
    F.rmatmul A

/-- Matrix as a linear map. -/
noncomputable def LinOp.lin (A : LinOp) : (ℕ → ℝ) →ₗ[ℝ] (ℕ → ℝ) where
  toFun v := A.mv v
  map_add' v w := by
    funext p; simp [LinOp.mv, mul_add, Finset.sum_add_distrib]
  map_smul' c v := by
    funext p; simp only [LinOp.mv, Pi.smul_apply, smul_eq_mul, RingHom.id_apply, Finset.mul_sum]
    exact Finset.sum_congr rfl fun q _ => by rw [← mul_assoc, ← mul_assoc, mul_comm c]

/-- Meaning. -/
noncomputable def LExpr.den : LExpr X → (Val X →ₗ[ℝ] (ℕ → ℝ))
  | .base _ _ T => T
  | .add e e' => e.den + e'.den
  | .sub e e' => e.den - e'.den
  | .neg e => -e.den
  | .smul c e => c • e.den
  | .matmul e L => e.den ∘ₗ L.den
  | .rmatmul A e => A.lin ∘ₗ e.den

/-- The expression fits together. -/
def LExpr.Typed : LExpr X → Shapes → Shp → Prop
  | .base i' o' _, i, o => i' = i ∧ o' = o
  | .add e e', i, o => e.Typed i o ∧ e'.Typed i o
  | .sub e e', i, o => e.Typed i o ∧ e'.Typed i o
  | .neg e, i, o => e.Typed i o
  | .smul _ e, i, o => e.Typed i o
  | .matmul e L, i, o => ∃ m, L.Typed i m ∧ e.Typed m o
  | .rmatmul A e, i, o => e.Typed i [A.n] ∧ o = [A.m]

end LinPDE.Ops
