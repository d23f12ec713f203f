import Mathlib.Data.Real.Basic
import Mathlib.Data.List.Forall2
import Mathlib.Tactic.Linarith
import Mathlib.Tactic.Ring

/-!
# Model of `domains/`

Scalars are real numbers and dtypes are not modelled.  Points are zero- or one-dimensional (points with
more axes are refused by Cartesian products).  Sets of points are sets of coordinate lists.
-/

namespace LinPDE.Domains

/-- Exceptions. -/
inductive Err
  | valueError
  | typeError
  | indexError
  | notImplemented
deriving DecidableEq, Repr

/-- The domain classes `Interval`, `Point` (0-d, 1-d), `Box`, `CartesianProduct`. -/
inductive Dom
  | interval (l u : ℝ)
  | point0 (x : ℝ)
  | point1 (xs : List ℝ)
  | box (bounds : List (ℝ × ℝ))
  | prod (factors : List Dom)

/-- `_interval.py:15-29`. -/
noncomputable def mkInterval (l u : ℝ) : Except Err Dom := if l > u then .error .valueError else .ok (.interval l u)

/-- `_box.py:18-49`, for an array of shape `(D, 2)` and floating dtype. -/
noncomputable def mkBox (bounds : List (ℝ × ℝ)) : Except Err Dom :=
  if bounds.all fun b => b.1 ≤ b.2 then .ok (.box bounds) else .error .valueError

/-- `_box.py:42-49`: the factors of a box; collapsed dimensions become points. -/
noncomputable def boxFactor (b : ℝ × ℝ) : Dom := if b.1 ≠ b.2 then .interval b.1 b.2 else .point0 b.1

/-- Arguments of `asdomain`: a domain, a pair of scalars, a pair of one-dimensional arrays, anything else. -/
inductive DomainLike
  | dom (d : Dom)
  | scalars (a b : ℝ)
  | arrays (xs ys : List ℝ)
  | other

/-- `_asdomain.py:11-22`. -/
noncomputable def asdomain : DomainLike → Except Err Dom
  | .dom d => .ok d
  | .scalars a b => mkInterval a b
  | .arrays xs ys => if xs.length = ys.length then mkBox (xs.zip ys) else .error .valueError
  | .other => .error .valueError

/-- `_cartesian_product.py:14-38` (`CartesianProduct.__init__`). -/
noncomputable def mkProd (args : List DomainLike) : Except Err Dom := do
  let ds ← args.mapM asdomain
  .ok (.prod ds)

/-- Number of axes of the members: `len(domain.shape)`. -/
def Dom.ndims : Dom → ℕ
  | .interval _ _ => 0
  | .point0 _ => 0
  | .point1 _ => 1
  | .box _ => 1
  | .prod _ => 1

mutual
/-- `_domain.py:35-37` (`size`): number of coordinates; `_cartesian_product.py:27-38` for products. -/
def Dom.size : Dom → ℕ
  | .interval _ _ => 1
  | .point0 _ => 1
  | .point1 xs => xs.length
  | .box bs => bs.length
  | .prod fs => sizeL fs
/-- Sum of the factor sizes. -/
def sizeL : List Dom → ℕ
  | [] => 0
  | f :: fs => f.size + sizeL fs
end

/-! ## Membership -/

/-- Values passed to `__contains__`: scalars or one-dimensional arrays. -/
inductive Item
  | scalar (x : ℝ)
  | vec (xs : List ℝ)

/-- Coordinates of a value. -/
def Item.coords : Item → List ℝ
  | .scalar x => [x]
  | .vec xs => xs

/-- `__contains__` (`_interval.py:62-68`, `_point.py:42-48`, `_box.py:70-76`,
`_cartesian_product.py:90-91`). -/
noncomputable def Dom.contains : Dom → Item → Except Err Bool
  | .interval l u, .scalar x => .ok (decide (l ≤ x ∧ x ≤ u))
  | .interval _ _, .vec _ => .ok false
  | .point0 p, .scalar x => .ok (decide (p = x))
  | .point0 _, .vec _ => .ok false
  | .point1 _, .scalar _ => .ok false
  | .point1 ps, .vec xs => if xs.length ≠ ps.length then .ok false else .ok (decide (ps = xs))
  | .box _, .scalar _ => .ok false
  | .box bs, .vec xs => if xs.length ≠ bs.length then .ok false else
      .ok ((bs.zip xs).all fun p => decide (p.1.1 ≤ p.2) && decide (p.2 ≤ p.1.2))
  | .prod _, _ => .error .notImplemented

/-! ## Volume -/

/-- `functools.reduce(operator.mul, vs)` without initial value. -/
def reduceMul : List ℝ → Except Err ℝ
  | [] => .error .typeError
  | v :: vs => .ok (vs.foldl (· * ·) v)

/-- Volume of a factor of a box. -/
noncomputable def leafVolume (b : ℝ × ℝ) : ℝ := if b.1 ≠ b.2 then b.2 - b.1 else 0

mutual
/-- `volume` (`_interval.py:51-53`, `_point.py:22-24`, `_cartesian_product.py:84-88`). -/
noncomputable def Dom.volume : Dom → Except Err ℝ
  | .interval l u => .ok (u - l)
  | .point0 _ => .ok 0
  | .point1 _ => .ok 0
  | .box bs => reduceMul (bs.map leafVolume)
  | .prod fs => do
    let vs ← volumes fs
    reduceMul vs
/-- Volumes of the factors. -/
noncomputable def volumes : List Dom → Except Err (List ℝ)
  | [] => .ok []
  | f :: fs => do
    let v ← f.volume
    let vs ← volumes fs
    .ok (v :: vs)
end

/-! ## Boundary -/

/-- Boundary parts of a factor of a box. -/
noncomputable def leafBoundary (b : ℝ × ℝ) : List Dom := if b.1 ≠ b.2 then [.point0 b.1, .point0 b.2] else [.point0 b.1]

/-- `_cartesian_product.py:74-82` for the factors of a box. -/
noncomputable def boxBoundary : List (ℝ × ℝ) → List (List Dom)
  | [] => []
  | b :: bs => (leafBoundary b).map (fun p => p :: bs.map boxFactor) ++
      (boxBoundary bs).map (fun q => boxFactor b :: q)

mutual
/-- `boundary` (`_interval.py:47-49`, `_point.py:18-20`, `_cartesian_product.py:74-82`). -/
noncomputable def Dom.boundary : Dom → List Dom
  | .interval l u => [.point0 l, .point0 u]
  | .point0 x => [.point0 x]
  | .point1 xs => [.point1 xs]
  | .box bs => (boxBoundary bs).map .prod
  | .prod fs => (boundaryL fs).map .prod
/-- Replace one factor by one of its boundary parts. -/
noncomputable def boundaryL : List Dom → List (List Dom)
  | [] => []
  | f :: fs => f.boundary.map (fun p => p :: fs) ++ (boundaryL fs).map (fun q => f :: q)
end

/-! ## Equality -/

/-- `np.all(a == b)` for two arrays of rows, with NumPy broadcasting along the first axis; shapes that do
not broadcast raise. -/
noncomputable def allEq {α : Type} [DecidableEq α] (xs ys : List α) : Except Err Bool :=
  if xs.length = ys.length then .ok (decide (xs = ys))
  else match xs, ys with
    | [x], ys => .ok (ys.all fun y => decide (x = y))
    | xs, [y] => .ok (xs.all fun x => decide (x = y))
    | _, _ => .error .valueError

mutual
/-- `__eq__` (`_interval.py:70-71`, `_point.py:50-51`, `_box.py:78-79`, `_cartesian_product.py:93-97`). -/
noncomputable def Dom.eq : Dom → Dom → Except Err Bool
  | .interval l u, .interval l' u' => .ok (decide (l = l' ∧ u = u'))
  | .point0 x, .point0 y => .ok (decide (x = y))
  | .point0 x, .point1 ys => .ok (ys.all fun y => decide (x = y))
  | .point1 xs, .point0 y => .ok (xs.all fun x => decide (x = y))
  | .point1 xs, .point1 ys => allEq xs ys
  | .box bs, .box cs => allEq bs cs
  | .prod fs, .prod gs => eqL fs gs
  | .interval _ _, _ => .ok false
  | .point0 _, _ => .ok false
  | .point1 _, _ => .ok false
  | .box _, _ => .ok false
  | .prod _, _ => .ok false
/-- `all(... for ... in zip(...))`. -/
noncomputable def eqL : List Dom → List Dom → Except Err Bool
  | f :: fs, g :: gs => do
    let b ← f.eq g
    if b then eqL fs gs else .ok false
  | _, _ => .ok true
end

/-! ## Indexing -/

/-- What `Interval.__getitem__` evaluates to: a bound, or an exception *object* (not raised). -/
inductive GetItem
  | value (x : ℝ)
  | keyErrorObject

/-- `_interval.py:34-41`. -/
noncomputable def intervalGet (l u : ℝ) (idx : ℤ) : GetItem :=
  if idx = 0 ∨ idx = -2 then .value l
  else if idx = 1 ∨ idx = -1 then .value u
  else .keyErrorObject

open Classical in
/-- `collections.abc.Sequence.index(value)` on an interval: the loop ends when `self[i]` raises
`IndexError` or an item equals the value.  `none`: still running after `fuel` iterations. -/
noncomputable def intervalIndex (l u v : ℝ) : ℕ → ℕ → Option ℕ
  | 0, _ => none
  | fuel + 1, i => if intervalGet l u i = .value v then some i else intervalIndex l u v fuel (i + 1)

/-- Indexing a Python tuple with an integer. -/
def tupleGet {α : Type} (xs : List α) (idx : ℤ) : Except Err α :=
  let i := if idx < 0 then idx + xs.length else idx
  if h : 0 ≤ i ∧ i < xs.length then .ok (xs[i.toNat]'(by omega)) else .error .indexError

/-- `_cartesian_product.py:102-106` and `_box.py:55-59` with an integer. -/
noncomputable def Dom.getItem : Dom → ℤ → Except Err Dom
  | .prod fs, idx => tupleGet fs idx
  | .box bs, idx => tupleGet (bs.map boxFactor) idx
  | _, _ => .error .typeError

/-- The same functions with a slice, given by the positions it selects. -/
noncomputable def Dom.getSlice : Dom → List ℕ → Except Err Dom
  | .prod fs, idx => .ok (.prod (idx.filterMap fun i => fs[i]?))
  | .box bs, idx => mkBox (idx.filterMap fun i => bs[i]?)
  | _, _ => .error .typeError

/-! ## Grids -/

/-- `np.linspace(a, b, n)`. -/
noncomputable def linspace (a b : ℝ) (n : ℕ) : List ℝ :=
  (List.range n).map fun i => if 1 < n ∧ i + 1 = n then b else a + i * ((b - a) / ((n : ℝ) - 1))

/-- `_interval.py:73-83` (one-dimensional shape). -/
noncomputable def intervalGrid (l u : ℝ) (n : ℕ) (inset : ℝ) : List ℝ := linspace (l + inset) (u - inset) n

/-- `_box.py:88-114`: the one-dimensional factor grids; `shape` and `inset` list the entries for the
dimensions that are not collapsed. -/
noncomputable def boxGridFactors : List (ℝ × ℝ) → List ℕ → List ℝ → Except Err (List (List ℝ))
  | [], [], [] => .ok []
  | b :: bs, shape, inset =>
    if b.1 = b.2 then do
      let r ← boxGridFactors bs shape inset
      .ok ([b.1] :: r)
    else match shape, inset with
      | n :: shape, e :: inset => do
        let r ← boxGridFactors bs shape inset
        .ok (intervalGrid b.1 b.2 n e :: r)
      | _, _ => .error .valueError
  | _, _, _ => .error .valueError

/-- Points of a tensor-product grid, last factor fastest (`indexing="ij"`). -/
def gridPoints : List (List ℝ) → List (List ℝ)
  | [] => [[]]
  | g :: gs => g.flatMap fun x => (gridPoints gs).map fun p => x :: p

/-- `_box.py:81-114`. -/
noncomputable def boxGrid (bs : List (ℝ × ℝ)) (shape : List ℕ) (inset : List ℝ) : Except Err (List (List ℝ)) := do
  let fs ← boxGridFactors bs shape inset
  .ok (gridPoints fs)

/-- `tuple(interval)` for the factors of a box inside a product (`_cartesian_product.py:60-62`): a point is
not iterable. -/
noncomputable def boxTuples : List (ℝ × ℝ) → Except Err (List (ℝ × ℝ))
  | [] => .ok []
  | b :: bs => if b.1 ≠ b.2 then do
      let r ← boxTuples bs
      .ok (b :: r)
    else .error .typeError

/-- `_cartesian_product.py:49-52`: only intervals, boxes and points. -/
def Dom.boxLike : Dom → Bool
  | .prod _ => false
  | _ => true

/-- `_cartesian_product.py:56-70`. -/
noncomputable def asBoxBounds : List Dom → Except Err (List (ℝ × ℝ))
  | [] => .ok []
  | .interval l u :: fs => do
    let r ← asBoxBounds fs
    .ok ((l, u) :: r)
  | .box bs :: fs => do
    let t ← boxTuples bs
    let r ← asBoxBounds fs
    .ok (t ++ r)
  | .point0 x :: fs => do
    let r ← asBoxBounds fs
    .ok ((x, x) :: r)
  | .point1 xs :: fs => do
    let r ← asBoxBounds fs
    .ok (xs.map (fun x => (x, x)) ++ r)
  | .prod _ :: _ => .error .typeError

/-- `_cartesian_product.py:44-72` (`_as_box`); `Box([])` is refused (wrong shape). -/
noncomputable def asBox (fs : List Dom) : Except Err (Option Dom) :=
  if fs.all Dom.boxLike then do
    let bs ← asBoxBounds fs
    if bs.isEmpty then .error .valueError else do
      let b ← mkBox bs
      .ok (some b)
  else .ok none

/-- `_cartesian_product.py:123-127`. -/
noncomputable def prodGrid (fs : List Dom) (shape : List ℕ) (inset : List ℝ) : Except Err (List (List ℝ)) := do
  match ← asBox fs with
  | some (.box bs) => boxGrid bs shape inset
  | _ => .error .notImplemented

/-! ## Specification: the set a domain denotes -/

mutual
/-- The set of coordinate lists denoted by a domain. -/
def Dom.den : Dom → Set (List ℝ)
  | .interval l u => {v | ∃ x, v = [x] ∧ l ≤ x ∧ x ≤ u}
  | .point0 x => {[x]}
  | .point1 xs => {xs}
  | .box bs => {v | List.Forall₂ (fun b x => b.1 ≤ x ∧ x ≤ b.2) bs v}
  | .prod fs => denL fs
/-- Concatenations of members. -/
def denL : List Dom → Set (List ℝ)
  | [] => {[]}
  | f :: fs => {v | ∃ a ∈ f.den, ∃ b ∈ denL fs, v = a ++ b}
end

mutual
/-- What the constructors guarantee (and no point without coordinates). -/
def Dom.Valid : Dom → Prop
  | .interval l u => l ≤ u
  | .point0 _ => True
  | .point1 xs => xs ≠ []
  | .box bs => ∀ b ∈ bs, b.1 ≤ b.2
  | .prod fs => validL fs
/-- All factors valid. -/
def validL : List Dom → Prop
  | [] => True
  | f :: fs => f.Valid ∧ validL fs
end

end LinPDE.Domains
