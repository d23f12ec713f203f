import Verif.Matern.Model
import Verif.ExpQuad.Model
import Verif.Wendland.Model
import Verif.Poly.IntEval

/-!
# NumPy, JAX and KeOps evaluation of the closed-form kernels

The classes of `covfuncs/_matern.py`, `_expquad.py`, `_wendland.py` and of `covfuncs/linfuncops/diffops/_matern.py`,
`_expquad.py` each implement `_evaluate` (NumPy) and `_evaluate_jax`; the Matérn derivatives and the Wendland kernels also
`_keops_lazy_tensor`. The three are modelled one after another, together with the storage type of the points: an array
holds floats or integers, and the two libraries treat integers differently.

One position of a broadcast batch is modelled, as the operations work entry by entry. Scale factors, lengthscales,
directions and weights are floats. What the code does to shared scale factors is modelled in `Matern/Heap.lean`.

External contracts. NumPy: subtracting integers gives integers; `*=` with a float refuses an integer array with a
`UFuncTypeError`, on a NumPy scalar it binds a new float; `full_like` stores with the storage type of its first argument,
truncating towards zero. JAX: arrays are immutable, `*=` and `+=` bind a new array of the promoted type; `full_like` as in
NumPy. probnum: `_euclidean_distances` and `_squared_euclidean_distances` return distances of float points, and
`zeros_like(x0)` without a second argument, as their JAX counterparts in `_jax.py:98-147` do. KeOps: arithmetic of lazy
tensors is arithmetic of their entries, `a.ifelse(b, c)` is `b` where `a ≥ 0` and `c` elsewhere.
-/

namespace LinPDE.Backend
open LinPDE.Polys LinPDE.Matern

/-- Storage types. -/
inductive DT
  | int
  | flt
  deriving DecidableEq

/-- Exceptions: the `UFuncTypeError` of NumPy and the `NotImplementedError` of `_matern.py:44`. -/
inductive Err
  | typeError
  | notImplemented
  deriving DecidableEq

/-- An argument: the storage type, whether subtracting arguments gives an array (a NumPy scalar otherwise, namely for
scalar inputs without batch axes) and the coordinates at the position considered. -/
structure Pt (d : ℕ) where
  dt : DT
  nd : Bool
  x : Fin d → ℝ

/-- A number at the position considered, with its storage type. -/
structure Sc where
  dt : DT
  val : ℝ

variable {d : ℕ}

/-- Storage type of a difference or product. -/
def DT.join : DT → DT → DT
  | .int, .int => .int
  | _, _ => .flt

/-- `x0 - x1`. -/
def sub (a b : Pt d) : Pt d := ⟨a.dt.join b.dt, a.nd || b.nd, fun i => a.x i - b.x i⟩

/-- `full_like(x0, v, …)`: the number read back from the array. -/
noncomputable def fullLike (dt : DT) (v : ℝ) : ℝ :=
  match dt with
  | .int => (truncTo v : ℝ)
  | .flt => v

/-! ## NumPy -/

/-- `diffs *= scale_factors`. -/
def npScale (a : Pt d) (s : Fin d → ℝ) : Except Err (Fin d → ℝ) :=
  if a.dt = .int ∧ a.nd = true then .error .typeError else .ok fun i => a.x i * s i

/-- `functions/_polynomial.py:61-68`: on integers the leading coefficient is truncated by `full_like`; the first
`res += coeff` is refused. -/
noncomputable def npPoly (q : Poly ℝ) (r : Sc) : Except Err ℝ :=
  match r.dt with
  | .flt => .ok (q.eval r.val)
  | .int => if q.degree = 0 then .ok (fullLike .int (q.coeffs.getLast q.ne)) else .error .typeError

/-- probnum `IsotropicMixin._euclidean_distances`, see `_jax.py:127-147`. -/
noncomputable def npDist (s : Fin d → ℝ) (x0 : Pt d) (x1 : Option (Pt d)) : Except Err Sc :=
  match x1 with
  | none => .ok ⟨x0.dt, 0⟩
  | some x1 => do
    let v ← npScale (sub x0 x1) s
    .ok ⟨.flt, Matern.norm v⟩

/-- `_evaluate` of the Matérn derivatives, `linfuncops/diffops/_matern.py:64-86, 185-203, 300-318, 403-410, 476-483,
558-571`; the kernel itself is probnum's. -/
noncomputable def npMatern (k : MK d) (x0 : Pt d) (x1 : Option (Pt d)) : Except Err ℝ :=
  match k with
  | .matern m => do
    let r ← npDist m.s x0 x1
    .ok (pev (derivPoly m.p 0) r.val * Real.exp (-r.val))
  | .idDD m dir reverse poly =>
    match x1 with
    | none => .ok (fullLike x0.dt 0)
    | some x1 => do
      let v ← npScale (sub x0 x1) m.s
      let proj := dot (dirDD m dir reverse) v
      let r : Sc := ⟨.flt, Matern.norm v⟩
      let res ← npPoly (toReal poly) r
      .ok (res * Real.exp (-r.val) * proj)
  | .ddDD m dir0 dir1 negDeriv diff =>
    let u0 := fun i => m.s i * dir0 i
    let u1 := fun i => m.s i * dir1 i
    match x1 with
    | none => .ok (fullLike x0.dt (dot u0 u1 * (toReal negDeriv).coeffs.headI))
    | some x1 => do
      let v ← npScale (sub x0 x1) m.s
      let r : Sc := ⟨.flt, Matern.norm v⟩
      let a ← npPoly (toReal negDeriv) r
      let b ← npPoly (toReal diff) r
      .ok ((dot u0 u1 * a - dot u0 v * dot u1 v * b) * Real.exp (-r.val))
  | .uniDDDD m dir0 dir1 poly =>
    match x1 with
    | none => .ok (fullLike x0.dt ((∑ i, dir0 i * dir1 i * m.s i ^ 2) * (toReal poly).coeffs.headI))
    | some x1 => do
      let r ← npDist m.s x0 (some x1)
      let res ← npPoly (toReal poly) r
      .ok ((∑ i, dir0 i * dir1 i * m.s i ^ 2) * res * Real.exp (-r.val))
  | .idWL m w _ poly => do
    let r ← npDist m.s x0 x1
    let res ← npPoly (toReal poly) r
    .ok ((∑ i, w i * m.s i * m.s i) * Real.exp (-r.val) * res)
  | .wlWL m w0 w1 poly => do
    let r ← npDist m.s x0 x1
    let res ← npPoly (toReal poly) r
    .ok ((∑ i, w0 i * w1 i * m.s i ^ 4) * Real.exp (-r.val) * res)
  | .ddWL m dir w reverse poly =>
    match x1 with
    | none => .ok (fullLike x0.dt 0)
    | some x1 => do
      let v ← npScale (sub x0 x1) m.s
      let proj := dot (dirDDWL m dir w reverse) v
      let r : Sc := ⟨.flt, Matern.norm v⟩
      let res ← npPoly (toReal poly) r
      .ok (Real.exp (-r.val) * res * proj)

/-- `_evaluate` of the derivatives of the squared exponential, `linfuncops/diffops/_expquad.py:45-57, 106-122, 187-201,
280-312, 390-410`: quotients and products allocate, so integer differences are promoted. -/
noncomputable def npExpQuad (k : ExpQuad.EK d) (x0 : Pt d) (x1 : Option (Pt d)) : Except Err ℝ :=
  match x1 with
  | none =>
    match k with
    | .expquad _ => .ok (fullLike x0.dt 1)
    | .idDD .. => .ok (fullLike x0.dt 0)
    | .ddDD l dir0 dir1 => .ok (fullLike x0.dt (dot dir0 fun i => dir1 i / l i ^ 2))
    | .idWL l w _ => .ok (fullLike x0.dt (-ExpQuad.trace l w))
    | .wlWL l w0 w1 =>
      .ok (fullLike x0.dt (ExpQuad.trace l w0 * ExpQuad.trace l w1 +
        2 * ∑ i, ExpQuad.wInv l w0 i * ExpQuad.wInv l w1 i))
    | .ddWL .. => .ok (fullLike x0.dt 0)
  | some x1 =>
    let v := (sub x0 x1).x
    match k with
    | .expquad l => do
      let v ← npScale (sub x0 x1) (ExpQuad.sf l)
      .ok (Real.exp (-ExpQuad.normSq v))
    | .idDD l dir reverse =>
      .ok (dot (fun i => if reverse then -(dir i / l i ^ 2) else dir i / l i ^ 2) v *
        Real.exp (-0.5 * ExpQuad.normSq fun i => v i / l i))
    | .ddDD l dir0 dir1 =>
      .ok ((dot dir0 (fun i => dir1 i / l i ^ 2) -
          dot (fun i => dir0 i / l i ^ 2) v * dot (fun i => dir1 i / l i ^ 2) v) *
        Real.exp (-0.5 * ExpQuad.normSq fun i => v i / l i))
    | .idWL l w _ => .ok (ExpQuad.evalIdWL l w v)
    | .wlWL l w0 w1 =>
      .ok ((((∑ i, ExpQuad.sfSq l w0 i * v i ^ 2) - ExpQuad.trace l w0) *
            ((∑ i, ExpQuad.sfSq l w1 i * v i ^ 2) - ExpQuad.trace l w1) -
          4 * (∑ i, ExpQuad.sfSq l w0 i * ExpQuad.wInv l w1 i * v i ^ 2) +
          2 * ∑ i, ExpQuad.wInv l w0 i * ExpQuad.wInv l w1 i) *
        Real.exp (-ExpQuad.normSq fun i => ExpQuad.sf l i * v i))
    | .ddWL l dir w reverse => do
      let rd := fun i => dir i * 2 * ExpQuad.sf l i ^ 2
      let s ← npScale (sub x0 x1) (ExpQuad.sf l)
      let k := 2 * dot (fun i => rd i * ExpQuad.wInv l w i) v * Real.exp (-ExpQuad.normSq s) -
        dot rd v * ExpQuad.evalIdWL l w v
      .ok (if reverse then -k else k)

open Classical in
/-- `_wendland.py:72-77, 213-216`: `np.where(r <= 1, p(r), zeros_like(r))`, the polynomial being evaluated at all
distances. -/
noncomputable def npWendland (k : Wendland.WendlandCov d) (x0 : Pt d) (x1 : Option (Pt d)) : Except Err ℝ := do
  let r ← npDist (fun i => 1 / k.lengthscales i) x0 x1
  let res ← npPoly (Wendland.realPoly k.poly) r
  .ok (if r.val ≤ 1 then res else 0)

/-! ## JAX -/

/-- `diffs *= scale_factors`. -/
def jaxScale (a : Pt d) (s : Fin d → ℝ) : Fin d → ℝ := fun i => a.x i * s i

/-- `functions/_polynomial.py:70-77`: `full_like` stores the leading coefficient, the loop promotes. -/
noncomputable def jaxPoly (q : Poly ℝ) (r : Sc) : ℝ :=
  q.coeffs.dropLast.reverse.foldl (fun res c => res * r.val + c) (fullLike r.dt (q.coeffs.getLast q.ne))

/-- `_jax.py:98-125` (`_squared_euclidean_distances_jax`). -/
noncomputable def jaxSqDist (s : Fin d → ℝ) (x0 : Pt d) (x1 : Option (Pt d)) : Sc :=
  match x1 with
  | none => ⟨x0.dt, 0⟩
  | some x1 => ⟨.flt, ∑ i, jaxScale (sub x0 x1) s i ^ 2⟩

/-- `_jax.py:127-147` (`_euclidean_distances_jax`). -/
noncomputable def jaxDist (s : Fin d → ℝ) (x0 : Pt d) (x1 : Option (Pt d)) : Sc :=
  match x1 with
  | none => ⟨x0.dt, 0⟩
  | some x1 => ⟨.flt, Real.sqrt (jaxSqDist s x0 (some x1)).val⟩

/-- `_jax.py:79-82` (`_batched_euclidean_norm_jax`). -/
noncomputable def jaxNorm (v : Fin d → ℝ) : ℝ := Real.sqrt (∑ i, v i ^ 2)

/-- The parameter `nu` of a Matérn kernel. -/
inductive Nu
  | inf
  | half (p : ℕ)
  | other (nu : ℝ)

/-- Iterations `i = n - 1, …, 0` of the loop in `_matern.py:33-35`. -/
noncomputable def hornerLoop (coeffs : ℕ → ℝ) (r : ℝ) : ℕ → ℝ → ℝ
  | 0, res => res
  | n + 1, res => hornerLoop coeffs r n (res * r + coeffs n)

/-- `_matern.py:15-45` (`Matern._evaluate_jax`); `_half_integer_coefficients_floating(p)` holds the coefficients as
floats. -/
noncomputable def jaxMaternBase (nu : Nu) (s : Fin d → ℝ) (x0 : Pt d) (x1 : Option (Pt d)) : Except Err ℝ :=
  match nu with
  | .inf => .ok (Real.exp (-(jaxSqDist s x0 x1).val))
  | .half p =>
    let r := jaxDist s x0 x1
    let coeffs := fun i => (maternCoeff p i : ℝ)
    .ok (hornerLoop coeffs r.val p (coeffs p) * Real.exp (-r.val))
  | .other _ => .error .notImplemented

/-- `_evaluate_jax` of the Matérn derivatives, `linfuncops/diffops/_matern.py:88-110, 205-229, 320-338, 412-421, 485-494,
573-586`. -/
noncomputable def jaxMatern (k : MK d) (x0 : Pt d) (x1 : Option (Pt d)) : Except Err ℝ :=
  match k with
  | .matern m => jaxMaternBase (.half m.p) m.s x0 x1
  | .idDD m dir reverse poly =>
    match x1 with
    | none => .ok (fullLike x0.dt 0)
    | some x1 =>
      let v := jaxScale (sub x0 x1) m.s
      let r : Sc := ⟨.flt, jaxNorm v⟩
      .ok (jaxPoly (toReal poly) r * Real.exp (-r.val) * dot (dirDD m dir reverse) v)
  | .ddDD m dir0 dir1 negDeriv diff =>
    let u0 := fun i => m.s i * dir0 i
    let u1 := fun i => m.s i * dir1 i
    match x1 with
    | none => .ok (fullLike x0.dt (dot u0 u1 * (toReal negDeriv).coeffs.headI))
    | some x1 =>
      let v := jaxScale (sub x0 x1) m.s
      let r : Sc := ⟨.flt, jaxNorm v⟩
      .ok ((dot u0 u1 * jaxPoly (toReal negDeriv) r - dot u0 v * dot u1 v * jaxPoly (toReal diff) r) * Real.exp (-r.val))
  | .uniDDDD m dir0 dir1 poly =>
    match x1 with
    | none => .ok (fullLike x0.dt ((∑ i, dir0 i * dir1 i * m.s i ^ 2) * (toReal poly).coeffs.headI))
    | some x1 =>
      let r := jaxDist m.s x0 (some x1)
      .ok ((∑ i, dir0 i * dir1 i * m.s i ^ 2) * jaxPoly (toReal poly) r * Real.exp (-r.val))
  | .idWL m w _ poly =>
    let r := jaxDist m.s x0 x1
    .ok ((∑ i, w i * m.s i * m.s i) * Real.exp (-r.val) * jaxPoly (toReal poly) r)
  | .wlWL m w0 w1 poly =>
    let r := jaxDist m.s x0 x1
    .ok ((∑ i, w0 i * w1 i * m.s i ^ 4) * Real.exp (-r.val) * jaxPoly (toReal poly) r)
  | .ddWL m dir w reverse poly =>
    match x1 with
    | none => .ok (fullLike x0.dt 0)
    | some x1 =>
      let v := jaxScale (sub x0 x1) m.s
      let r : Sc := ⟨.flt, jaxNorm v⟩
      .ok (Real.exp (-r.val) * jaxPoly (toReal poly) r * dot (dirDDWL m dir w reverse) v)

/-- `_expquad.py:14-26` (`ExpQuad._evaluate_jax`). -/
noncomputable def jaxExpQuadBase (l : Fin d → ℝ) (x0 : Pt d) (x1 : Option (Pt d)) : ℝ :=
  match x1 with
  | none => fullLike x0.dt 1
  | some x1 => Real.exp (-(jaxSqDist (ExpQuad.sf l) x0 (some x1)).val)

/-- `linfuncops/diffops/_expquad.py:203-218` (`ExpQuad_Identity_WeightedLaplacian._evaluate_jax`). -/
noncomputable def jaxIdWL (l w : Fin d → ℝ) (x0 : Pt d) (x1 : Option (Pt d)) : ℝ :=
  match x1 with
  | none => fullLike x0.dt (-ExpQuad.trace l w)
  | some x1 =>
    let v := (sub x0 x1).x
    ((∑ i, ExpQuad.sfSq l w i * v i * v i) - ExpQuad.trace l w) *
      Real.exp (-∑ i, (ExpQuad.sf l i * v i) ^ 2)

/-- `_evaluate_jax` of the derivatives of the squared exponential, `linfuncops/diffops/_expquad.py:59-74, 124-142,
203-218, 314-346, 412-434`. -/
noncomputable def jaxExpQuad (k : ExpQuad.EK d) (x0 : Pt d) (x1 : Option (Pt d)) : ℝ :=
  match k with
  | .expquad l => jaxExpQuadBase l x0 x1
  | .idDD l dir reverse =>
    match x1 with
    | none => fullLike x0.dt 0
    | some x1 =>
      let v := (sub x0 x1).x
      dot (fun i => if reverse then -(dir i / l i ^ 2) else dir i / l i ^ 2) v *
        Real.exp (-0.5 * ∑ i, (v i / l i) ^ 2)
  | .ddDD l dir0 dir1 =>
    match x1 with
    | none => fullLike x0.dt (dot dir0 fun i => dir1 i / l i ^ 2)
    | some x1 =>
      let v := (sub x0 x1).x
      (dot dir0 (fun i => dir1 i / l i ^ 2) -
          dot (fun i => dir0 i / l i ^ 2) v * dot (fun i => dir1 i / l i ^ 2) v) *
        Real.exp (-0.5 * ∑ i, (v i / l i) ^ 2)
  | .idWL l w _ => jaxIdWL l w x0 x1
  | .wlWL l w0 w1 =>
    match x1 with
    | none =>
      fullLike x0.dt (ExpQuad.trace l w0 * ExpQuad.trace l w1 + 2 * ∑ i, ExpQuad.wInv l w0 i * ExpQuad.wInv l w1 i)
    | some x1 =>
      let v := (sub x0 x1).x
      (((∑ i, ExpQuad.sfSq l w0 i * v i ^ 2) - ExpQuad.trace l w0) *
            ((∑ i, ExpQuad.sfSq l w1 i * v i ^ 2) - ExpQuad.trace l w1) -
          4 * (∑ i, ExpQuad.sfSq l w0 i * ExpQuad.wInv l w1 i * v i ^ 2) +
          2 * ∑ i, ExpQuad.wInv l w0 i * ExpQuad.wInv l w1 i) *
        Real.exp (-∑ i, (ExpQuad.sf l i * v i) ^ 2)
  | .ddWL l dir w reverse =>
    match x1 with
    | none => fullLike x0.dt 0
    | some x1 =>
      let v := (sub x0 x1).x
      let rd := fun i => dir i * 2 * ExpQuad.sf l i ^ 2
      let k := 2 * dot (fun i => rd i * ExpQuad.wInv l w i) v * jaxExpQuadBase l x0 (some x1) -
        dot rd v * jaxIdWL l w x0 (some x1)
      if reverse then -k else k

open Classical in
/-- `_wendland.py:79-85, 218-221`. -/
noncomputable def jaxWendland (k : Wendland.WendlandCov d) (x0 : Pt d) (x1 : Option (Pt d)) : ℝ :=
  let r := jaxDist (fun i => 1 / k.lengthscales i) x0 x1
  if r.val ≤ 1 then jaxPoly (Wendland.realPoly k.poly) r else 0

/-! ## KeOps -/

/-- A lazy tensor with rows `N` and columns `M`, by its entries. -/
abbrev Lazy (N M : ℕ) := Fin N → Fin M → ℝ

/-- `functions/_polynomial.py:79-86` (`_evaluate_keops`). -/
noncomputable def keopsPoly {N M : ℕ} (q : Poly ℝ) (r : Lazy N M) : Lazy N M :=
  q.coeffs.dropLast.reverse.foldl (fun (res : Lazy N M) c => fun i j => res i j * r i j + c)
    fun _ _ => q.coeffs.getLast q.ne

/-- `Vi(x0) - Vj(x1)`, scaled. -/
def keopsDiff {N M : ℕ} (s : Fin d → ℝ) (x0 : Fin N → Fin d → ℝ) (x1 : Fin M → Fin d → ℝ) :
    Fin N → Fin M → Fin d → ℝ := fun i j c => (x0 i c - x1 j c) * s c

/-- `(diffs * diffs).sum().sqrt()`. -/
noncomputable def keopsNorm {N M : ℕ} (v : Fin N → Fin M → Fin d → ℝ) : Lazy N M :=
  fun i j => Real.sqrt (∑ c, v i j c * v i j c)

/-- `_keops_lazy_tensor` of the Matérn derivatives for given second points, `linfuncops/diffops/_matern.py:112-137,
231-265, 340-355, 423-436, 496-509, 588-610`. The method of the kernel itself is probnum's and not modelled (`none`). -/
noncomputable def keopsMaternAt {N M : ℕ} (k : MK d) (x0 : Fin N → Fin d → ℝ) (x1 : Fin M → Fin d → ℝ) :
    Option (Lazy N M) :=
  match k with
  | .matern _ => none
  | .idDD m dir reverse poly =>
    let v := keopsDiff m.s x0 x1
    let r := keopsNorm v
    some fun i j => keopsPoly (toReal poly) r i j * Real.exp (-r i j) * ∑ c, dirDD m dir reverse c * v i j c
  | .ddDD m dir0 dir1 negDeriv diff =>
    let v := keopsDiff m.s x0 x1
    let r := keopsNorm v
    let u0 := fun i => m.s i * dir0 i
    let u1 := fun i => m.s i * dir1 i
    some fun i j =>
      (dot u0 u1 * keopsPoly (toReal negDeriv) r i j -
        (∑ c, u0 c * v i j c) * (∑ c, u1 c * v i j c) * keopsPoly (toReal diff) r i j) * Real.exp (-r i j)
  | .uniDDDD m dir0 dir1 poly =>
    let r := keopsNorm (keopsDiff m.s x0 x1)
    some fun i j => (∑ c, dir0 c * dir1 c * m.s c ^ 2) * keopsPoly (toReal poly) r i j * Real.exp (-r i j)
  | .idWL m w _ poly =>
    let r := keopsNorm (keopsDiff m.s x0 x1)
    some fun i j => (∑ c, w c * m.s c * m.s c) * Real.exp (-r i j) * keopsPoly (toReal poly) r i j
  | .wlWL m w0 w1 poly =>
    let r := keopsNorm (keopsDiff m.s x0 x1)
    some fun i j => (∑ c, w0 c * w1 c * m.s c ^ 4) * Real.exp (-r i j) * keopsPoly (toReal poly) r i j
  | .ddWL m dir w reverse poly =>
    let v := keopsDiff m.s x0 x1
    let r := keopsNorm v
    some fun i j => Real.exp (-r i j) * keopsPoly (toReal poly) r i j * ∑ c, dirDDWL m dir w reverse c * v i j c

/-- Points given to KeOps without a second argument: `if x1 is None: x1 = x0`. -/
noncomputable def keopsMaternNone {N : ℕ} (k : MK d) (x0 : Fin N → Fin d → ℝ) : Option (Lazy N N) := keopsMaternAt k x0 x0

open Classical in
/-- `_wendland.py:87-100, 223-226`. -/
noncomputable def keopsWendland {N M : ℕ} (k : Wendland.WendlandCov d) (x0 : Fin N → Fin d → ℝ) (x1 : Fin M → Fin d → ℝ) :
    Lazy N M :=
  let r := keopsNorm (keopsDiff (fun i => 1 / k.lengthscales i) x0 x1)
  fun i j => if 0 ≤ 1 - r i j then keopsPoly (Wendland.realPoly k.poly) r i j else 0

end LinPDE.Backend
