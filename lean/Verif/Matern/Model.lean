import Verif.Poly.Props
import Mathlib.Data.Nat.Factorial.Basic
import Mathlib.Analysis.SpecialFunctions.Exp
import Mathlib.Analysis.SpecialFunctions.Sqrt

/-!
# Model of half-integer Matérn covariance functions and their derivatives

`randprocs/covfuncs/_matern.py`, `randprocs/covfuncs/linfuncops/diffops/_matern.py` and the Matérn part of
`linfuncops/diffops/_registry.py`. Points are vectors with `d` entries (`d = 1` also stands for scalar inputs); the
evaluation of one pair of points is modelled, batches are evaluated entry by entry. Scale factors
(`sqrt(2 ν) / lengthscale`) are given per dimension. The evaluation has no side effects here; see `Heap.lean` for the
aliasing of the scale factors. The JAX and KeOps variants are modelled in
`Backend/Model.lean`.
-/

namespace LinPDE.Matern
open LinPDE.Polys

/-- probnum `Matern.half_integer_coefficients(p)[k]` (external contract). -/
def maternCoeff (p k : ℕ) : ℚ :=
  (p.factorial * (2 * p - k).factorial * 2 ^ k : ℚ) / ((2 * p).factorial * (p - k).factorial * k.factorial)

/-- `_matern.py:613-616` (`half_integer_matern_polynomial`). -/
def maternPoly (p : ℕ) : Poly ℚ := .ofCoeffs ((List.range (p + 1)).map (maternCoeff p))

/-- `_matern.py:619-639` (`half_integer_matern_derivative_polynomial`). -/
def derivPoly (p : ℕ) : ℕ → Poly ℚ
  | 0 => maternPoly p
  | n + 1 => (derivPoly p n).differentiate.sub (derivPoly p n)

/-- `functions/_polynomial.py:167-175`: the float coefficients used for evaluation. -/
noncomputable def toReal (q : Poly ℚ) : Poly ℝ := .ofCoeffs (q.coeffs.map fun c : ℚ => (c : ℝ))

/-- A half-integer Matérn covariance function: order `p` (`ν = p + 1/2`) and scale factors. -/
structure Par (d : ℕ) where
  p : ℕ
  s : Fin d → ℝ

/-- Covariance functions obtained by differentiating; polynomials are stored at construction. -/
inductive MK (d : ℕ)
  | matern (m : Par d)
  | idDD (m : Par d) (dir : Fin d → ℝ) (reverse : Bool) (poly : Poly ℚ)
  | ddDD (m : Par d) (dir0 dir1 : Fin d → ℝ) (negDeriv diff : Poly ℚ)
  | uniDDDD (m : Par d) (dir0 dir1 : Fin d → ℝ) (poly : Poly ℚ)
  | idWL (m : Par d) (w : Fin d → ℝ) (reverse : Bool) (poly : Poly ℚ)
  | wlWL (m : Par d) (w0 w1 : Fin d → ℝ) (poly : Poly ℚ)
  | ddWL (m : Par d) (dir w : Fin d → ℝ) (reverse : Bool) (poly : Poly ℚ)

/-- Exceptions; `fallback` stands for leaving the closed forms (`super().__call__`, i.e. JAX automatic differentiation),
which is not modelled; `notImplemented` for a returned `NotImplemented`. -/
inductive Err where
  | valueError
  | assertionError
  | fallback
  | notImplemented
  deriving DecidableEq

variable {d : ℕ}

/-- A polynomial division inside a constructor (`//`). -/
def divMono (q : Poly ℚ) (n : ℕ) : Except Err (Poly ℚ) :=
  match q.floordivMonomial n with
  | .ok r => .ok r
  | .error _ => .error .valueError

/-- `_matern.py:18-40`. -/
def mkIdDD (m : Par d) (dir : Fin d → ℝ) (reverse : Bool) : Except Err (MK d) := do
  let q ← divMono (derivPoly m.p 1) 1
  .ok (.idDD m dir reverse q)

/-- `_matern.py:142-171`. -/
def mkDDDD (m : Par d) (dir0 dir1 : Fin d → ℝ) : Except Err (MK d) := do
  let a ← divMono (derivPoly m.p 1).neg 1
  let b ← divMono ((derivPoly m.p 2).add a) 2
  .ok (.ddDD m dir0 dir1 a b)

/-- `_matern.py:264-287`. -/
def mkUniDDDD (m : Par d) (dir0 dir1 : Fin d → ℝ) : Except Err (MK d) :=
  if d ≠ 1 then .error .valueError else .ok (.uniDDDD m dir0 dir1 (derivPoly m.p 2).neg)

/-- `_matern.py:361-383`. -/
def mkIdWL (m : Par d) (w : Fin d → ℝ) (reverse : Bool) : Except Err (MK d) :=
  if d ≠ 1 then .error .valueError else .ok (.idWL m w reverse (derivPoly m.p 2))

/-- `_matern.py:440-462`. -/
def mkWLWL (m : Par d) (w0 w1 : Fin d → ℝ) : Except Err (MK d) :=
  if d ≠ 1 then .error .valueError else .ok (.wlWL m w0 w1 (derivPoly m.p 4))

/-- `_matern.py:514-541`. -/
def mkDDWL (m : Par d) (dir w : Fin d → ℝ) (reverse : Bool) : Except Err (MK d) :=
  if d ≠ 1 then .error .valueError else do
    let q ← divMono (derivPoly m.p 3) 1
    .ok (.ddWL m dir w reverse q)

/-- Differential operators that are dispatched on. -/
inductive DOp (d : ℕ)
  | dd (dir : Fin d → ℝ)
  | wl (w : Fin d → ℝ)
  | pd (order : ℕ)

/-- `_registry.py:143-153, 156-193, 196-216` (`DirectionalDerivative.__call__`); `true` is `argnum == 0`. -/
def applyDD (dir : Fin d → ℝ) (arg0 : Bool) : MK d → Except Err (MK d)
  | .matern m => mkIdDD m dir arg0
  | .idDD m dir' reverse _ =>
    if arg0 ∧ ¬reverse then (if d = 1 then mkUniDDDD m dir dir' else mkDDDD m dir dir')
    else if ¬arg0 ∧ reverse then (if d = 1 then mkUniDDDD m dir' dir else mkDDDD m dir' dir)
    else .error .fallback
  | .idWL m w reverse _ =>
    if (arg0 ∧ ¬reverse) ∨ (¬arg0 ∧ reverse) then mkDDWL m dir w (!arg0) else .error .fallback
  | _ => .error .fallback

/-- `_registry.py:276-286, 289-311, 314-338` (`WeightedLaplacian.__call__`). -/
def applyWL (w : Fin d → ℝ) (arg0 : Bool) : MK d → Except Err (MK d)
  | .matern m => if d = 1 then mkIdWL m w arg0 else .error .fallback
  | .idWL m w' reverse _ =>
    if d ≠ 1 then .error .assertionError
    else if arg0 ∧ ¬reverse then mkWLWL m w w'
    else if ¬arg0 ∧ reverse then mkWLWL m w' w
    else .error .fallback
  | .idDD m dir reverse _ =>
    if d ≠ 1 then .error .assertionError
    else if (arg0 ∧ ¬reverse) ∨ (¬arg0 ∧ reverse) then mkDDWL m dir w arg0 else .error .fallback
  | _ => .error .fallback

/-- `_registry.py:80-92` (`_partial_derivative_fallback`), registered for `Matern`, `idDD` and `idWL` (`:95-119`). -/
def applyPD (order : ℕ) (arg0 : Bool) (k : MK d) : Except Err (MK d) :=
  match k with
  | .ddDD .. | .uniDDDD .. | .wlWL .. | .ddWL .. => .error .fallback
  | k =>
    if order = 0 then .ok k
    else if d = 1 ∧ order = 1 then applyDD (fun _ => 1) arg0 k
    else if d = 1 ∧ order = 2 then applyWL (fun _ => 1) arg0 k
    else .error .notImplemented

/-- Application of an operator to an argument of a covariance function. -/
def apply (L : DOp d) (arg0 : Bool) (k : MK d) : Except Err (MK d) :=
  match L with
  | .dd dir => applyDD dir arg0 k
  | .wl w => applyWL w arg0 k
  | .pd n => applyPD n arg0 k

/-- `scaled_diffs = x0 - x1; scaled_diffs *= scale_factors`. -/
def sdiff (s x0 x1 : Fin d → ℝ) : Fin d → ℝ := fun i => (x0 i - x1 i) * s i

/-- `_jax.py:18-29` (`_batched_euclidean_norm`). -/
noncomputable def norm (v : Fin d → ℝ) : ℝ := Real.sqrt (∑ i, v i ^ 2)

/-- `_batched_sum(a * b)`. -/
def dot (a b : Fin d → ℝ) : ℝ := ∑ i, a i * b i

/-- Evaluation of a float polynomial. -/
noncomputable def pev (q : Poly ℚ) (r : ℝ) : ℝ := (toReal q).eval r

/-- `_matern.py:54-62` (`_scaled_direction` of the first derivative). -/
def dirDD (m : Par d) (dir : Fin d → ℝ) (reverse : Bool) : Fin d → ℝ :=
  fun i => m.s i * dir i * (if reverse then 1 else -1)

/-- `_matern.py:546-555` (`_scaled_direction` of derivative and Laplacian). -/
def dirDDWL (m : Par d) (dir w : Fin d → ℝ) (reverse : Bool) : Fin d → ℝ :=
  fun i => w i * m.s i ^ 3 * dir i * (if reverse then -1 else 1)

/-- Value at a pair of points: `_matern.py:64-85, 190-209, 295-316, 401-408, 472-479, 557-570`; `np.squeeze` of a
one-entry array is its only entry. The kernel itself is probnum's `Matern` (external contract). -/
noncomputable def MK.eval (k : MK d) (x0 x1 : Fin d → ℝ) : ℝ :=
  match k with
  | .matern m => pev (derivPoly m.p 0) (norm (sdiff m.s x0 x1)) * Real.exp (-norm (sdiff m.s x0 x1))
  | .idDD m dir reverse poly =>
    let v := sdiff m.s x0 x1
    pev poly (norm v) * Real.exp (-norm v) * dot (dirDD m dir reverse) v
  | .ddDD m dir0 dir1 negDeriv diff =>
    let v := sdiff m.s x0 x1
    let u0 := fun i => m.s i * dir0 i
    let u1 := fun i => m.s i * dir1 i
    (dot u0 u1 * pev negDeriv (norm v) - dot u0 v * dot u1 v * pev diff (norm v)) * Real.exp (-norm v)
  | .uniDDDD m dir0 dir1 poly =>
    (∑ i, dir0 i * dir1 i * m.s i ^ 2) * pev poly (norm (sdiff m.s x0 x1)) * Real.exp (-norm (sdiff m.s x0 x1))
  | .idWL m w _ poly =>
    (∑ i, w i * m.s i * m.s i) * Real.exp (-norm (sdiff m.s x0 x1)) * pev poly (norm (sdiff m.s x0 x1))
  | .wlWL m w0 w1 poly =>
    (∑ i, w0 i * w1 i * m.s i ^ 4) * Real.exp (-norm (sdiff m.s x0 x1)) * pev poly (norm (sdiff m.s x0 x1))
  | .ddWL m dir w reverse poly =>
    let v := sdiff m.s x0 x1
    Real.exp (-norm v) * pev poly (norm v) * dot (dirDDWL m dir w reverse) v

/-- Value with `x1 = None` (same point twice): `_matern.py:65-69, 191-196, 296-301, 558-562`; isotropic kernels use
distance `0`. -/
noncomputable def MK.evalNone (k : MK d) : ℝ :=
  match k with
  | .matern m => pev (derivPoly m.p 0) 0 * Real.exp (-0)
  | .idDD _ _ _ _ => 0
  | .ddDD m dir0 dir1 negDeriv _ =>
    dot (fun i => m.s i * dir0 i) (fun i => m.s i * dir1 i) * (toReal negDeriv).coeffs.headI
  | .uniDDDD m dir0 dir1 poly => (∑ i, dir0 i * dir1 i * m.s i ^ 2) * (toReal poly).coeffs.headI
  | .idWL m w _ poly => (∑ i, w i * m.s i * m.s i) * Real.exp (-0) * pev poly 0
  | .wlWL m w0 w1 poly => (∑ i, w0 i * w1 i * m.s i ^ 4) * Real.exp (-0) * pev poly 0
  | .ddWL _ _ _ _ _ => 0

end LinPDE.Matern
