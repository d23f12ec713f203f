import Verif.Rounding.Model
import Verif.ExpQuad.Model

/-!
# Model of derivative kernels in floating point

The evaluations of `covfuncs/linfuncops/diffops/_expquad.py` and `_matern.py` at a pair of points, with every operation rounded. The cached
arrays (rescaled directions, weighted lengthscales, traces) are computed in the same arithmetic. `t n` is the order of the `n`-th sum; it
may differ from sum to sum. Integer powers (`**`) are single rounded operations. Scale factors `s` are the floats stored by the kernel.
-/

namespace LinPDE.Rounding
open LinPDE.Polys LinPDE.Matern

variable {d : ℕ}

/-- `diffs = x0 - x1`. -/
def diffFl (F : Fmt) (x y : Fin d → ℝ) : Fin d → ℝ := fun i => F.rd (x i - y i)

/-- `_batched_sum(a * b)`. -/
def dotFl (F : Fmt) (t : Tree (Fin d)) (a b : Fin d → ℝ) : ℝ := t.fl F fun i => F.rd (a i * b i)

/-- `diffops/_expquad.py:38-42, 87-93` (`_rescaled_direction`): `direction / lengthscales**2`. -/
noncomputable def rescFl (F : Fmt) (l dir : Fin d → ℝ) : Fin d → ℝ := fun i => F.rd (dir i / F.rd (l i ^ 2))

/-- `:55-60, 117-122`: `exp(-0.5 * _batched_euclidean_norm_sq(diffs / lengthscales))`. -/
noncomputable def gaussFl (F : Fmt) (t : Tree (Fin d)) (l v : Fin d → ℝ) : ℝ :=
  F.ex (F.rd (-0.5 * t.fl F fun i => F.rd (F.rd (v i / l i) ^ 2)))

/-- `:191-193, 317-319`: `exp(-_batched_euclidean_norm_sq(scale_factors * diffs))`. -/
def gaussScaledFl (F : Fmt) (t : Tree (Fin d)) (s v : Fin d → ℝ) : ℝ := F.ex (-t.fl F fun i => F.rd (F.rd (s i * v i) ^ 2))

/-- `:164-166` (`_weighted_inv_lengthscales_sq`): `2.0 * weights * scale_factors**2`. -/
def wInvFl (F : Fmt) (s w : Fin d → ℝ) : Fin d → ℝ := fun i => F.rd (F.rd (2 * w i) * F.rd (s i ^ 2))

/-- `:168-172` (`_scale_factors_sq`). -/
def sfSqFl (F : Fmt) (s w : Fin d → ℝ) : Fin d → ℝ := fun i => F.rd (F.rd (2 * wInvFl F s w i) * F.rd (s i ^ 2))

/-- `:174-176` (`_trace_term`). -/
def traceFl (F : Fmt) (t : Tree (Fin d)) (s w : Fin d → ℝ) : ℝ := t.fl F (wInvFl F s w)

/-- `:178-194` (`ExpQuad_Identity_WeightedLaplacian._evaluate`). -/
def idWLFl (F : Fmt) (t : ℕ → Tree (Fin d)) (s w v : Fin d → ℝ) : ℝ :=
  F.rd (F.rd (((t 0).fl F fun i => F.rd (F.rd (sfSqFl F s w i * v i) * v i)) - traceFl F (t 1) s w) * gaussScaledFl F (t 2) s v)

/-- `:298-311`: `_batched_sum(scale_factors_sq * diffs**2) - trace_term`. -/
def lapFl (F : Fmt) (t t' : Tree (Fin d)) (s w v : Fin d → ℝ) : ℝ :=
  F.rd ((t.fl F fun i => F.rd (sfSqFl F s w i * F.rd (v i ^ 2))) - traceFl F t' s w)

/-- Value at a pair of points: `:48-60, 107-124, 178-194, 282-320, 389-408` and `_expquad.py:14-26`. -/
noncomputable def ekFl (F : Fmt) (t : ℕ → Tree (Fin d)) (s : Fin d → ℝ) (k : ExpQuad.EK d) (x y : Fin d → ℝ) : ℝ :=
  let v := diffFl F x y
  match k with
  | .expquad _ => expQuad F (t 0) s x y
  | .idDD l dir reverse =>
    let r := fun i => if reverse then -rescFl F l dir i else rescFl F l dir i
    F.rd (dotFl F (t 0) r v * gaussFl F (t 1) l v)
  | .ddDD l dir0 dir1 =>
    let inprod := dotFl F (t 0) dir0 (rescFl F l dir1)
    F.rd (F.rd (inprod - F.rd (dotFl F (t 1) (rescFl F l dir0) v * dotFl F (t 2) (rescFl F l dir1) v)) * gaussFl F (t 3) l v)
  | .idWL _ w _ => idWLFl F t s w v
  | .wlWL _ w0 w1 =>
    let a0 := lapFl F (t 0) (t 1) s w0 v
    let a1 := lapFl F (t 2) (t 3) s w1 v
    let c := (t 4).fl F fun i => F.rd (F.rd (sfSqFl F s w0 i * wInvFl F s w1 i) * F.rd (v i ^ 2))
    let tr := dotFl F (t 5) (wInvFl F s w0) (wInvFl F s w1)
    F.rd (F.rd (F.rd (F.rd (a0 * a1) - F.rd (4 * c)) + F.rd (2 * tr)) * gaussScaledFl F (t 6) s v)
  | .ddWL _ dir w reverse =>
    let r := fun i => F.rd (F.rd (dir i * 2) * F.rd (s i ^ 2))
    let rw := fun i => F.rd (r i * wInvFl F s w i)
    let k1 := F.rd (F.rd (2 * dotFl F (t 3) rw v) * expQuad F (t 4) s x y)
    let k := F.rd (k1 - F.rd (dotFl F (t 5) r v * idWLFl F t s w v))
    if reverse then -k else k

/-- `scaled_diffs = x0 - x1; scaled_diffs *= scale_factors`. -/
def sdiffFl (F : Fmt) (s x y : Fin d → ℝ) : Fin d → ℝ := fun i => F.rd (F.rd (x i - y i) * s i)

/-- A polynomial with rational coefficients at a float (`functions/_polynomial.py`). -/
noncomputable def rpolyFl (F : Fmt) (q : Poly ℚ) (r : ℝ) : ℝ := polyFl F (ratFl F q) r

/-- Value at a pair of points: `_matern.py:64-85, 190-209, 295-316, 401-408, 472-479, 557-570` and `covfuncs/_matern.py:15-45`; the arrays
squeezed to numbers have one entry. -/
noncomputable def mkFl (F : Fmt) (t : ℕ → Tree (Fin d)) (s : Fin d → ℝ) (k : MK d) (x y : Fin d → ℝ) : ℝ :=
  let v := sdiffFl F s x y
  let r := dist F (t 0) s x y
  match k with
  | .matern m => Rounding.matern F m.p (t 0) s x y
  | .idDD _ dir reverse poly =>
    let u := fun i => F.rd (s i * dir i) * (if reverse then 1 else -1)
    F.rd (F.rd (rpolyFl F poly r * F.ex (-r)) * dotFl F (t 1) u v)
  | .ddDD _ dir0 dir1 negDeriv diff =>
    let u0 := fun i => F.rd (s i * dir0 i)
    let u1 := fun i => F.rd (s i * dir1 i)
    let res := F.rd (dotFl F (t 1) u0 u1 * rpolyFl F negDeriv r)
    let res := F.rd (res - F.rd (F.rd (dotFl F (t 2) u0 v * dotFl F (t 3) u1 v) * rpolyFl F diff r))
    F.rd (res * F.ex (-r))
  | .uniDDDD _ dir0 dir1 poly =>
    F.rd (F.rd (((t 1).fl F fun i => F.rd (F.rd (dir0 i * dir1 i) * F.rd (s i ^ 2))) * rpolyFl F poly r) * F.ex (-r))
  | .idWL _ w _ poly =>
    F.rd (F.rd (((t 1).fl F fun i => F.rd (F.rd (w i * s i) * s i)) * F.ex (-r)) * rpolyFl F poly r)
  | .wlWL _ w0 w1 poly =>
    F.rd (F.rd (((t 1).fl F fun i => F.rd (F.rd (w0 i * w1 i) * F.rd (s i ^ 4))) * F.ex (-r)) * rpolyFl F poly r)
  | .ddWL _ dir w reverse poly =>
    let u := fun i => F.rd (F.rd (w i * F.rd (s i ^ 3)) * dir i) * (if reverse then -1 else 1)
    F.rd (F.rd (F.ex (-r) * rpolyFl F poly r) * dotFl F (t 1) u v)

end LinPDE.Rounding
