import Verif.Poly.Model
import Verif.Matern.Model
import Mathlib.Analysis.SpecialFunctions.Exp
import Mathlib.Analysis.SpecialFunctions.Sqrt
import Mathlib.Data.List.Nodup

/-!
# Model of the arithmetic of `linpde_gp` in floating point

All other modules compute with exact real or rational numbers. Here the same evaluations are carried out with every operation
rounded: polynomials (`functions/_polynomial.py`), distances, squared exponential and Matérn covariances
(`covfuncs/_jax.py`, `_expquad.py`, `_matern.py`), tensor products (`covfuncs/_tensor_product.py`) and posterior means and
covariances (`_gaussian_process/_conditional.py`).

Contract of the arithmetic (`Fmt`): the standard model, every operation returns the exact result up to a relative error `u`,
rounding is odd and keeps 1, the exponential function has relative error `v` and maps 0 to 1. Overflow, underflow and NaN are
not modelled. The order in which `sum` and `@` add is not specified by the libraries: it is an arbitrary binary tree.
-/

namespace LinPDE.Rounding
open LinPDE.Polys LinPDE.Matern

/-- A floating-point arithmetic (contract of NumPy and JAX in the absence of over- and underflow). -/
structure Fmt where
  rd : ℝ → ℝ
  ex : ℝ → ℝ
  u : ℝ
  v : ℝ
  u_nonneg : 0 ≤ u
  u_lt : u < 1
  v_nonneg : 0 ≤ v
  v_lt : v < 1
  err : ∀ x, |rd x - x| ≤ u * |x|
  neg : ∀ x, rd (-x) = -rd x
  one : rd 1 = 1
  ex_err : ∀ x, |ex x - Real.exp x| ≤ v * Real.exp x
  ex_zero : ex 0 = 1

/-- A floating-point number of the format. -/
@[ext] structure Fl (F : Fmt) where
  val : ℝ

/-- Rounded addition. -/
instance (F : Fmt) : Add (Fl F) := ⟨fun a b => ⟨F.rd (a.val + b.val)⟩⟩

/-- Rounded multiplication. -/
instance (F : Fmt) : Mul (Fl F) := ⟨fun a b => ⟨F.rd (a.val * b.val)⟩⟩

/-- `functions/_polynomial.py:61-68` (`_evaluate`) in floating point: the model `Poly.eval` of the loop with rounded `*` and `+`. -/
def polyFl (F : Fmt) (p : Poly ℝ) (x : ℝ) : ℝ :=
  (Poly.eval (K := Fl F) ⟨p.coeffs.map fun c => ⟨c⟩, fun h => p.ne (List.map_eq_nil_iff.mp h)⟩ ⟨x⟩).val

/-- `functions/_polynomial.py:167-175`: the coefficients of a `RationalPolynomial` converted to floats. -/
noncomputable def ratFl (F : Fmt) (p : Poly ℚ) : Poly ℝ := ⟨p.coeffs.map fun c : ℚ => F.rd (c : ℝ), fun h => p.ne (List.map_eq_nil_iff.mp h)⟩

/-- An order of summation: which partial sums are added (`jnp.sum`, `np.sum`, `@`). -/
inductive Tree (ι : Type)
  | leaf (i : ι)
  | node (l r : Tree ι)

variable {ι : Type}

/-- The summands, from left to right. -/
def Tree.leaves : Tree ι → List ι
  | .leaf i => [i]
  | .node l r => l.leaves ++ r.leaves

/-- Every summand occurs exactly once. -/
def Tree.Full (t : Tree ι) : Prop := t.leaves.Nodup ∧ ∀ i, i ∈ t.leaves

/-- The sum in floating point. -/
def Tree.fl (F : Fmt) (f : ι → ℝ) : Tree ι → ℝ
  | .leaf i => f i
  | .node l r => F.rd (l.fl F f + r.fl F f)

/-- `covfuncs/_jax.py:104-126` (`_squared_euclidean_distances_jax`): `diffs = x0 - x1; diffs *= scale_factors; sum(diffs**2)`. -/
def sqDist (F : Fmt) (t : Tree ι) (s x0 x1 : ι → ℝ) : ℝ :=
  t.fl F fun i => F.rd (F.rd (F.rd (x0 i - x1 i) * s i) ^ 2)

/-- `covfuncs/_jax.py:128-147` (`_euclidean_distances_jax`): the square root is correctly rounded. -/
noncomputable def dist (F : Fmt) (t : Tree ι) (s x0 x1 : ι → ℝ) : ℝ := F.rd (√(sqDist F t s x0 x1))

/-- `covfuncs/_expquad.py:14-26` (`ExpQuad._evaluate_jax`) at a pair of points. -/
def expQuad (F : Fmt) (t : Tree ι) (s x0 x1 : ι → ℝ) : ℝ := F.ex (-sqDist F t s x0 x1)

/-- `covfuncs/_matern.py:32-35`: iterations `i = n - 1, …, 0` of Horner's method. -/
def hornerFl (F : Fmt) (c : ℕ → ℝ) (r : ℝ) : ℕ → ℝ → ℝ
  | 0, res => res
  | n + 1, res => hornerFl F c r n (F.rd (F.rd (res * r) + c n))

/-- `covfuncs/_matern.py:15-45` (`Matern._evaluate_jax`) at a pair of points, `ν = p + 1/2`. -/
noncomputable def matern (F : Fmt) (p : ℕ) (t : Tree ι) (s x0 x1 : ι → ℝ) : ℝ :=
  let r := dist F t s x0 x1
  let c := fun i => F.rd (maternCoeff p i : ℝ)
  F.rd (hornerFl F c r p (c p) * F.ex (-r))

/-- `covfuncs/_tensor_product.py:48-52` (`TensorProduct._evaluate`): `functools.reduce(operator.mul, …)`. -/
def productFl (F : Fmt) (a : ℝ) (l : List ℝ) : ℝ := l.foldl (fun res b => F.rd (res * b)) a

/-- `_gaussian_process/_conditional.py:193-197` (`Mean._evaluate`): `m_x + kLas_x @ representer_weights`. -/
def postMean (F : Fmt) (t : Tree ι) (m : ℝ) (k w : ι → ℝ) : ℝ := F.rd (m + t.fl F fun i => F.rd (k i * w i))

/-- `_gaussian_process/_conditional.py:223-231` (`CovarianceFunction._evaluate`): `k_xx - kLas_x0 @ solution`. -/
def postCov (F : Fmt) (t : Tree ι) (kxx : ℝ) (k w : ι → ℝ) : ℝ := F.rd (kxx - t.fl F fun i => F.rd (k i * w i))

end LinPDE.Rounding
