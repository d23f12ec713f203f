import Verif.Domain.Model
import Mathlib.Analysis.SpecialFunctions.Gaussian.GaussianIntegral
import Mathlib.MeasureTheory.Integral.Bochner.Set

/-!
# Model of `functions/_truncated_gmm.py`

Outside contract: `scipy.stats.norm.cdf(z)` is the integral of the standard normal density up to `z`.  Arithmetic is exact;
results that are `nan` or infinite are the error `nonFinite`.  A scalar argument behaves as a list of one number.
-/

namespace LinPDE.Gmm
open LinPDE.Domains MeasureTheory Real

/-- Exceptions, and non-finite results. -/
inductive Err
  | valueError
  | typeError
  | nonFinite
deriving DecidableEq, Repr

/-- `TruncatedGaussianMixturePDF` (`_truncated_gmm.py:11-22`). -/
structure Mixture where
  lower : ℝ
  upper : ℝ
  means : List ℝ
  stds : List ℝ

/-- `__init__` (`_truncated_gmm.py:12-29`). -/
noncomputable def mk' (domain : DomainLike) (means stds : List ℝ) : Except Err Mixture :=
  match asdomain domain with
  | .error .typeError => .error .typeError
  | .error _ => .error .valueError
  | .ok (.interval l u) => .ok ⟨l, u, means, stds⟩
  | .ok _ => .error .typeError

/-- NumPy broadcasting of two arrays with one axis. -/
def bcast1 (xs ys : List ℝ) : Option (List (ℝ × ℝ)) :=
  if xs.length = ys.length then some (xs.zip ys)
  else match xs, ys with
    | [x], ys => some (ys.map fun y => (x, y))
    | xs, [y] => some (xs.map fun x => (x, y))
    | _, _ => none

/-- `_gaussian_pdfs` (`_truncated_gmm.py:31-36`), one component. -/
noncomputable def gaussianPdf (mu sigma x : ℝ) : ℝ :=
  1 / (√(2 * π) * sigma) * exp (-0.5 * ((x - mu) / sigma) ^ 2)

/-- `scipy.stats.norm.cdf`. -/
noncomputable def normCdf (z : ℝ) : ℝ := ∫ t in Set.Iic z, 1 / √(2 * π) * exp (-0.5 * t ^ 2)

/-- `_Zs` (`_truncated_gmm.py:38-42`), one component. -/
noncomputable def Mixture.Z (g : Mixture) (mu sigma : ℝ) : ℝ := normCdf ((g.upper - mu) / sigma) - normCdf ((g.lower - mu) / sigma)

open Classical in
/-- `_evaluate` (`_truncated_gmm.py:44-45`) at one point. -/
noncomputable def Mixture.eval (g : Mixture) (x : ℝ) : Except Err ℝ :=
  match bcast1 g.means g.stds with
  | none => .error .valueError
  | some ps =>
    if ps = [] ∨ ∃ p ∈ ps, p.2 = 0 ∨ g.Z p.1 p.2 = 0 then .error .nonFinite
    else .ok ((ps.map fun p => gaussianPdf p.1 p.2 x / g.Z p.1 p.2).sum / ps.length)

end LinPDE.Gmm
