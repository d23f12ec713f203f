import Verif.Matern.Model

/-!
# Model of the integrals of univariate half-integer Matérn kernels

`randprocs/crosscov/linfunctls/integrals/_matern_lebesgue.py` and `_radial_lebesgue.py`. One evaluation point is
modelled, batches are evaluated entry by entry; the JAX variants use the same formulas.
-/

namespace LinPDE.Matern
open LinPDE.Polys

/-- `_matern_lebesgue.py:26-35`: the loop state `(p_i, poly)` after `n` iterations. -/
def antiLoop (p : ℕ) : ℕ → Poly ℚ × Poly ℚ
  | 0 => (maternPoly p, maternPoly p)
  | n + 1 =>
    let pi := (antiLoop p n).1.differentiate
    (pi, (antiLoop p n).2.add pi)

/-- `_matern_lebesgue.py:72-81`: the loop state of the second antiderivative; iteration `i` adds `(i + 1) * p_i`. -/
def antiLoop2 (p : ℕ) : ℕ → Poly ℚ × Poly ℚ
  | 0 => (maternPoly p, maternPoly p)
  | n + 1 =>
    let pi := (antiLoop2 p n).1.differentiate
    (pi, (antiLoop2 p n).2.add (pi.smul ((n + 1 : ℕ) + 1 : ℚ)))

/-- First entry of the coefficients, as a float. -/
noncomputable def coeff0 (q : Poly ℚ) : ℝ := (toReal q).coeffs.headI

/-- `_matern_lebesgue.py:22-23, 64`. -/
noncomputable def sqrt2nu (p : ℕ) : ℝ := Real.sqrt (2 * p + 1)

/-- `_matern_lebesgue.py:37`. -/
noncomputable def C1 (p : ℕ) : ℝ := -(-(1 / sqrt2nu p)) * coeff0 (antiLoop p p).2

/-- `_matern_lebesgue.py:39-47` (`HalfIntegerMaternRadialAntiderivative`). -/
noncomputable def anti1 (p : ℕ) (r : ℝ) : ℝ :=
  -(1 / sqrt2nu p) * Real.exp (-sqrt2nu p * r) * pev (antiLoop p p).2 (sqrt2nu p * r) + C1 p

/-- `_matern_lebesgue.py:83`. -/
noncomputable def C2 (p : ℕ) : ℝ := -(1 / (2 * p + 1)) * coeff0 (antiLoop2 p p).2

/-- `_matern_lebesgue.py:85-92` (`HalfIntegerMaternRadialSecondAntiderivative`). -/
noncomputable def anti2 (p : ℕ) (r : ℝ) : ℝ :=
  1 / (2 * p + 1) * Real.exp (-sqrt2nu p * r) * pev (antiLoop2 p p).2 (sqrt2nu p * r) + C1 p * r + C2 p

/-- `(-1) ** cond`. -/
def negPow (c : Prop) [Decidable c] : ℝ := if c then -1 else 1

open Classical in
/-- `_radial_lebesgue.py:34-41` for a radial antiderivative `A`, lengthscale `l`, domain `[a, b]` and point `x`. -/
noncomputable def radialIntegral (A : ℝ → ℝ) (l a b x : ℝ) : ℝ :=
  l * (negPow (b < x) * A (|b - x| / l) - negPow (a < x) * A (|a - x| / l))

/-- `_radial_lebesgue.py:53-71` for a second radial antiderivative `B`, integrals over `[a, b]` and `[c, d]`. -/
noncomputable def radialIntegral2 (B : ℝ → ℝ) (l a b c d : ℝ) : ℝ :=
  l ^ 2 * (B (|b - c| / l) - B (|a - c| / l) - B (|b - d| / l) + B (|a - d| / l))

/-- `_matern_lebesgue.py:105-123`: the covariance of `f(x)` and the integral of `f` over `[a, b]`. -/
noncomputable def maternIntegral (p : ℕ) (l a b x : ℝ) : ℝ := radialIntegral (anti1 p) l a b x

/-- `_matern_lebesgue.py:129-141`: the covariance of the integrals over `[a, b]` and `[c, d]`. -/
noncomputable def maternIntegral2 (p : ℕ) (l a b c d : ℝ) : ℝ := radialIntegral2 (anti2 p) l a b c d

end LinPDE.Matern
