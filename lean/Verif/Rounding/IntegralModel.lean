import Verif.Matern.Integral
import Verif.Rounding.Model

/-!
# Model of the integrals of univariate Matérn kernels in floating point

`randprocs/crosscov/linfunctls/integrals/_matern_lebesgue.py` and `_radial_lebesgue.py` with every operation rounded. The polynomials are computed exactly
(`fractions.Fraction`) and their coefficients rounded once; products with signs and absolute values are exact; the square root is correctly rounded.
-/

namespace LinPDE.Rounding.IntFl
open LinPDE.Matern
open LinPDE.Polys (Poly)

/-- `_matern_lebesgue.py:18, 62`. -/
noncomputable def sqrtFl (F : Fmt) (p : ℕ) : ℝ := F.rd (√(2 * p + 1))

/-- `_matern_lebesgue.py:19` without the sign. -/
noncomputable def invFl (F : Fmt) (p : ℕ) : ℝ := F.rd (1 / sqrtFl F p)

/-- `_matern_lebesgue.py:63`. -/
noncomputable def inv2Fl (F : Fmt) (p : ℕ) : ℝ := F.rd (1 / (2 * p + 1))

/-- `_matern_lebesgue.py:35, 82`: `coefficients[0]` of a `RationalPolynomial`. -/
noncomputable def headFl (F : Fmt) (q : Poly ℚ) : ℝ := (ratFl F q).coeffs.headI

/-- `_matern_lebesgue.py:35`. -/
noncomputable def C1Fl (F : Fmt) (p : ℕ) : ℝ := F.rd (-(-invFl F p) * headFl F (antiLoop p p).2)

/-- `_matern_lebesgue.py:37-45` (`HalfIntegerMaternRadialAntiderivative._evaluate`). -/
noncomputable def anti1Fl (F : Fmt) (p : ℕ) (r : ℝ) : ℝ :=
  F.rd (F.rd (F.rd (-invFl F p * F.ex (F.rd (-sqrtFl F p * r))) * polyFl F (ratFl F (antiLoop p p).2) (F.rd (sqrtFl F p * r))) + C1Fl F p)

/-- `_matern_lebesgue.py:82`. -/
noncomputable def C2Fl (F : Fmt) (p : ℕ) : ℝ := F.rd (-inv2Fl F p * headFl F (antiLoop2 p p).2)

/-- `_matern_lebesgue.py:84-91` (`HalfIntegerMaternRadialSecondAntiderivative._evaluate`). -/
noncomputable def anti2Fl (F : Fmt) (p : ℕ) (r : ℝ) : ℝ :=
  F.rd (F.rd (F.rd (F.rd (inv2Fl F p * F.ex (F.rd (-sqrtFl F p * r))) * polyFl F (ratFl F (antiLoop2 p p).2) (F.rd (sqrtFl F p * r))) + F.rd (C1Fl F p * r)) + C2Fl F p)

/-- `_radial_lebesgue.py:39-40, 65-68`: `np.abs(b - x) / l`. -/
noncomputable def radFl (F : Fmt) (l b x : ℝ) : ℝ := F.rd (|F.rd (b - x)| / l)

open Classical in
/-- `_radial_lebesgue.py:34-41`. -/
noncomputable def radialFl (F : Fmt) (A : ℝ → ℝ) (l a b x : ℝ) : ℝ :=
  F.rd (l * F.rd (negPow (b < x) * A (radFl F l b x) - negPow (a < x) * A (radFl F l a x)))

/-- `_radial_lebesgue.py:53-69`. -/
noncomputable def radial2Fl (F : Fmt) (B : ℝ → ℝ) (l a b c d : ℝ) : ℝ :=
  F.rd (F.rd (l ^ 2) * F.rd (F.rd (F.rd (B (radFl F l b c) - B (radFl F l a c)) - B (radFl F l b d)) + B (radFl F l a d)))

/-- `_matern_lebesgue.py:105-123`: the covariance of `f(x)` and the integral of `f` over `[a, b]`. -/
noncomputable def integralFl (F : Fmt) (p : ℕ) (l a b x : ℝ) : ℝ := radialFl F (anti1Fl F p) l a b x

/-- `_matern_lebesgue.py:129-141`: the covariance of the integrals over `[a, b]` and `[c, d]`. -/
noncomputable def integral2Fl (F : Fmt) (p : ℕ) (l a b c d : ℝ) : ℝ := radial2Fl F (anti2Fl F p) l a b c d

end LinPDE.Rounding.IntFl
