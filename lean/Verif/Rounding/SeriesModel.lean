import Mathlib.Analysis.SpecialFunctions.Trigonometric.Basic
import Verif.Rounding.UpdateModel

/-!
# Model of the closed-form solutions in floating point

`functions/_fourier.py`, the solution of the heat equation in `problems/pde/_heat.py` and the solution of the Poisson equation with constant right-hand side
in `problems/pde/_poisson.py`, with every operation rounded. The integers of `np.arange` are exact.
-/

namespace LinPDE.Rounding

/-- `np.sin`: relative error at most `v`, as for exponentials. -/
structure Sn (F : Fmt) where
  sn : ℝ → ℝ
  err : ∀ x, |sn x - Real.sin x| ≤ F.v * |Real.sin x|

/-- `_fourier.py:44-47`: `np.pi * np.arange(1, n + 1) / (r - l)`, the entry with index `k`. -/
noncomputable def freqFl (F : Fmt) (l r : ℝ) (k : ℕ) : ℝ := F.rd (F.rd (F.rd Real.pi * (k + 1)) / F.rd (r - l))

/-- `_fourier.py:53-54`: one term of the series. -/
noncomputable def modeFl (F : Fmt) (S : Sn F) (l r c : ℝ) (k : ℕ) (x : ℝ) : ℝ := F.rd (c * S.sn (F.rd (freqFl F l r k * F.rd (x - l))))

/-- `_fourier.py:49-56`: the series at one point, added in the order `t`. -/
noncomputable def sineFl (F : Fmt) (S : Sn F) (l r : ℝ) (cs : List ℝ) (t : Option (Tree (Fin cs.length))) (x : ℝ) : ℝ :=
  sumFl F (fun k => modeFl F S l r (cs.get k) k x) t

/-- `_heat.py:116-118`: `self._alpha * half_angular_frequencies**2`. -/
noncomputable def rateFl (F : Fmt) (l r alpha : ℝ) (k : ℕ) : ℝ := F.rd (alpha * F.rd (freqFl F l r k * freqFl F l r k))

/-- `_heat.py:120-132` at one point `(τ, x)`, added in the order `t`. -/
noncomputable def heatFl (F : Fmt) (S : Sn F) (t0 l r : ℝ) (cs : List ℝ) (alpha : ℝ) (t : Option (Tree (Fin cs.length))) (τ x : ℝ) : ℝ :=
  sumFl F (fun k => F.rd (modeFl F S l r (cs.get k) k x * F.ex (F.rd (rateFl F l r alpha k * F.rd (t0 - τ))))) t

/-- `_poisson.py:117-121`: the coefficients. -/
noncomputable def constCoeffs (F : Fmt) (l r rhs ul ur alpha : ℝ) : ℝ × ℝ × ℝ :=
  (ul, F.rd (F.rd (ur - ul) / F.rd (r - l)), F.rd (F.rd (0.5 * rhs) / -alpha))

/-- `_poisson.py:123-127`. -/
noncomputable def constFl (F : Fmt) (l r : ℝ) (a : ℝ × ℝ × ℝ) (x : ℝ) : ℝ :=
  F.rd (F.rd (F.rd (F.rd (a.2.2 * F.rd (x - r)) + a.2.1) * F.rd (x - l)) + a.1)

end LinPDE.Rounding
