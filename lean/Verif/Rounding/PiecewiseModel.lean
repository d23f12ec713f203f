import Verif.Piecewise.Model
import Verif.Rounding.Model

/-!
# Model of piecewise functions in floating point

`functions/_piecewise.py` with every operation rounded; comparisons are exact.
-/

namespace LinPDE.Rounding.PwFl
open LinPDE.Piecewise
open LinPDE.Polys (Poly)

/-- Evaluation of a piece: polynomials by Horner's method (`_polynomial.py:61-77`), constants exactly; other functions are taken as what they compute. -/
def pieceFl (F : Fmt) : Piece → Piece
  | .poly p => .fn (polyFl F p)
  | .const c => .const c
  | .fn f => .fn f

/-- `_piecewise.py:53-64` (`Piecewise._evaluate`) and `:164-171` (`PiecewiseConstant._evaluate`) at a float. -/
noncomputable def evaluateFl (F : Fmt) (f : PW) (x : ℝ) : Except Err ℝ := PW.evaluate ⟨f.kind, f.xs, f.fns.map (pieceFl F)⟩ x

/-- The coefficients of one piece, `_piecewise.py:98-101`. -/
noncomputable def coeffsFl (F : Fmt) (l r yl yr : ℝ) : List ℝ :=
  let slope := F.rd (F.rd (yr - yl) / F.rd (r - l))
  let offset := F.rd (yl - F.rd (slope * l))
  [offset, slope]

/-- `_piecewise.py:90-103` (`PiecewiseLinear.from_points`). -/
noncomputable def fromPointsFl (F : Fmt) (xs ys : List ℝ) : Except Err PW :=
  mkPW .linear xs (((xs.zip xs.tail).zip (ys.zip ys.tail)).map fun ⟨⟨l, r⟩, ⟨yl, yr⟩⟩ => .poly (.ofCoeffs (coeffsFl F l r yl yr)))

end LinPDE.Rounding.PwFl
