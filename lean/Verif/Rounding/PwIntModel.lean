import Verif.Rounding.PiecewiseModel

/-!
# Model of the integrals of polynomials and piecewise functions in floating point

`functions/_linfunctls.py`, `functions/_polynomial.py:93-96` and `linfunctls/_integrals.py:60-62` with every operation rounded; comparisons are exact. Pieces that are
neither polynomials nor constants are integrated by `scipy.integrate.quad`, which is taken to be exact as in the exact model.
-/

namespace LinPDE.Rounding.PwFl
open LinPDE.Piecewise
open LinPDE.Polys (Poly)

/-- `functions/_polynomial.py:93-96` (`Polynomial.integrate`). -/
noncomputable def integrateFl (F : Fmt) (p : Poly ℝ) : Poly ℝ := .ofCoeffs (0 :: p.coeffs.mapIdx fun i c => F.rd (c / ((i + 1 : ℕ) : ℝ)))

/-- `functions/_linfunctls.py:9-13` (polynomials), `linfunctls/_integrals.py:60-62` with `domains/_interval.py:51-53` (constants), `linfunctls/_integrals.py:47-51`. -/
noncomputable def pieceIntFl (F : Fmt) (l r : ℝ) : Piece → ℝ
  | .poly p => F.rd (polyFl F (integrateFl F p) r - polyFl F (integrateFl F p) l)
  | .const c => F.rd (c * F.rd (r - l))
  | .fn f => ∫ x in l..r, f x

/-- `LebesgueIntegral((l, r))(piece)`, `linfunctls/_integrals.py:14-27`: `asdomain` rejects reversed intervals. -/
noncomputable def integratePieceFl (F : Fmt) (l r : ℝ) (p : Piece) : Except Err ℝ :=
  match LinPDE.Domains.asdomain (.scalars l r) with
  | .ok _ => .ok (pieceIntFl F l r p)
  | .error _ => .error .valueError

/-- `functions/_linfunctls.py:16-34`: integral of a piecewise function over `[a, b]`. -/
noncomputable def pwIntFl (F : Fmt) (f : PW) (a b : ℝ) : Except Err ℝ :=
  let start := searchsortedRight f.xs a
  let stop := searchsortedRight f.xs b
  if start = 0 then .error .valueError
  else
    let idxStart := start - 1
    let xs := a :: slice f.xs (idxStart + 1) (stop - 1) ++ [b]
    let fs := slice f.fns idxStart (stop - 1)
    (fs.zip (xs.zip xs.tail)).foldlM (fun s t => do
      let v ← integratePieceFl F t.2.1 t.2.2 t.1
      .ok (F.rd (s + v))) 0

end LinPDE.Rounding.PwFl
