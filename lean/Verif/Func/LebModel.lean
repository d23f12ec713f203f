import Verif.Func.Model
import Verif.Domain.Model
import Mathlib.MeasureTheory.Integral.IntervalIntegral.Basic

/-!
# The Lebesgue integral functional

Model of `linfunctls/_integrals.py` (with `linfunctls/_linfunctl.py:55-69`) on the functions of `Func.Model`; the integrals of
polynomials and piecewise functions are in `Poly` and `Piecewise`.

Outside contracts: `scipy.integrate.quad(f, a, b)` calls `f` with numbers, converts the results to numbers (`TypeError` for
arrays that do not have exactly one entry) and returns the exact integral; `nquad(f, ranges)` calls `f` with one argument per
range, and a function of this library takes one argument, so anything but one range raises `TypeError`.
-/

namespace LinPDE.Func
open LinPDE.Nd

/-- A `LebesgueIntegral`. -/
structure Leb where
  dom : Domains.Dom
  cod : Shp

/-- `_integrals.py:14-27`. -/
def mkLeb (D : Domains.Dom) (cod : Shp) : Except Err Leb :=
  match D with
  | .interval _ _ => .ok ⟨D, cod⟩
  | .box _ => .ok ⟨D, cod⟩
  | _ => .error .typeError

/-- `scipy.integrate.quad(f, a, b)[0]`. -/
noncomputable def quad (f : FE ℝ) (a b : ℝ) : Except Err (Arr ℝ) :=
  match f.call false ⟨[], fun _ => a⟩ with
  | .error e => .error e
  | .ok v =>
    if v.shape.prod ≠ 1 then .error .typeError
    else .ok ⟨[], fun _ => ∫ t in a..b, match f.call false ⟨[], fun _ => t⟩ with
      | .ok v => v.get (List.replicate v.shape.length 0)
      | .error _ => 0⟩

/-- The numerical integration in `_integrals.py:42-58`; `tuple(interval)` of a collapsed dimension, a `Point`, raises
`TypeError`. -/
noncomputable def Leb.numeric (L : Leb) (f : FE ℝ) : Except Err (Arr ℝ) :=
  if L.cod ≠ [] then .error .notImplemented
  else match L.dom with
    | .interval a b => quad f a b
    | .box [(a, b)] => if a = b then .error .typeError else quad f a b
    | .box _ => .error .typeError
    | _ => .error .notImplemented

/-- `except NotImplementedError`: fall back to numerical integration. -/
noncomputable def Leb.orNumeric (L : Leb) (f : FE ℝ) (r : Except Err (Arr ℝ)) : Except Err (Arr ℝ) :=
  match r with
  | .error .notImplemented => L.numeric f
  | r => r

/-- `f.value * self._domain.volume` (`_integrals.py:60-62`). -/
noncomputable def Leb.ofConst (L : Leb) (v : Arr ℝ) : Except Err (Arr ℝ) :=
  match L.dom.volume with
  | .error _ => .error .typeError
  | .ok r => .ok ⟨v.shape, fun i => v.get i * r⟩

/-- Python's `sum` of arrays. -/
noncomputable def pySum (as : List (Arr ℝ)) : Except Err (Arr ℝ) :=
  as.foldlM (fun acc b => zipB (· + ·) acc b) ⟨[], fun _ => 0⟩

/-- `LebesgueIntegral.__call__`; the first argument is the recursion limit of the interpreter.  Constants (and `Zero`)
`_integrals.py:60-62`; other functions `37-58`, where `super().__call__` maps sums (`_linfunctl.py:63-65`), calls the functional
on a scaled function **itself** (67-69) and raises `NotImplementedError` otherwise. -/
noncomputable def Leb.call (L : Leb) : ℕ → FE ℝ → Except Err (Arr ℝ)
  | 0, _ => .error .recursionError
  | _ + 1, .const _ v => L.ofConst v
  | _ + 1, .zero _ o => L.ofConst ⟨o, fun _ => 0⟩
  | n + 1, .sum i o fs => L.orNumeric (.sum i o fs) (match mapE (Leb.call L n) fs with
    | .error e => .error e
    | .ok as => pySum as)
  | n + 1, .scaled f c => L.orNumeric (.scaled f c) (match Leb.call L n (.scaled f c) with
    | .error e => .error e
    | .ok a => .ok ⟨a.shape, fun i => c * a.get i⟩)
  | _ + 1, f => L.orNumeric f (.error .notImplemented)

end LinPDE.Func
