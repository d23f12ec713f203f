import Verif.Matern.Model

/-!
# Model of the squared-exponential covariance function and its derivatives

`randprocs/covfuncs/_expquad.py`, `randprocs/covfuncs/linfuncops/diffops/_expquad.py` and the ExpQuad part of
`linfuncops/diffops/_registry.py`. One pair of points is modelled (batches are evaluated entry by entry); points have `d`
entries, `d = 1` also standing for scalar inputs; lengthscales are given per dimension. The JAX variants are modelled
in `Backend/Model.lean`. Operators (`DOp`) and `dot` (`_batched_sum` of a product) are those of the Matérn model.
-/

namespace LinPDE.ExpQuad
open LinPDE.Matern (DOp dot)

variable {d : ℕ}

/-- Kernels obtained by differentiating an `ExpQuad` with lengthscales `l`. -/
inductive EK (d : ℕ)
  | expquad (l : Fin d → ℝ)
  | idDD (l dir : Fin d → ℝ) (reverse : Bool)
  | ddDD (l dir0 dir1 : Fin d → ℝ)
  | idWL (l w : Fin d → ℝ) (reverse : Bool)
  | wlWL (l w0 w1 : Fin d → ℝ)
  | ddWL (l dir w : Fin d → ℝ) (reverse : Bool)

/-- Exceptions; `fallback` stands for leaving the closed forms for automatic differentiation, `notImplemented` for a
returned `NotImplemented`. -/
inductive Err where
  | attributeError
  | fallback
  | notImplemented
  deriving DecidableEq

/-- `_registry.py:219-227, 230-249, 252-264`. -/
def applyDD (dir : Fin d → ℝ) (arg0 : Bool) : EK d → Except Err (EK d)
  | .expquad l => .ok (.idDD l dir arg0)
  | .idDD l dir' reverse =>
    if arg0 ∧ ¬reverse then .ok (.ddDD l dir dir')
    else if ¬arg0 ∧ reverse then .ok (.ddDD l dir' dir)
    else .error .fallback
  | .idWL l w reverse =>
    if (arg0 ∧ ¬reverse) ∨ (¬arg0 ∧ reverse) then .ok (.ddWL l dir w (!arg0)) else .error .fallback
  | _ => .error .fallback

/-- `_registry.py:334-338, 341-355, 358-370`; the second branch for `idWL` accesses the missing attribute `k.matern`
(`:352`). -/
def applyWL (w : Fin d → ℝ) (arg0 : Bool) : EK d → Except Err (EK d)
  | .expquad l => .ok (.idWL l w arg0)
  | .idWL l w' reverse =>
    if arg0 ∧ ¬reverse then .ok (.wlWL l w w')
    else if ¬arg0 ∧ reverse then .error .attributeError
    else .error .fallback
  | .idDD l dir reverse =>
    if (arg0 ∧ ¬reverse) ∨ (¬arg0 ∧ reverse) then .ok (.ddWL l dir w arg0) else .error .fallback
  | _ => .error .fallback

/-- `_registry.py:80-92, 122-134` (`_partial_derivative_fallback`). -/
def applyPD (order : ℕ) (arg0 : Bool) (k : EK d) : Except Err (EK d) :=
  match k with
  | .ddDD .. | .wlWL .. | .ddWL .. => .error .fallback
  | k =>
    if order = 0 then .ok k
    else if d = 1 ∧ order = 1 then applyDD (fun _ => 1) arg0 k
    else if d = 1 ∧ order = 2 then applyWL (fun _ => 1) arg0 k
    else .error .notImplemented

/-- Application of an operator to an argument of a covariance function (`true`: the first). -/
def apply (L : DOp d) (arg0 : Bool) (k : EK d) : Except Err (EK d) :=
  match L with
  | .dd dir => applyDD dir arg0 k
  | .wl w => applyWL w arg0 k
  | .pd n => applyPD n arg0 k

/-- probnum `ExpQuad._scale_factors` (external contract): `sqrt(0.5) / lengthscales`. -/
noncomputable def sf (l : Fin d → ℝ) : Fin d → ℝ := fun i => Real.sqrt 0.5 / l i

/-- `_batched_euclidean_norm_sq`. -/
def normSq (v : Fin d → ℝ) : ℝ := ∑ i, v i ^ 2

/-- `exp(-_squared_euclidean_distances(x0, x1, scale_factors))`, `_expquad.py:14-26` and probnum `ExpQuad._evaluate`. -/
noncomputable def ek (l v : Fin d → ℝ) : ℝ := Real.exp (-normSq fun i => sf l i * v i)

/-- `_expquad.py` (diffops) `:164-166` (`_weighted_inv_lengthscales_sq`). -/
noncomputable def wInv (l w : Fin d → ℝ) : Fin d → ℝ := fun i => 2 * w i * sf l i ^ 2

/-- `:168-172` (`_scale_factors_sq`). -/
noncomputable def sfSq (l w : Fin d → ℝ) : Fin d → ℝ := fun i => 2 * wInv l w i * sf l i ^ 2

/-- `:174-176` (`_trace_term`). -/
noncomputable def trace (l w : Fin d → ℝ) : ℝ := ∑ i, 2 * w i * sf l i ^ 2

/-- `:178-194` (`ExpQuad_Identity_WeightedLaplacian._evaluate`). -/
noncomputable def evalIdWL (l w v : Fin d → ℝ) : ℝ :=
  ((∑ i, sfSq l w i * v i * v i) - trace l w) * Real.exp (-normSq fun i => sf l i * v i)

/-- Value at a pair of points: `:48-60, 107-124, 178-194, 282-320, 389-408`. -/
noncomputable def EK.eval (k : EK d) (x0 x1 : Fin d → ℝ) : ℝ :=
  let v := fun i => x0 i - x1 i
  match k with
  | .expquad l => ek l v
  | .idDD l dir reverse =>
    dot (fun i => if reverse then -(dir i / l i ^ 2) else dir i / l i ^ 2) v *
      Real.exp (-0.5 * normSq fun i => v i / l i)
  | .ddDD l dir0 dir1 =>
    (dot dir0 (fun i => dir1 i / l i ^ 2) - dot (fun i => dir0 i / l i ^ 2) v * dot (fun i => dir1 i / l i ^ 2) v) *
      Real.exp (-0.5 * normSq fun i => v i / l i)
  | .idWL l w _ => evalIdWL l w v
  | .wlWL l w0 w1 =>
    (((∑ i, sfSq l w0 i * v i ^ 2) - trace l w0) * ((∑ i, sfSq l w1 i * v i ^ 2) - trace l w1) -
        4 * (∑ i, sfSq l w0 i * wInv l w1 i * v i ^ 2) + 2 * ∑ i, wInv l w0 i * wInv l w1 i) *
      Real.exp (-normSq fun i => sf l i * v i)
  | .ddWL l dir w reverse =>
    let rd := fun i => dir i * 2 * sf l i ^ 2
    let k := 2 * dot (fun i => rd i * wInv l w i) v * ek l v - dot rd v * evalIdWL l w v
    if reverse then -k else k

/-- Value with `x1 = None`: `:49-53, 108-113, 179-184, 283-293, 390-394`. -/
noncomputable def EK.evalNone (k : EK d) : ℝ :=
  match k with
  | .expquad _ => 1
  | .idDD .. => 0
  | .ddDD l dir0 dir1 => dot dir0 (fun i => dir1 i / l i ^ 2)
  | .idWL l w _ => -trace l w
  | .wlWL l w0 w1 => trace l w0 * trace l w1 + 2 * ∑ i, wInv l w0 i * wInv l w1 i
  | .ddWL .. => 0

end LinPDE.ExpQuad
