import Verif.GP.Model
import Verif.Param.Model

/-!
# Linear functionals of processes: shapes of the resulting random variables (C52)

`randprocs/_gaussian_process/_lintransforms.py:9-22` and `_conditional.py:453-467`.  A functional with output shape `out` is
given by its components, one for every multi-index.  ProbNum's `Normal` requires the covariance of a mean with at least one
axis to be a matrix of the size of the mean.
-/

namespace LinPDE.GP
open Matrix LinPDE.Block LinPDE.Nd

variable {X : Type}

/-- `pn.randvars.Normal(mean, cov)` for a covariance given as a linear operator. -/
def mkNormal (mean : Arr ℝ) {n : ℕ} (cov : Matrix (Fin n) (Fin n) ℝ) : Except Err (Arr ℝ × Matrix (Fin n) (Fin n) ℝ) :=
  if mean.shape ≠ [] ∧ mean.shape.prod ≠ n then .error .valueError else .ok (mean, cov)

/-- `_lintransforms.py:9-22`: a functional of a process; a mean of shape `()` becomes one of shape `(1,)`. -/
def Prior.functlCall (P : Prior X) (out : Shp) (L : List ℕ → P.Λ) :
    Except Err (Arr ℝ × Matrix (Fin out.prod) (Fin out.prod) ℝ) :=
  let mean : Arr ℝ := ⟨out, fun i => (L i).1 P.m⟩
  let cov := Matrix.of fun i j : Fin out.prod => P.cov (L (unravel out i)) (L (unravel out j))
  let mean := if mean.shape = [] then ⟨[1], fun i => mean.get (unravel [] (ravel [1] i))⟩ else mean
  mkNormal mean cov

/-- `_conditional.py:453-467`: a functional of a conditioned process.  `crosscov @ representer_weights` has shape
`(size,)`, and is added to the mean of the functional of the prior with broadcasting. -/
noncomputable def Core.functlCall (e : Env) {P : Prior X} (c : Core P) (out : Shp) (L : List ℕ → P.Λ) :
    Except Err (Arr ℝ × Matrix (Fin out.prod) (Fin out.prod) ℝ) := do
  let (m, _) ← P.functlCall out L
  let corr : Arr ℝ := ⟨[out.prod], fun i => ∑ j, (L (unravel out (i.getD 0 0))).1 (c.kLas j) * c.w j ()⟩
  let mean : Arr ℝ ← match Coeff.bcast m.shape corr.shape with
    | none => .error .valueError
    | some s => .ok ⟨s, fun i => m.get (Param.bidx m.shape i) + corr.get (Param.bidx corr.shape i)⟩
  let cov ← c.functlCov e fun i : Fin out.prod => L (unravel out i)
  mkNormal mean cov

end LinPDE.GP
