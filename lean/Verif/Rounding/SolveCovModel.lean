import Verif.Rounding.SolveModel
import Verif.Rounding.FactorModel

/-!
# Model of the posterior covariance of a whole history in floating point
-/

namespace LinPDE.Rounding
open Finset Matrix LinPDE.Block

variable {X α : Type}

/-- `_conditional.py:223-231` (`CovarianceFunction._evaluate`) after a history on floats: `kLas_x1` is solved for with the computed Gram operator
(`linops/_block.py:244-268`), `kk` are the computed values of the prior covariance function. -/
noncomputable def FlSt.cov (F : Fmt) (lib : Lib) (tr : Orders) (e : Env) (K : FlKer X α) (kk : X → X → ℝ) (f : FlSt α) (t : Tree f.s.Idx) (x0 x1 : X) : Except Err ℝ := do
  let z ← solveFl F lib tr e f.gram fun j => K.k x1 (f.at_ j)
  return postCov F t (kk x0 x1) (fun j => K.k x0 (f.at_ j)) z

end LinPDE.Rounding
