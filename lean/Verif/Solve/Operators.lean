import Verif.GP.ExactRows

/-!
# Conditioning on several differential operators

`experiments/0000_cpu_stationary_1d.ipynb` and `experiments/0001_cpu_stationary_2d.ipynb`: every call of
`condition_on_observations(Y, X=X, L=L, b=b)` has its own operator.
-/

namespace LinPDE.Solve
open LinPDE.GP LinPDE.Block Matrix

variable {d : ℕ} {I : Set (Ix d)} {K : Ix d → Pt d → Ix d → Pt d → ℝ}

/-- One call of `condition_on_observations`: the operator as a combination of derivatives, the points, the values, and the mean
and the variance of independent noise `b` (a `Constant` has variance zero, `_conditional.py:369-395`). -/
structure OpObs (I : Set (Ix d)) where
  a : I →₀ ℝ
  X : List (Pt d)
  Y : List ℝ
  noise : Option (List ℝ × ℝ)

/-- The batch of measurements of an observation. -/
noncomputable def OpObs.batch (h : JetKernel I K) (m : jetF I) (o : OpObs I) : Batch (h.prior m) where
  n := o.X.length
  L i := h.op m o.a (o.X.get i)
  noise := o.noise.map fun z => (fun i => z.1.getD i 0, z.2 • 1)
  Y i := o.Y.getD i 0

/-- Conditioning on the observations one after the other. -/
noncomputable def condAll (e : Env) (h : JetKernel I K) (m : jetF I) (o : OpObs I) (os : List (OpObs I)) :
    Except Block.Err (Cond (h.prior m)) :=
  run e (o.batch h m) (os.map (OpObs.batch h m))

end LinPDE.Solve
