import Verif.Cpu.Notebook
import Verif.GP.Reindex
import Verif.GP.Integral

/-!
# Model of `experiments/0000_cpu_stationary_1d.ipynb`, cells 52-88: unknown heat sources and boundary fluxes

The process has the outputs `u`, `q_V` and `q_A`, independent a priori. The kernels, the means, the numbers of grid points, the
temperature readings and the variance of their noise are parameters.
-/

namespace LinPDE.Cpu
open LinPDE.Piecewise LinPDE.GP LinPDE.Solve LinPDE.Domains LinPDE.Galerkin MeasureTheory
open LinPDE.Matern (DOp)

/-- The outputs, in the order of cell 56. -/
inductive Out
  | u | qV | qA
deriving DecidableEq

instance : Fintype Out := ⟨{.u, .qV, .qA}, fun k => by cases k <;> decide⟩

/-- Points and real numbers. -/
def pt1 : Pt 1 ≃ ℝ where
  toFun x := x 0
  invFun t _ := t
  left_inv x := funext fun j => by rw [Subsingleton.elim j 0]
  right_inv _ := rfl

/-- Cell 55: the means and the covariance functions of the outputs. -/
structure Ufg (I : Set (Ix 1)) (K : Ix 1 → Pt 1 → Ix 1 → Pt 1 → ℝ) where
  jet : JetKernel I K
  mu : jetF I
  kV : ℝ → ℝ → ℝ
  featV : Nonempty (Feature kV)
  mV : lbF
  kA : ℝ → ℝ → ℝ
  featA : Nonempty (Feature kA)
  mA : lbF

/-- `LebesgueIntegral([a, b])` as a weight. -/
noncomputable def lebesgue (a b : ℝ) : {w : ℝ → ℝ // Weight w} :=
  ⟨(Set.Icc a b).indicator 1, ((integrable_indicator_iff measurableSet_Icc).mpr
    (integrableOn_const (by simp) (by simp))), a, b, fun _ hx => Set.indicator_of_notMem hx _⟩

namespace Ufg
variable {I : Set (Ix 1)} {K : Ix 1 → Pt 1 → Ix 1 → Pt 1 → ℝ} (q : Ufg I K)

/-- The process of each output. -/
@[reducible] noncomputable def P : Out → Prior (Pt 1)
  | .u => q.jet.prior q.mu
  | .qV => (lbPrior q.featV q.mV).reindex pt1
  | .qA => (lbPrior q.featA q.mA).reindex pt1

/-- Evaluation of `q_V`. -/
noncomputable def evV (x : Pt 1) : (q.P .qV).Λ := (lbPrior q.featV q.mV).lift pt1 ⟨evF (x 0), evF_mem _⟩

/-- Evaluation of `q_A`. -/
noncomputable def evA (x : Pt 1) : (q.P .qA).Λ := (lbPrior q.featA q.mA).lift pt1 ⟨evF (x 0), evF_mem _⟩

/-- `LebesgueIntegral([a, b])` of `q_V`. -/
noncomputable def intV (a b : ℝ) : (q.P .qV).Λ := (lbPrior q.featV q.mV).lift pt1 ⟨wF (lebesgue a b), wF_mem _⟩

variable (c : Chip) (hΔ : orders (diffop 1 c.kappa) ⊆ I) (hD : ∀ u : Fin 1 → ℝ, orders (.dd u) ⊆ I)

/-- Cells 62 and 72: `diffop @ select_u - select_q_dot_V` is zero on the grid. -/
noncomputable def pdeB (n : ℕ) : Batch (indep q.P) :=
  let xs : List (Pt 1) := (intervalGrid 0 c.width n (0.03 * c.width)).map fun x _ => x
  equationBatch q.P .u .qV (n := xs.length) (fun i => q.jet.op q.mu (coefs (diffop 1 c.kappa) hΔ) (xs.get i)) (fun i => q.evV (xs.get i)) fun _ => 0

/-- Cell 77: `bcond.operator @ select_u - select_q_dot_A` is zero at a boundary point. -/
noncomputable def fluxB (b : Dom × ℝ × ℝ) : Batch (indep q.P) :=
  equationBatch q.P .u .qA (n := 1) (fun _ => q.jet.op q.mu (b.2.1 • coefs (.dd fun _ => 1) (hD _)) fun _ => Chip.ptOf b.1)
    (fun _ => q.evA fun _ => Chip.ptOf b.1) fun _ => 0

/-- Cell 82: temperature readings at the centres of the cores, with independent noise. -/
noncomputable def dtsB (y : List ℝ) (v : ℝ) : Batch (indep q.P) :=
  Batch.onComp (P := q.P) .u ((c.dtsObs1D q.jet.zero_mem y v).batch q.jet q.mu)

/-- Cell 65 (`L_stat`). -/
noncomputable def stat : (indep q.P).Λ :=
  c.height • onComp q.P .qV (q.intV 0 c.width) + c.height • (onComp q.P .qA (q.evA fun _ => c.width) + onComp q.P .qA (q.evA fun _ => 0))

/-- Cells 66 and 85: `L_stat` is zero. -/
noncomputable def statB : Batch (indep q.P) := one (q.stat c) none 0

/-- Cells 72-85. -/
noncomputable def cond (e : Block.Env) (n : ℕ) (y : List ℝ) (v : ℝ) : Except Block.Err (Cond (indep q.P)) :=
  run e (q.pdeB c hΔ n) (c.flux1D.map (q.fluxB hD) ++ [q.dtsB c y v, q.statB c])

end Ufg
end LinPDE.Cpu
