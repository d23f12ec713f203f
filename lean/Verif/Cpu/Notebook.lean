import Verif.Cpu.Model
import Verif.Solve.Operators
import Verif.Solve.Model
import Verif.GP.JetKernels

/-!
# Model of `experiments/0000_cpu_stationary_1d.ipynb` and `experiments/0001_cpu_stationary_2d.ipynb`: the observations

The observations on which the processes are conditioned. Numbers of grid points, temperature readings and the variance of their
noise are parameters.
-/

namespace LinPDE.Cpu
open LinPDE.Piecewise LinPDE.GP LinPDE.Solve LinPDE.Domains
open LinPDE.Matern (DOp)

/-- `-α Δ` (`_poisson.py:24`). -/
def diffop (d : ℕ) (α : ℝ) : DOp d := .wl fun _ => -α

namespace Chip
variable (c : Chip)

/-! ## Two dimensions -/

section
variable {I : Set (Ix 2)} (hΔ : orders (diffop 2 c.kappa) ⊆ I) (hD : ∀ u : Fin 2 → ℝ, orders (.dd u) ⊆ I)

/-- `0001_cpu_stationary_2d.ipynb`, cells 17-18: the differential equation on a grid with an inset, with `Y = 0` and
`b = -q_dot_V(X_pde)`, a constant. -/
noncomputable def pdeObs2D (rel : List ℝ) (n : ℕ) : Except Pde.Err (OpObs I) := do
  let xs ← Pde.liftDom (boxGrid [(0, c.width), (0, c.height)] [n, n] [0.03 * c.width, 0.03 * c.height])
  let r ← xs.mapM fun x => liftPW (c.rhs2D rel (x.getD 0 0) (x.getD 1 0))
  .ok ⟨coefs (diffop 2 c.kappa) hΔ, xs.map (toPt 2), xs.map fun _ => 0, some (r.map fun y => -y, 0)⟩

/-- Cells 25-28: one boundary part, with `Y = 0`, `L = -κ D_dir` and `b = -q_dot_A`, a constant. -/
noncomputable def fluxObs2D (b : Dom × (ℝ × ℝ) × ℝ) (n : ℕ) : Except Pde.Err (OpObs I) := do
  let xs ← uniformGrid b.1 [n] 0
  .ok ⟨-c.kappa • coefs (.dd ![b.2.1.1, b.2.1.2]) (hD _), xs.map (toPt 2), xs.map fun _ => 0, some (xs.map fun _ => -b.2.2, 0)⟩

/-- `cpu.py:61` (`core_centers`, in C order). -/
noncomputable def centers : List (ℝ × ℝ) :=
  [c.centersY.1, c.centersY.2].flatMap fun y => c.centersX.map fun x => (x, y)

/-- Cell 33: temperature readings at the centres of the cores, with independent noise (`cpu.py:263-266`). -/
noncomputable def dtsObs2D (h0 : (0 : Ix 2) ∈ I) (y : List ℝ) (v : ℝ) : OpObs I :=
  ⟨Finsupp.single ⟨0, h0⟩ 1, c.centers.map fun p => ![p.1, p.2], y, some (c.centers.map fun _ => 0, v)⟩

/-- All the observations in order; `nb` are the numbers of points on the horizontal and the vertical boundary parts (`N_nbc`). -/
noncomputable def obs2D (h0 : (0 : Ix 2) ∈ I) (rel : List ℝ) (n : ℕ) (nb : ℕ × ℕ) (y : List ℝ) (v : ℝ) :
    Except Pde.Err (OpObs I × List (OpObs I)) := do
  let p ← c.pdeObs2D hΔ rel n
  let bs ← (c.flux2D.zip [nb.1, nb.2, nb.1, nb.2]).mapM fun b => c.fluxObs2D hD b.1 b.2
  .ok (p, bs ++ [c.dtsObs2D h0 y v])

end

/-! ## One dimension -/

section
variable {I : Set (Ix 1)} (hΔ : orders (diffop 1 c.kappa) ⊆ I) (hD : ∀ u : Fin 1 → ℝ, orders (.dd u) ⊆ I) (h0 : (0 : Ix 1) ∈ I)

/-- `0000_cpu_stationary_1d.ipynb`, cells 13-16 and 33-37: the differential equation on a grid with an inset. -/
noncomputable def pdeObs1D (rel : List ℝ) (n : ℕ) : Except Pde.Err (OpObs I) := do
  let rhs ← liftPW (c.rhs1D rel)
  let xs := intervalGrid 0 c.width n (0.03 * c.width)
  let r ← xs.mapM fun x => liftPW (rhs.evaluate x)
  .ok ⟨coefs (diffop 1 c.kappa) hΔ, xs.map fun x _ => x, r, none⟩

/-- The point of a boundary part of an interval. -/
noncomputable def ptOf : Dom → ℝ
  | .point0 x => x
  | _ => 0

/-- Cell 21: the boundary values of `bvp_1D_dbc` (`cpu.py:240-249`). -/
noncomputable def dbcObs1D (rel : List ℝ) : Except Pde.Err (OpObs I) := do
  let u ← c.solution1Ddbc rel
  let xs := (Dom.interval 0 c.width).boundary.map ptOf
  let ys ← xs.mapM fun x => liftPW (u.evaluate x)
  .ok ⟨Finsupp.single ⟨0, h0⟩ 1, xs.map fun x _ => x, ys, none⟩

/-- Cells 7-21: the problem with boundary values. -/
noncomputable def obs1Ddbc (rel : List ℝ) (n : ℕ) : Except Pde.Err (OpObs I × List (OpObs I)) := do
  let p ← c.pdeObs1D hΔ rel n
  let b ← c.dbcObs1D h0 rel
  .ok (p, [b])

/-- Cell 43: one Neumann boundary condition of `bvp_1D`: the operator is `s D` with `s` from `flux1D`. -/
noncomputable def fluxObs1D (b : Dom × ℝ × ℝ) : OpObs I :=
  ⟨b.2.1 • coefs (.dd fun _ => 1) (hD _), [fun _ => ptOf b.1], [b.2.2], none⟩

/-- Cell 48: temperature readings at the centres of the cores, with independent noise. -/
noncomputable def dtsObs1D (y : List ℝ) (v : ℝ) : OpObs I :=
  ⟨Finsupp.single ⟨0, h0⟩ 1, c.centersX.map fun x _ => x, y, some (c.centersX.map fun _ => 0, v)⟩

/-- Cells 28-48: the problem with boundary fluxes. -/
noncomputable def obs1D (rel : List ℝ) (n : ℕ) (y : List ℝ) (v : ℝ) : Except Pde.Err (OpObs I × List (OpObs I)) := do
  let p ← c.pdeObs1D hΔ rel n
  .ok (p, c.flux1D.map (fluxObs1D hD) ++ [c.dtsObs1D h0 y v])

end

end Chip
end LinPDE.Cpu
