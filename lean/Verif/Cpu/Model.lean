import Verif.Pde.Model

/-!
# Model of `experiments/cpu.py`: geometry, heat sources and sinks, and the one-dimensional solutions

The script's module-level constants become the fields of `Chip`; `coffeeLake` holds the values of the script. All the
numbers are exact reals.
-/

namespace LinPDE.Cpu
open LinPDE.Piecewise
open LinPDE.Domains (Dom)

/-- The constants of `cpu.py:24-26, 44-52, 68-69, 75`: width, height and depth of the die, number of cores in a row, width and
height of a core, offset of the first core and distance between cores, thermal conductivity and thermal design power. -/
structure Chip where
  width : ℝ
  height : ℝ
  depth : ℝ
  nx : ℕ
  coreWidth : ℝ
  coreHeight : ℝ
  offset : ℝ
  dist : ℝ
  kappa : ℝ
  tdp : ℝ

/-- The values of `cpu.py`. -/
noncomputable def coffeeLake : Chip where
  width := 16.28
  height := 9.19
  depth := 0.37
  nx := 3
  coreWidth := 2.5
  coreHeight := 0.45 * 9.19
  offset := 1.95
  dist := 0.35
  kappa := 1.56 * 10
  tdp := 95

namespace Chip
variable (c : Chip)

/-- `cpu.py:28` (`domain`), and `domain_2D = domain[0:2]` (`cpu.py:30`). -/
noncomputable def domain2D : Dom := .box [(0, c.width), (0, c.height)]

/-- `cpu.py:33` (`A_top_bottom`). -/
noncomputable def aTopBottom : ℝ := c.width * c.height

/-- `cpu.py:34` (`A_side_NS`). -/
noncomputable def aSideNS : ℝ := c.width * c.depth

/-- `cpu.py:35` (`A_side_EW`). -/
noncomputable def aSideEW : ℝ := c.height * c.depth

/-- `cpu.py:37` (`A_sink`). -/
noncomputable def aSink : ℝ := c.aTopBottom + 2 * c.aSideNS + 2 * c.aSideEW

/-- `cpu.py:38` (`A_sink_1D`). -/
noncomputable def aSink1D : ℝ := c.aTopBottom + 2 * c.aSideEW

/-- `cpu.py:41` (`V`). -/
noncomputable def vol : ℝ := c.width * c.height * c.depth

/-- `cpu.py:54-58` (`core_centers_xs`). -/
noncomputable def centersX : List ℝ :=
  (List.range c.nx).map fun i : ℕ => c.offset + (c.coreWidth + c.dist) * (i : ℝ) + c.coreWidth / 2

/-- `cpu.py:59` (`core_centers_ys`). -/
noncomputable def centersY : ℝ × ℝ := (c.coreHeight / 2, c.height - c.coreHeight / 2)

/-- `cpu.py:86-92`: the four points of one core, a trapezoid with flanks of width `eps`. -/
noncomputable def coreKnots (eps : ℝ) (t : ℝ × ℝ) : List (ℝ × ℝ) :=
  [(t.1 - c.coreWidth / 2 - eps, 0), (t.1 - c.coreWidth / 2, t.2), (t.1 + c.coreWidth / 2, t.2),
    (t.1 + c.coreWidth / 2 + eps, 0)]

/-- `cpu.py:79-95`: the points `(xs, ys)` of the unnormalised heat distribution; `zip` stops at the shorter list. -/
noncomputable def knotsX (rel : List ℝ) : List (ℝ × ℝ) :=
  (0, 0) :: ((c.centersX.zip rel).flatMap (c.coreKnots (c.dist / 3))) ++ [(c.width, 0)]

/-- `cpu.py:112-122`: the points of the unnormalised heat distribution in the other direction. -/
noncomputable def knotsY : List (ℝ × ℝ) :=
  let eps := (c.centersY.2 - c.centersY.1 - c.coreHeight) / 3
  [(c.centersY.1 - c.coreHeight / 2, 1), (c.centersY.1 + c.coreHeight / 2, 1), (c.centersY.1 + c.coreHeight / 2 + eps, 0),
    (c.centersY.2 - c.coreHeight / 2 - eps, 0), (c.centersY.2 - c.coreHeight / 2, 1), (c.centersY.2 + c.coreHeight / 2, 1)]

/-- `cpu.py:97-104` and `124-131`: interpolate the points, integrate over `[0, r]` and divide by the integral. -/
noncomputable def normalized (pts : List (ℝ × ℝ)) (r : ℝ) : Except Err PW := do
  let f ← fromPoints (pts.map Prod.fst) (pts.map Prod.snd)
  let n ← f.integral 0 r
  f.smul (1 / n)

/-- `cpu.py:78-104` (`_core_heat_dist_x`). -/
noncomputable def heatDistX (rel : List ℝ) : Except Err PW := normalized (c.knotsX rel) c.width

/-- `cpu.py:110-131` (`_core_heat_dist_y`). -/
noncomputable def heatDistY : Except Err PW := normalized c.knotsY c.height

/-- `cpu.py:144` (`q_dot_V_src_1D`). -/
noncomputable def src1D (rel : List ℝ) : Except Err PW := do
  let f ← c.heatDistX rel
  f.smul (c.tdp / c.depth / c.height)

/-- `cpu.py:136-142` (`q_dot_V_src_2D`): the value at a point. -/
noncomputable def src2D (rel : List ℝ) (x y : ℝ) : Except Err ℝ := do
  let hx ← c.heatDistX rel
  let hy ← c.heatDistY
  let a ← hx.evaluate x
  let b ← hy.evaluate y
  .ok (c.tdp / c.depth * a * b)

/-- `cpu.py:150-153` (`q_dot_V_sink_2D`). -/
noncomputable def sink2D : ℝ := -c.tdp / c.aSink / c.depth

/-- `cpu.py:155-158` (`q_dot_V_sink_1D`). -/
noncomputable def sink1D : ℝ := -c.tdp / c.aSink1D / c.depth

/-- `cpu.py:160-163` (`q_dot_V_sink_1D_dbc`). -/
noncomputable def sink1Ddbc : ℝ := -c.tdp / c.vol

/-- `cpu.py:166-169` (`q_dot_A_2D`). -/
noncomputable def qA2D : ℝ := -c.tdp / c.aSink

/-- `cpu.py:171` (`q_dot_A_1D`): both entries. -/
noncomputable def qA1D : ℝ := -c.tdp / c.aSink1D

/-- `cpu.py:177-181` (`pde_2D`): the value of the right-hand side at a point. -/
noncomputable def rhs2D (rel : List ℝ) (x y : ℝ) : Except Err ℝ := do
  let s ← c.src2D rel x y
  .ok (s + c.sink2D)

/-- `cpu.py:183-187` (`pde_1D`): the right-hand side. -/
noncomputable def rhs1D (rel : List ℝ) : Except Err PW := do
  let f ← c.src1D rel
  f.addConst c.sink1D

/-- `cpu.py:189-193` (`pde_1D_dbc`): the right-hand side. -/
noncomputable def rhs1Ddbc (rel : List ℝ) : Except Err PW := do
  let f ← c.src1D rel
  f.addConst c.sink1Ddbc

/-- Errors of the piecewise functions, as raised inside the constructors of the solutions. -/
def liftPW {α : Type} : Except Err α → Except Pde.Err α
  | .ok a => .ok a
  | .error .valueError => .error .valueError
  | .error .indexError => .error .indexError
  | .error .typeError => .error .typeError

/-- `cpu.py:205-212` (`_solution_1D`). -/
noncomputable def solution1D (rel : List ℝ) : Except Pde.Err PW := do
  let rhs ← liftPW (c.rhs1D rel)
  Pde.mkIvpPiecewise (.scalars 0 c.width) (some rhs) [60, -c.qA1D / c.kappa] c.kappa

/-- `cpu.py:231-238` (`_solution_1D_dbc`), with the right-hand side of `pde_1D`. -/
noncomputable def solution1Ddbc (rel : List ℝ) : Except Pde.Err PW := do
  let rhs ← liftPW (c.rhs1D rel)
  Pde.mkIvpPiecewise (.scalars 0 c.width) (some rhs) [60, 0] c.kappa

/-- `cpu.py:214-229` (`bvp_1D`): the boundary parts with the factors of `u'` in the operators `-κ D_d` and the values. -/
noncomputable def flux1D : List (Dom × ℝ × ℝ) :=
  [((Dom.interval 0 c.width).boundary.getD 0 (.point0 0), -c.kappa * 1, c.qA1D),
    ((Dom.interval 0 c.width).boundary.getD 1 (.point0 0), -c.kappa * -1, c.qA1D)]

/-- `experiments/0001_cpu_stationary_2d.ipynb`, cells 25-28: the boundary part, the direction of the derivative and the
value of the flux of the four boundary observations (north, east, south, west). -/
noncomputable def flux2D : List (Dom × (ℝ × ℝ) × ℝ) :=
  [(c.domain2D.boundary.getD 3 (.point0 0), (0, -1), c.qA2D), (c.domain2D.boundary.getD 1 (.point0 0), (-1, 0), c.qA2D),
    (c.domain2D.boundary.getD 2 (.point0 0), (0, 1), c.qA2D), (c.domain2D.boundary.getD 0 (.point0 0), (-1, 0), c.qA2D)]

end Chip
end LinPDE.Cpu
