import Verif.Domain.Model
import Verif.Rounding.Model

/-!
# Model of volumes of domains and integrals of constants in floating point

`volume` of the classes in `domains/` and `linfunctls/_integrals.py:60-62` with every operation rounded; comparisons are exact.
-/

namespace LinPDE.Rounding.VolFl
open LinPDE.Domains

/-- `functools.reduce(operator.mul, vs)` (`_cartesian_product.py:86-88`). -/
def reduceMulFl (F : Fmt) : List ℝ → Except Err ℝ
  | [] => .error .typeError
  | v :: vs => .ok (vs.foldl (fun s v => F.rd (s * v)) v)

/-- Volume of a factor of a box (`_box.py:42-49`): collapsed dimensions are points. -/
noncomputable def leafFl (F : Fmt) (b : ℝ × ℝ) : ℝ := if b.1 ≠ b.2 then F.rd (b.2 - b.1) else 0

mutual
/-- `volume` (`_interval.py:51-53`, `_point.py:22-24`, `_cartesian_product.py:84-88`). -/
noncomputable def volumeFl (F : Fmt) : Dom → Except Err ℝ
  | .interval l u => .ok (F.rd (u - l))
  | .point0 _ => .ok 0
  | .point1 _ => .ok 0
  | .box bs => reduceMulFl F (bs.map (leafFl F))
  | .prod fs => do
    let vs ← volumesFl F fs
    reduceMulFl F vs
/-- Volumes of the factors (`_cartesian_product.py:87`). -/
noncomputable def volumesFl (F : Fmt) : List Dom → Except Err (List ℝ)
  | [] => .ok []
  | f :: fs => do
    let v ← volumeFl F f
    let vs ← volumesFl F fs
    .ok (v :: vs)
end

/-- `linfunctls/_integrals.py:60-62` for an entry `c` of a constant: `f.value * self._domain.volume`. -/
noncomputable def constIntFl (F : Fmt) (D : Dom) (c : ℝ) : Except Err ℝ := do
  let v ← volumeFl F D
  .ok (F.rd (c * v))

end LinPDE.Rounding.VolFl
