import Verif.Wendland.Model
import Verif.Rounding.Model

/-!
# Model of the Wendland covariance functions in floating point

`randprocs/covfuncs/_wendland.py` with every operation rounded. The coefficients are computed exactly (`fractions.Fraction`) and rounded once; comparison and
`np.where` are exact. Distances as for the other covariance functions: `probnum`'s `_euclidean_distances` performs the operations of
`covfuncs/_jax.py:104-147`.
-/

namespace LinPDE.Rounding
open Wendland
open LinPDE.Polys (Poly)

open Classical in
/-- `_wendland.py:213-216` (`WendlandFunction._evaluate`). -/
noncomputable def wendlandFl (F : Fmt) (p : Poly ℚ) (r : ℝ) : ℝ := if r ≤ 1 then polyFl F (ratFl F p) r else 0

/-- `_wendland.py:68-77` (`_scale_factors`, `_evaluate`), `79-85` (`_evaluate_jax`) at a pair of points, the squares added in the order `t`. -/
noncomputable def wendlandCovFl (F : Fmt) {d : ℕ} (t : Tree (Fin d)) (K : WendlandCov d) (x0 x1 : Fin d → ℝ) : ℝ :=
  wendlandFl F K.poly (dist F t (fun i => F.rd (1 / K.lengthscales i)) x0 x1)

end LinPDE.Rounding
