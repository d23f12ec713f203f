import Mathlib.LinearAlgebra.Matrix.PosDef
import Mathlib.LinearAlgebra.Matrix.SchurComplement
import Mathlib.Data.Real.Basic
import Mathlib.Algebra.Order.Star.Real
import Mathlib.Tactic.NoncommRing
import Mathlib.Tactic.Linarith

/-!
# Model of `randvars/_normal.py` (conditioning a Normal random variable)

`chol` is the dense Cholesky factorisation behind probnum's `cov_cholesky`.
-/

namespace LinPDE.Normal
open Matrix

/-- Exceptions. -/
inductive Err
  | typeError
deriving DecidableEq, Repr

/-- A Gaussian random vector. -/
structure Gauss (n : ℕ) where
  mean : Fin n → ℝ
  cov : Matrix (Fin n) (Fin n) ℝ

/-- External Cholesky factorisation. -/
abbrev Chol := ∀ {m : ℕ}, Matrix (Fin m) (Fin m) ℝ → Matrix (Fin m) (Fin m) ℝ

/-- Contract: a factor of every positive definite matrix. -/
def CholOK (chol : Chol) : Prop := ∀ {m : ℕ} (M : Matrix (Fin m) (Fin m) ℝ), M.PosDef → chol M * (chol M)ᵀ = M

/-- `scipy.linalg.cho_solve((L, True), B)`: forward and backward substitution. -/
noncomputable def choSolve {m k : ℕ} (L : Matrix (Fin m) (Fin m) ℝ) (B : Matrix (Fin m) (Fin k) ℝ) :
    Matrix (Fin m) (Fin k) ℝ := Lᵀ⁻¹ * (L⁻¹ * B)

/-- `_normal.py:37-40`: `pred + noise`. -/
def addNoise {m : ℕ} (pred : Gauss m) : Option (Gauss m) → Gauss m
  | none => pred
  | some ε => { mean := pred.mean + ε.mean, cov := pred.cov + ε.cov }

/-- `_normal.py:43-66`: gain and posterior from the predictive and the cross-covariance. -/
noncomputable def update (chol : Chol) {n m : ℕ} (prior : Gauss n) (pred : Gauss m)
    (crosscov : Matrix (Fin m) (Fin n) ℝ) (y : Fin m → ℝ) : Gauss n :=
  let gain := (choSolve (chol pred.cov) crosscov)ᵀ
  { mean := prior.mean + gain *ᵥ (y - pred.mean), cov := prior.cov - crosscovᵀ * gainᵀ }

/-- The (well-typed) ways to call `condition_on_observations`: no transform, a transform vector with
a scalar observation, a transform matrix. -/
inductive Call (n : ℕ)
  | noTransform (y : Fin n → ℝ) (noise : Option (Gauss n))
  | vector (a : Fin n → ℝ) (y : ℝ) (noise : Option (ℝ × ℝ))
  | matrix (m : ℕ) (A : Matrix (Fin m) (Fin n) ℝ) (y : Fin m → ℝ) (noise : Option (Gauss m))

/-- `_normal.py:30-66` with a matrix transform. -/
noncomputable def conditionMatrix (chol : Chol) {n m : ℕ} (prior : Gauss n) (A : Matrix (Fin m) (Fin n) ℝ)
    (y : Fin m → ℝ) (noise : Option (Gauss m)) : Gauss n :=
  let pred : Gauss m := { mean := A *ᵥ prior.mean, cov := (A * prior.cov) * Aᵀ }
  update chol prior (addNoise pred noise) (A * prior.cov) y

/-- `_normal.py:8-66` (`condition_normal_on_observations`).  For a transform vector the code indexes
`noise[None]`, which fails if there is no noise. -/
noncomputable def condition (chol : Chol) {n : ℕ} (prior : Gauss n) : Call n → Except Err (Gauss n)
  | .noTransform y noise => .ok (update chol prior (addNoise prior noise) prior.cov y)
  | .vector a y noise => match noise with
    | none => .error .typeError
    | some (b, v) => .ok (conditionMatrix chol prior (Matrix.of fun (_ : Fin 1) j => a j) (fun _ => y)
        (some { mean := fun _ => b, cov := Matrix.of fun _ _ => v }))
  | .matrix _ A y noise => .ok (conditionMatrix chol prior A y noise)

/-! ## Specification -/

/-- Linear observations `y = A x + ε`, `ε ~ N(b, Λ)`. -/
structure Obs (n : ℕ) where
  m : ℕ
  A : Matrix (Fin m) (Fin n) ℝ
  b : Fin m → ℝ
  Λ : Matrix (Fin m) (Fin m) ℝ
  y : Fin m → ℝ

/-- The observation a call describes (no noise: `b = 0`, `Λ = 0`). -/
def Call.obs {n : ℕ} : Call n → Obs n
  | .noTransform y noise => ⟨n, 1, (noise.elim 0 Gauss.mean), noise.elim 0 Gauss.cov, y⟩
  | .vector a y noise => ⟨1, Matrix.of fun _ j => a j, fun _ => noise.elim 0 Prod.fst,
      Matrix.of fun _ _ => noise.elim 0 Prod.snd, fun _ => y⟩
  | .matrix m A y noise => ⟨m, A, noise.elim 0 Gauss.mean, noise.elim 0 Gauss.cov, y⟩

/-- Predictive covariance of the observation. -/
def Obs.G {n : ℕ} (o : Obs n) (p : Gauss n) : Matrix (Fin o.m) (Fin o.m) ℝ := o.A * p.cov * o.Aᵀ + o.Λ

/-- The call is one of those the code supports. -/
def Call.Supported {n : ℕ} : Call n → Prop
  | .vector _ _ none => False
  | _ => True

end LinPDE.Normal
