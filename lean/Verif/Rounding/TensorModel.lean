import Verif.Rounding.SolveModel
import Verif.Tensor.Loops
import Verif.GP.JetTensor

/-!
# Model of transformed tensor products in floating point

`covfuncs/linfuncops/diffops/_tensor_product.py` with every operation rounded: the loops of `_compute_res`, tensor products of Matérn kernels and
the kernels of sums of differential operators (the heat operator).
-/

namespace LinPDE.Rounding
open LinPDE.Coeff (MI Row)
open LinPDE.Tensor (TPLL Fac keyAt pairs termVal)
open LinPDE.Matern (Par)

/-- `diffops/_tensor_product.py:82-121` (`_evaluate`, `_compute_res`) on floats; `v g i` is the computed value of the factor `g` at the `i`-th
coordinates. The coefficients are multiplied first, then the product of the factors, then the result is added. -/
noncomputable def evaluateFl (F : Fmt) (K : TPLL) (v : Fac → ℕ → ℝ) : Except Tensor.Err ℝ :=
  K.computeRes (fun g i => .ok (v g i)) (fun a b => F.rd (a * b)) (fun c w res => F.rd (res + F.rd (F.rd c * w))) 0

/-- One term, from computed values of the factors by dimension and orders. -/
noncomputable def termFl (F : Fmt) (d : ℕ) (V : ℕ → ℕ × ℕ → ℝ) (p : (MI × ℝ) × (MI × ℝ)) : ℝ :=
  F.rd (F.rd (p.1.2 * p.2.2) * termVal (fun a b => F.rd (a * b)) V d p)

/-- `:95-114`: the loop over all pairs of terms. -/
noncomputable def rowsFl (F : Fmt) (d : ℕ) (V : ℕ → ℕ × ℕ → ℝ) (r0 r1 : Row) : ℝ :=
  (pairs r0 r1).foldl (fun res p => F.rd (res + termFl F d V p)) 0

/-- `:44-67`: a Matérn factor, differentiated in both arguments, at a pair of numbers; `s` is the stored scale factor. -/
noncomputable def facFl (F : Fmt) (T : ℕ → Tree (Fin 1)) (s : ℝ) (m : Par 1) (x y : ℝ) (key : ℕ × ℕ) : ℝ :=
  match mkPair m (.pd key.1) (.pd key.2) with
  | .ok k => mkFl F T (fun _ => s) k (fun _ => x) fun _ => y
  | .error _ => 0

variable {d : ℕ}

/-- The computed value of the kernel of two operators on a tensor product of Matérn kernels with `p i` derivatives. -/
noncomputable def tensorFl (F : Fmt) (T : ℕ → Tree (Fin 1)) (s : Fin d → ℝ) (p : Fin d → ℕ) (ρ : Fin d → ℝ) (r0 : Row) (x : Fin d → ℝ) (r1 : Row)
    (y : Fin d → ℝ) : ℝ :=
  rowsFl F d (fun i key => if h : i < d then facFl F T (s ⟨i, h⟩) ⟨p ⟨i, h⟩, fun _ => ρ ⟨i, h⟩⟩ (x ⟨i, h⟩) (y ⟨i, h⟩) key else 0) r0 r1

/-- The summands of `L1(k, argnum=1)`. A single operator gives a transformed tensor product. The results of the summands of a sum of operators
(`linfuncops/_arithmetic.py:98-102`) are added, and sums of covariance functions are expanded into their summands `L0_coeff * L1_coeff * TensorProduct(…)`
(`_jax.py:81-86`, `_tensor_product.py:69`), to which the next operator is applied one by one (`covfuncs/linfuncops/_registry.py:12-33`). -/
noncomputable def blocks : List Row → List (Option ℝ × Row)
  | [r] => [(none, r)]
  | l => l.flatten.map fun b => (some b.2, [(b.1, 1)])

/-- The computed value for one operator and one summand. Products with one and sums with zero count as operations. -/
noncomputable def blockFl (F : Fmt) (T : ℕ → Tree (Fin 1)) (s : Fin d → ℝ) (p : Fin d → ℕ) (ρ : Fin d → ℝ) (r0 : Row) (x : Fin d → ℝ)
    (b : Option ℝ × Row) (y : Fin d → ℝ) : ℝ :=
  match b.1 with
  | none => tensorFl F T s p ρ r0 x b.2 y
  | some c => F.rd (F.rd (1 * c) * tensorFl F T s p ρ r0 x b.2 y)

/-- A sum of operators applied to both arguments: the sum over all operators and all summands, in the order `tr`. -/
noncomputable def opsFl (F : Fmt) (T : ℕ → Tree (Fin 1)) (s : Fin d → ℝ) (p : Fin d → ℕ) (ρ : Fin d → ℝ) (tr : ∀ n m, Option (Tree (Fin n × Fin m)))
    (l0 : List Row) (x : Fin d → ℝ) (l1 : List Row) (y : Fin d → ℝ) : ℝ :=
  sumFl F (fun q => blockFl F T s p ρ (l0.get q.1) x ((blocks l1).get q.2) y) (tr l0.length (blocks l1).length)

/-- The coefficient table of the identity (`PartialDerivative` of order zero, `_registry.py:31-51`). -/
noncomputable def idRow (d : ℕ) : Row := [(⟨[d], List.replicate d 0⟩, 1)]

/-- Sums of operators whose terms do not exceed the smoothness `p` and differentiate at most twice in one coordinate. -/
def TOp (p : Fin d → ℕ) : Type :=
  {l : List Row // l ≠ [] ∧ ∀ r ∈ l, r ≠ [] ∧ GP.RowIn (GP.box fun j => (p j : ℕ∞)) r ∧ GP.Second r}

/-- The computed covariances of sums of operators at points. A measurement carries its position in the history; factorisations read the lower triangle only
(`linops/_block.py:207, 233-250`, `cholesky(True)`), so the later measurement is the first argument. -/
noncomputable def tensorKer (F : Fmt) (T : ℕ → Tree (Fin 1)) (s : Fin d → ℝ) (p : Fin d → ℕ) (ρ : Fin d → ℝ) (tr : ∀ n m, Option (Tree (Fin n × Fin m)))
    (pm : ℕ × TOp p × (Fin d → ℝ) → ℝ) (mf : (Fin d → ℝ) → ℝ) : FlKer (Fin d → ℝ) (ℕ × TOp p × (Fin d → ℝ)) where
  g a b := if b.1 ≤ a.1 then opsFl F T s p ρ tr a.2.1.1 a.2.2 b.2.1.1 b.2.2 else opsFl F T s p ρ tr b.2.1.1 b.2.2 a.2.1.1 a.2.2
  k x a := opsFl F T s p ρ tr [idRow d] x a.2.1.1 a.2.2
  p := pm
  m := mf

end LinPDE.Rounding
