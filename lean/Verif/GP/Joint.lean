import Verif.GP.Recentre

/-!
# Several independent processes as one

A process with several independent outputs (`covfuncs/_independent_multi_output.py`, mean `functions/_stack.py`), as in
`experiments/0000_cpu_stationary_1d.ipynb` (cells 55-86): the input set contains the output index.
-/

namespace LinPDE.GP
open Matrix LinPDE.Block

variable {X ι : Type} [DecidableEq ι]

/-- Functions whose components are admissible. -/
def jointF (P : ι → Prior X) : Submodule ℝ (ι × X → ℝ) where
  carrier := {f | ∀ i, (fun x => f (i, x)) ∈ (P i).F}
  add_mem' h h' i := (P i).F.add_mem (h i) (h' i)
  zero_mem' i := (P i).F.zero_mem
  smul_mem' c _ h i := (P i).F.smul_mem c (h i)

/-- `linfuncops/_select_output.py` on functions. -/
def sel (P : ι → Prior X) (i : ι) : jointF P →ₗ[ℝ] (P i).F where
  toFun f := ⟨fun x => f.1 (i, x), f.2 i⟩
  map_add' _ _ := rfl
  map_smul' _ _ := rfl

/-- A function in one component, zero in the others. -/
def emb (P : ι → Prior X) (i : ι) : (P i).F →ₗ[ℝ] jointF P where
  toFun g := ⟨fun p => if p.1 = i then g.1 p.2 else 0, fun j => by
    by_cases h : j = i
    · subst h
      simpa using g.2
    · simp only [h, if_false]
      exact (P j).F.zero_mem⟩
  map_add' g g' := by
    apply Subtype.ext
    funext p
    show (if p.1 = i then (g + g').1 p.2 else 0) = (if p.1 = i then g.1 p.2 else 0) + (if p.1 = i then g'.1 p.2 else 0)
    split_ifs <;> simp
  map_smul' c g := by
    apply Subtype.ext
    funext p
    show (if p.1 = i then (c • g).1 p.2 else 0) = c • (if p.1 = i then g.1 p.2 else 0)
    split_ifs <;> simp

/-- Functionals that can be applied in every component. -/
def jointΛ (P : ι → Prior X) : Submodule ℝ (jointF P →ₗ[ℝ] ℝ) where
  carrier := {L | ∀ i, L ∘ₗ emb P i ∈ (P i).Λ}
  add_mem' h h' i := by
    rw [LinearMap.add_comp]
    exact (P i).Λ.add_mem (h i) (h' i)
  zero_mem' i := by
    rw [LinearMap.zero_comp]
    exact (P i).Λ.zero_mem
  smul_mem' c _ h i := by
    rw [LinearMap.smul_comp]
    exact (P i).Λ.smul_mem c (h i)

/-- `GaussianProcess(StackedFunction(m_1, …), IndependentMultiOutputCovarianceFunction(k_1, …))`
(`_independent_multi_output.py:32-46`: a diagonal matrix of covariances at each pair of points). -/
@[reducible] def indep (P : ι → Prior X) : Prior (ι × X) where
  F := jointF P
  m := ⟨fun p => (P p.1).m.1 p.2, fun i => (P i).m.2⟩
  k p q := if q.1 = p.1 then (P p.1).k p.2 q.2 else 0
  sec_mem p := (emb P p.1 ⟨_, (P p.1).sec_mem p.2⟩).2
  Λ := jointΛ P
  cross_mem L hL i := ((P i).cross ⟨L ∘ₗ emb P i, hL i⟩).2

/-- A functional of one component (`L @ SelectOutput(i)`). -/
def onComp (P : ι → Prior X) (i : ι) (L : (P i).Λ) : (indep P).Λ :=
  ⟨L.1 ∘ₗ sel P i, fun j => by
    by_cases h : j = i
    · subst h
      convert L.2 using 1
      ext g
      show L.1 (sel P j (emb P j g)) = L.1 g
      congr 1
      apply Subtype.ext
      funext x
      simp [sel, emb]
    · convert (P j).Λ.zero_mem using 1
      ext g
      show L.1 (sel P i (emb P j g)) = 0
      rw [← map_zero L.1]
      congr 1
      apply Subtype.ext
      funext x
      simp [sel, emb, Ne.symm h]⟩

/-- The part of a functional acting on one component. -/
def partOf {P : ι → Prior X} (i : ι) (L : (indep P).Λ) : (P i).Λ := ⟨L.1 ∘ₗ emb P i, L.2 i⟩

/-- Measurements of one component as measurements of the joint process. -/
def Batch.onComp {P : ι → Prior X} (i : ι) (b : Batch (P i)) : Batch (indep P) :=
  ⟨b.n, fun a => GP.onComp P i (b.L a), b.noise, b.Y⟩

/-- The equation `L f_i - M f_j = Y` between two components (cells 72 and 77: `diffop @ select_u - select_q_dot_V`). -/
def equationBatch (P : ι → Prior X) (i j : ι) {n : ℕ} (L : Fin n → (P i).Λ) (M : Fin n → (P j).Λ) (Y : Fin n → ℝ) :
    Batch (indep P) :=
  ⟨n, fun a => GP.onComp P i (L a) - GP.onComp P j (M a), none, Y⟩

/-- The same equation seen from the component `i` alone: `-(M f_j)` is a random variable added to the measurement
(`b=-f_prior(X)`, `0003_poisson_1d_inverse_rhs.ipynb`, cell 19; `b=-q_dot_V(X_pde)`, `0001_cpu_stationary_2d.ipynb`, cell 18). -/
def noiseBatch {Q R : Prior X} {n : ℕ} (L : Fin n → Q.Λ) (M : Fin n → R.Λ) (Y : Fin n → ℝ) : Batch Q :=
  ⟨n, L, some (fun a => -(M a).1 R.m, Matrix.of fun a b => R.cov (M a) (M b)), Y⟩

/-- The component of a conditional process (`SelectOutput(i)(conditional)`). -/
def Core.comp {P : ι → Prior X} (c : Core (indep P)) (i : ι) : Core (P i) := ⟨c.s, fun a => sel P i (c.kLas a), c.gram, c.w⟩

end LinPDE.GP
