import Mathlib.Analysis.Calculus.ContDiff.Operations
import Mathlib.Analysis.Calculus.FDeriv.Symmetric
import Mathlib.Analysis.Calculus.ContDiff.CPolynomial
import Mathlib.Tactic.Linarith

/-!
# Partial derivatives of smooth functions on `ℝ^d`
-/

namespace LinPDE.Calc
open scoped ContDiff

/-- Smooth functions `ℝ^d → ℝ`. -/
def Smooth (d : ℕ) : Submodule ℝ ((Fin d → ℝ) → ℝ) where
  carrier := {f | ContDiff ℝ ∞ f}
  add_mem' := fun {f g} hf hg => by
    have hf : ContDiff ℝ ∞ f := hf
    have hg : ContDiff ℝ ∞ g := hg
    exact hf.add hg
  zero_mem' := by
    show ContDiff ℝ ∞ fun _ => (0 : ℝ)
    exact contDiff_const
  smul_mem' c f hf := by
    show ContDiff ℝ ∞ fun x => c * f x
    exact contDiff_const.mul hf

variable {d : ℕ}

/-- Unit vector. -/
def e (i : Fin d) : Fin d → ℝ := Pi.single i 1

/-- Partial derivative `∂_i f (x) = f'(x) e_i`. -/
noncomputable def pd (i : Fin d) : Smooth d →ₗ[ℝ] Smooth d where
  toFun f := ⟨fun x => fderiv ℝ f.1 x (e i), by
    have h : ContDiff ℝ ∞ f.1 := f.2
    exact (h.fderiv_right (m := ∞) (by norm_cast)).clm_apply contDiff_const⟩
  map_add' f g := by
    apply Subtype.ext
    funext x
    have hf : ContDiff ℝ ∞ f.1 := f.2
    have hg : ContDiff ℝ ∞ g.1 := g.2
    show fderiv ℝ (f.1 + g.1) x (e i) = _
    rw [fderiv_add (hf.differentiable (by simp) x) (hg.differentiable (by simp) x)]
    rfl
  map_smul' c f := by
    apply Subtype.ext
    funext x
    have hf : ContDiff ℝ ∞ f.1 := f.2
    show fderiv ℝ (c • f.1) x (e i) = _
    rw [fderiv_const_smul (hf.differentiable (by simp) x)]
    rfl

lemma pd_apply (i : Fin d) (f : Smooth d) (x : Fin d → ℝ) : (pd i f).1 x = fderiv ℝ f.1 x (e i) := rfl

/-- Partial derivatives commute. -/
lemma pd_comm (i j : Fin d) (f : Smooth d) : pd i (pd j f) = pd j (pd i f) := by
  apply Subtype.ext
  funext x
  have hf : ContDiff ℝ ∞ f.1 := f.2
  have hd : DifferentiableAt ℝ (fderiv ℝ f.1) x :=
    ((hf.fderiv_right (m := ∞) (by norm_cast)).differentiable (by simp)) x
  have key : ∀ a b : Fin d, (pd a (pd b f)).1 x = fderiv ℝ (fderiv ℝ f.1) x (e a) (e b) := by
    intro a b
    show fderiv ℝ (fun y => fderiv ℝ f.1 y (e b)) x (e a) = _
    have := fderiv_clm_apply (𝕜 := ℝ) hd (differentiableAt_const (c := e b) (x := x))
    rw [this]
    simp
  rw [key, key]
  have hs : IsSymmSndFDerivAt ℝ f.1 x := (hf.contDiffAt).isSymmSndFDerivAt (by
    simp only [minSmoothness_of_isRCLikeNormedField]
    exact WithTop.coe_le_coe.mpr (le_top (a := (2 : ℕ∞))))
  exact hs (e i) (e j)

end LinPDE.Calc
