import Verif.GP.JointStrict

/-! # Priors over equivalent input sets

Outputs of a joint process share their inputs (`GP/Joint.lean`); processes on `ℝ` and on one-dimensional points are the same. -/

namespace LinPDE.GP
open Matrix LinPDE.Block

variable {X Y : Type}

/-- Functions on `Y` as functions on `X`. -/
def reF (P : Prior X) (σ : Y ≃ X) : Submodule ℝ (Y → ℝ) := P.F.comap (LinearMap.funLeft ℝ ℝ σ.symm)

/-- The function on `X` as a function on `Y`. -/
def reUp (P : Prior X) (σ : Y ≃ X) : P.F →ₗ[ℝ] reF P σ where
  toFun f := ⟨fun y => f.1 (σ y), by
    show (fun x => f.1 (σ (σ.symm x))) ∈ P.F
    simp only [Equiv.apply_symm_apply]
    exact f.2⟩
  map_add' _ _ := rfl
  map_smul' _ _ := rfl

/-- The function on `Y` as a function on `X`. -/
def reDown (P : Prior X) (σ : Y ≃ X) : reF P σ →ₗ[ℝ] P.F where
  toFun f := ⟨fun x => f.1 (σ.symm x), f.2⟩
  map_add' _ _ := rfl
  map_smul' _ _ := rfl

lemma reDown_up (P : Prior X) (σ : Y ≃ X) (f : P.F) : reDown P σ (reUp P σ f) = f :=
  Subtype.ext (funext fun x => by simp [reDown, reUp])

lemma reUp_down (P : Prior X) (σ : Y ≃ X) (f : reF P σ) : reUp P σ (reDown P σ f) = f :=
  Subtype.ext (funext fun x => by simp [reDown, reUp])

/-- The process `f ∘ σ`. -/
@[reducible] def Prior.reindex (P : Prior X) (σ : Y ≃ X) : Prior Y where
  F := reF P σ
  m := reUp P σ P.m
  k y y' := P.k (σ y) (σ y')
  sec_mem y := (reUp P σ ⟨_, P.sec_mem (σ y)⟩).2
  Λ := P.Λ.comap (LinearMap.lcomp ℝ ℝ (reUp P σ))
  cross_mem L hL := (reUp P σ (P.cross ⟨L ∘ₗ reUp P σ, hL⟩)).2

/-- Functionals of the process as functionals of the original one. -/
def reΛ {P : Prior X} {σ : Y ≃ X} (L : (P.reindex σ).Λ) : P.Λ := ⟨L.1 ∘ₗ reUp P σ, L.2⟩

/-- Functionals of the original process. -/
def Prior.lift (P : Prior X) (σ : Y ≃ X) (L : P.Λ) : (P.reindex σ).Λ :=
  ⟨L.1 ∘ₗ reDown P σ, by
    show (L.1 ∘ₗ reDown P σ) ∘ₗ reUp P σ ∈ P.Λ
    convert L.2 using 1
    ext f
    exact congrArg L.1 (reDown_up P σ f)⟩

lemma reindex_cov {P : Prior X} {σ : Y ≃ X} (L L' : (P.reindex σ).Λ) : (P.reindex σ).cov L L' = P.cov (reΛ L) (reΛ L') := rfl

lemma reindex_regular {P : Prior X} (σ : Y ≃ X) (h : P.Regular) : (P.reindex σ).Regular where
  ev_mem y := h.ev_mem (σ y)
  symm L L' := h.symm (reΛ L) (reΛ L')
  nonneg L := h.nonneg (reΛ L)

lemma reindex_nondegenerate {P : Prior X} (σ : Y ≃ X) (h : P.Nondegenerate) : (P.reindex σ).Nondegenerate := by
  intro L h0
  have h1 := h (reΛ L) h0
  apply Subtype.ext
  ext f
  have h2 : (reΛ L).1 (reDown P σ f) = 0 := by rw [h1]; rfl
  rw [← reUp_down P σ f]
  exact h2

end LinPDE.GP
