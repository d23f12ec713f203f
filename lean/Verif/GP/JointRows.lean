import Verif.GP.JointStrict

/-! # Linear independence of measurements of several outputs -/

namespace LinPDE.GP
open Matrix LinPDE.Block

variable {X ι : Type} [DecidableEq ι] {P : ι → Prior X}

/-- `partOf` as a linear map. -/
def partLin (i : ι) : (indep P).Λ →ₗ[ℝ] (P i).Λ where
  toFun := partOf i
  map_add' _ _ := rfl
  map_smul' _ _ := rfl

lemma partOf_sum {κ : Type} [Fintype κ] (i : ι) (g : κ → ℝ) (L : κ → (indep P).Λ) :
    partOf i (∑ a, g a • L a) = ∑ a, g a • partOf i (L a) :=
  (map_sum (partLin (P := P) i) _ _).trans (Finset.sum_congr rfl fun a _ => map_smul (partLin (P := P) i) _ _)

/-- Functionals whose parts in one output are linearly independent, and one more that does not use this output. -/
lemma joint_li {κ κ' : Type} [Fintype κ] [Fintype κ'] (u : ι) (L : κ → (indep P).Λ) (M : κ' → (P u).Λ)
    (hM : ∀ g : κ' → ℝ, ∑ b, g b • M b = 0 → ∀ b, g b = 0) (ψ : κ' → κ) (hψ : Function.Injective ψ)
    (h1 : ∀ b, partOf u (L (ψ b)) = M b) (a0 : κ) (h2 : ∀ a, a = a0 ∨ a ∈ Set.range ψ) (h3 : partOf u (L a0) = 0) (h4 : L a0 ≠ 0)
    (g : κ → ℝ) (hg : ∑ a, g a • L a = 0) (a : κ) : g a = 0 := by
  have e1 : ∑ b, g (ψ b) • M b = 0 := by
    have e2 := partOf_sum u g L
    rw [hg] at e2
    rw [Fintype.sum_of_injective ψ hψ (fun b => g (ψ b) • M b) (fun a => g a • partOf u (L a)) (fun a ha => ?_) fun b => by rw [h1], ← e2]
    · rfl
    · rcases h2 a with rfl | h
      · rw [h3, smul_zero]
      · exact absurd h ha
  have e3 := hM _ e1
  have e4 : g a0 • L a0 = 0 := by
    refine (Finset.sum_eq_single (f := fun a => g a • L a) a0 (fun a _ ha => ?_) fun h => absurd (Finset.mem_univ _) h).symm.trans hg
    show g a • L a = 0
    rcases h2 a with rfl | ⟨b, rfl⟩
    · exact absurd rfl ha
    · rw [e3, zero_smul]
  rcases h2 a with rfl | ⟨b, rfl⟩
  · exact (smul_eq_zero.mp e4).resolve_right h4
  · exact e3 b

end LinPDE.GP
