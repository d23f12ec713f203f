import Verif.CovAlg.Expr

/-!
# Operators applied to covariance functions
-/

namespace LinPDE.CovAlg
open LinPDE.Nd LinPDE.Ops
variable {X : Type}

mutual
/-- Applying any operator expression to any kernel expression, in either argument: a result has the shapes of the operator
in that argument and the unchanged shapes in the other, and its values are those of the linear map applied to the kernel
in that argument. -/
theorem apply_correct (s : Option Shp) (arg : Bool) : ∀ (L : LOp X) (i o : Shapes) (k k' : K X), L.Typed i o → L.Doms s →
    k.WF → Fit i arg k → Side s arg k → L.call arg k = .ok k' → Good L.T o arg k k'
  | .ident t, i, o, k, k', ht, _, hw, hf, hs, h => by
    obtain ⟨rfl, rfl⟩ := ht
    rw [LOp.call] at h
    exact call_good _ _ _ arg (identH_sound t arg s) k k' h hw hf hs
  | .select j idx, i, o, k, k', ht, _, hw, hf, hs, h => by
    obtain ⟨rfl, rfl, ⟨a, ha⟩, hn⟩ := ht
    rw [LOp.call] at h
    rw [select_T _ _ _ ha]
    exact call_good _ _ _ arg (select_sound j idx a ha hn arg s) k k' h hw hf hs
  | .gen g, i, o, k, k', ht, _, hw, hf, hs, h => by
    obtain ⟨rfl, rfl, hl⟩ := ht
    rw [LOp.call] at h
    exact call_good _ _ _ arg (genH_sound g hl arg s) k k' h hw hf hs
  | .pd D, i, o, k, k', ht, hd, hw, hf, hs, h => by
    obtain ⟨rfl, rfl, hl⟩ := ht
    rw [LOp.call] at h
    rw [LOp.Doms] at hd
    subst hd
    exact call_good _ _ _ arg (pd_sound D hl arg) k k' h hw hf hs
  | .diff D, i, o, k, k', ht, hd, hw, hf, hs, h => by
    obtain ⟨rfl, rfl, hl⟩ := ht
    rw [LOp.call] at h
    rw [LOp.Doms] at hd
    subst hd
    exact call_good _ _ _ arg (diff_sound D hl arg) k k' h hw hf hs
  | .scaled L c, i, o, k, k', ht, hd, hw, hf, hs, h => by
    rw [LOp.call] at h
    obtain ⟨m, h1, h2⟩ := bind_ok h
    cases h2
    rw [LOp.T]
    exact good_smulT c (apply_correct s arg L i o k m ht hd hw hf hs h1)
  | .sum Ls, i, o, k, k', ht, hd, hw, hf, hs, h => by
    rw [LOp.call] at h
    rw [LOp.T]
    exact reduce_correct s arg Ls i o k k' ht.1 ht.2 hd hw hf hs h
  | .comp Ls, i, o, k, k', ht, hd, hw, hf, hs, h => by
    rw [LOp.call] at h
    rw [LOp.T]
    exact seq_correct s arg Ls i o k k' ht hd hw hf hs h
/-- A sum of operators. -/
theorem reduce_correct (s : Option Shp) (arg : Bool) : ∀ (Ls : List (LOp X)) (i o : Shapes) (k k' : K X), Ls ≠ [] →
    typedAll Ls i o → domsAll s Ls → k.WF → Fit i arg k → Side s arg k → reduceOps arg none Ls k = .ok k' →
    Good (sumT Ls) o arg k k'
  | [], _, _, _, _, hne, _, _, _, _, _, _ => absurd rfl hne
  | L :: Ls, i, o, k, k', _, ht, hd, hw, hf, hs, h => by
    rw [reduceOps] at h
    obtain ⟨m, h1, h2⟩ := bind_ok h
    rw [sumT]
    exact acc_correct s arg Ls i o k k' m L.T ht.2 hd.2 hw hf hs
      (apply_correct s arg L i o k m ht.1 hd.1 hw hf hs h1) h2
/-- A sum of operators with the part already added up. -/
theorem acc_correct (s : Option Shp) (arg : Bool) : ∀ (Ls : List (LOp X)) (i o : Shapes) (k k' acc : K X)
    (S : Val X →ₗ[ℝ] Val X), typedAll Ls i o → domsAll s Ls → k.WF → Fit i arg k → Side s arg k → Good S o arg k acc →
    reduceOps arg (some acc) Ls k = .ok k' → Good (S + sumT Ls) o arg k k'
  | [], i, o, k, k', acc, S, _, _, _, _, _, hg, h => by
    rw [reduceOps] at h
    cases h
    simpa [sumT] using hg
  | L :: Ls, i, o, k, k', acc, S, ht, hd, hw, hf, hs, hg, h => by
    rw [reduceOps] at h
    obtain ⟨m, h1, h2⟩ := bind_ok h
    obtain ⟨acc', h3, h4⟩ := bind_ok h2
    rw [sumT, ← add_assoc]
    exact acc_correct s arg Ls i o k k' acc' (S + L.T) ht.2 hd.2 hw hf hs
      (good_addT hg (apply_correct s arg L i o k m ht.1 hd.1 hw hf hs h1) h3) h4
/-- A composition of operators. -/
theorem seq_correct (s : Option Shp) (arg : Bool) : ∀ (Ls : List (LOp X)) (i o : Shapes) (k k' : K X), typedSeq Ls i o →
    domsAll s Ls → k.WF → Fit i arg k → Side s arg k → callSeq arg Ls k = .ok k' → Good (compT Ls) o arg k k'
  | [], i, o, k, k', ht, _, hw, hf, _, h => by
    cases ht
    rw [callSeq] at h
    cases h
    exact good_id hw hf
  | L :: Ls, i, o, k, k', ht, hd, hw, hf, hs, h => by
    obtain ⟨m, h1, h2⟩ := ht
    rw [callSeq] at h
    obtain ⟨k1, h3, h4⟩ := bind_ok h
    have hg := seq_correct s arg Ls i m k k1 h1 hd.2 hw hf hs h3
    rw [compT]
    exact good_comp hg (typed_loc L m o h2)
      (apply_correct s arg L m o k1 k' h2 hd.1 hg.wf (fit_good hg) (side_good hg hs) h4)
end

end LinPDE.CovAlg
