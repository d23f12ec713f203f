import Verif.CovAlg.Classes

/-!
# Differential operators and operator expressions: meaning, typing
-/

namespace LinPDE.CovAlg
open LinPDE.Nd LinPDE.Ops
variable {X : Type}

/-! ## Locality -/

lemma loc_zero (s o : Shp) : Loc s o (0 : Val X →ₗ[ℝ] Val X) := fun _ _ _ _ _ _ => rfl
lemma loc_id (s : Shp) : Loc s s (LinearMap.id : Val X →ₗ[ℝ] Val X) := fun _ _ h x p hp => h x p hp
lemma loc_add {s o : Shp} {S T : Val X →ₗ[ℝ] Val X} (hS : Loc s o S) (hT : Loc s o T) : Loc s o (S + T) :=
  fun f g h x p hp => by simp [hS f g h x p hp, hT f g h x p hp]
lemma loc_smul {s o : Shp} {T : Val X →ₗ[ℝ] Val X} (c : ℝ) (hT : Loc s o T) : Loc s o (c • T) :=
  fun f g h x p hp => by simp [hT f g h x p hp]
lemma loc_comp {s m o : Shp} {S T : Val X →ₗ[ℝ] Val X} (hS : Loc s m S) (hT : Loc m o T) : Loc s o (T ∘ₗ S) :=
  fun f g h x p hp => hT _ _ (fun y r hr => hS f g h y r hr) x p hp
lemma loc_listsum {s o : Shp} : ∀ (Ts : List (Val X →ₗ[ℝ] Val X)), (∀ T ∈ Ts, Loc s o T) → Loc s o Ts.sum
  | [], _ => loc_zero s o
  | T :: Ts, h => by
    rw [List.sum_cons]
    exact loc_add (h T List.mem_cons_self) (loc_listsum Ts fun S hS => h S (List.mem_cons_of_mem _ hS))

/-! ## Differential operators -/

/-- Requirements on a differential operator: the entries of the coefficient table fit the codomain
(`_coefficients.py:99-118`), the partial derivatives have its domain, and the classes with their own JAX fallback are the
scalar ones (`_laplacian.py:41-43`, `_directional_derivative.py:25-32`). -/
structure Diff.OK (D : Diff X) : Prop where
  fits : ∀ t ∈ D.terms, Fits D.i.2 t.1
  pds : ∀ t ∈ D.terms, ∀ u ∈ t.2, u.1.OK ∧ u.1.dom = D.i.1
  custom : D.custom = true → D.i.2 = []

lemma normAll_fits : ∀ (s : Shp) (l : List ℕ), Fits s l → normAll s (l.map Int.ofNat) = .ok l
  | [], [], _ => rfl
  | m :: s, n :: l, h => by
    have h1 : normIdx m (Int.ofNat n) = .ok n := by
      unfold normIdx
      rw [if_pos ⟨by simp, by have := h.1; simp; omega⟩]
      rfl
    simp only [List.map_cons, normAll, h1, normAll_fits s l h.2, bind, Except.bind]
  | [], _ :: _, h => h.elim
  | _ :: _, [], h => h.elim

lemma summand_good (D : Diff X) (hD : D.OK) (arg : Bool) (k n : K X) (hw : k.WF) (hf : Fit D.i arg k)
    (t : List ℕ × List (PD X × ℝ)) (ht : t ∈ D.terms) (u : PD X × ℝ) (hu : u ∈ t.2)
    (h : D.summand arg k t.1 u = .ok n) :
    Good (u.2 • u.1.T ∘ₗ selLin X (ravel D.i.2 t.1)) (D.i.1, []) arg k n := by
  obtain ⟨hpd, hdom⟩ := hD.pds t ht u hu
  have hfit := hD.fits t ht
  unfold Diff.summand at h
  obtain ⟨m, h1, h2⟩ := bind_ok h
  obtain ⟨m', h3, h4⟩ := bind_ok h2
  cases h4
  have hnone : ∀ k : K X, Side none arg k := fun k d hd => by cases hd
  have hsound := pdNoJax_sound u.1 hpd arg none
  have hu0 : (u.1.hNoJax arg).o = (D.i.1, []) := by simp [PD.hNoJax, hdom]
  unfold Diff.entry at h1
  split_ifs at h1 with ht0
  · cases h1
    have hi : D.i.2 = [] := by
      rw [ht0] at hfit
      cases hi : D.i.2 with
      | nil => rfl
      | cons a b => rw [hi] at hfit; exact hfit.elim
    have hg := call_good _ _ _ arg hsound k m' h3 hw (by
      refine ⟨?_, ?_⟩
      · rw [hf.1]; simp [PD.hNoJax, hdom]
      · rw [hf.2, hi]; rfl) (hnone k)
    rw [hu0] at hg
    refine good_smulT u.2 (good_congrT (fun f x p hp => ?_) hg)
    refine hpd.loc _ _ (fun y r hr => ?_) x p hp
    have hr0 : r = 0 := by simpa using hr
    subst hr0
    rw [ht0, hi]; rfl
  · have hs := call_good _ _ _ arg (select_sound D.i (.tup (t.1.map Int.ofNat)) t.1 (normAll_fits _ _ hfit)
      (fun n hn => by cases hn) arg none) k m h1 hw hf (hnone k)
    have hg := call_good _ _ _ arg hsound m m' h3 hs.wf (by
      unfold Fit
      rw [hs.sh, set_inA, set_outA]
      exact ⟨by simp [PD.hNoJax, selectH, hdom], rfl⟩) (hnone m)
    rw [hu0] at hg
    have := good_comp (T := u.1.T) (m := (D.i.1, [])) (o := (D.i.1, [])) hs hpd.loc hg
    exact good_smulT u.2 this

lemma toSum_good (D : Diff X) (hD : D.OK) (arg : Bool) (k n : K X) (hw : k.WF) (hf : Fit D.i arg k)
    (h : D.toSumNoJax arg k = .ok n) : Good D.T (D.i.1, []) arg k n := by
  unfold Diff.toSumNoJax at h
  split_ifs at h
  refine good_reduce (T := fun t : List ℕ × List (PD X × ℝ) =>
    (t.2.map fun u => u.2 • u.1.T ∘ₗ selLin X (ravel D.i.2 t.1)).sum) D.terms (fun t ht m hm => ?_) h
  exact good_reduce (T := fun u : PD X × ℝ => u.2 • u.1.T ∘ₗ selLin X (ravel D.i.2 t.1)) t.2
    (fun u hu m hm => summand_good D hD arg k m hw hf t ht u hu hm) hm

lemma fits_lt : ∀ (s : Shp) (l : List ℕ), Fits s l → ravel s l < s.prod := fun s l h =>
  normAll_lt s _ l (normAll_fits s l h)

lemma diff_loc (D : Diff X) (hD : D.OK) : Loc D.i.2 [] D.T := by
  refine loc_listsum _ fun T hT => ?_
  obtain ⟨t, ht, rfl⟩ := List.mem_map.mp hT
  refine loc_listsum _ fun S hS => ?_
  obtain ⟨u, hu, rfl⟩ := List.mem_map.mp hS
  exact loc_smul _ (loc_comp (selLin_loc _ [] _ (fits_lt _ _ (hD.fits t ht))) (hD.pds t ht u hu).1.loc)

lemma diff_sound (D : Diff X) (hD : D.OK) (arg : Bool) : (D.h arg).Sound D.T (some D.i.1) arg where
  loc := diff_loc D hD
  own _ _ hk _ _ _ := ownClosed_good hk
  ni := by
    have hcases : ∀ k : K X, D.toSumNoJax arg k = .error .notImplemented ∨
        (D.toSumNoJax arg k ≠ .error .notImplemented ∧ (D.h arg).rescue k = D.toSumNoJax arg k) := by
      intro k
      rcases hr : D.toSumNoJax arg k with e | a
      · by_cases he : e = .notImplemented
        · exact .inl (by rw [he])
        · refine .inr ⟨by simpa using he, ?_⟩
          simp only [Diff.h, hr]
          cases e <;> simp_all
      · exact .inr ⟨by simp, by simp [Diff.h, hr]⟩
    refine .inr ⟨⟨fun k => ownClosed_ne_ni, fun k => ?_⟩, fun k k' hl hr hw hf hp => ?_⟩
    · rcases hcases k with h | ⟨h1, h2⟩
      · simp only [Diff.h, h]; split_ifs <;> simp
      · rw [h2]; exact h1
    · rcases hcases k with h | ⟨h1, h2⟩
      · simp only [Diff.h, h] at hr
        split_ifs at hr with hj hcu
        cases hr
        have hi := hD.custom hcu
        have hf' : Fit (D.i.1, []) arg k := ⟨hf.1, by rw [hf.2, ← hi]; rfl⟩
        exact jaxFallback_good hl hj hf' hp
      · rw [h2] at hr
        exact toSum_good D hD arg k k' hw hf hr

/-! ## Operator expressions -/

mutual
/-- `L` maps functions of the shapes `i` to functions of the shapes `o`. -/
def LOp.Typed : LOp X → Shapes → Shapes → Prop
  | .ident s, i, o => s = i ∧ s = o
  | .select j idx, i, o => j = i ∧ o = (j.1, []) ∧ (∃ a, idx.resolve j.2 = .ok a) ∧ ∀ n, idx = .int n → 0 ≤ n
  | .gen g, i, o => g.i = i ∧ g.o = o ∧ Loc g.i.2 g.o.2 g.T
  | .pd D, i, o => i = (D.dom, []) ∧ o = (D.dom, []) ∧ D.OK
  | .diff D, i, o => D.i = i ∧ o = (D.i.1, []) ∧ D.OK
  | .scaled L _, i, o => LOp.Typed L i o
  | .sum Ls, i, o => Ls ≠ [] ∧ typedAll Ls i o
  | .comp Ls, i, o => typedSeq Ls i o
/-- Every summand. -/
def typedAll : List (LOp X) → Shapes → Shapes → Prop
  | [], _, _ => True
  | L :: Ls, i, o => LOp.Typed L i o ∧ typedAll Ls i o
/-- Neighbouring factors fit. -/
def typedSeq : List (LOp X) → Shapes → Shapes → Prop
  | [], i, o => i = o
  | L :: Ls, i, o => ∃ m, typedSeq Ls i m ∧ LOp.Typed L m o
end

mutual
/-- The linear map an operator stands for. -/
noncomputable def LOp.T : LOp X → Val X →ₗ[ℝ] Val X
  | .ident _ => LinearMap.id
  | .select i idx => match idx.resolve i.2 with
    | .ok a => selLin X (ravel i.2 a)
    | .error _ => 0
  | .gen g => g.T
  | .pd D => D.T
  | .diff D => D.T
  | .scaled L c => c • LOp.T L
  | .sum Ls => sumT Ls
  | .comp Ls => compT Ls
/-- Sum of the summands. -/
noncomputable def sumT : List (LOp X) → Val X →ₗ[ℝ] Val X
  | [] => 0
  | L :: Ls => LOp.T L + sumT Ls
/-- Composition of the factors. -/
noncomputable def compT : List (LOp X) → Val X →ₗ[ℝ] Val X
  | [] => LinearMap.id
  | L :: Ls => LOp.T L ∘ₗ compT Ls
end

mutual
/-- All differential operators in the expression have the domain `s` (`none`: there are none). -/
def LOp.Doms (s : Option Shp) : LOp X → Prop
  | .ident _ => True
  | .select .. => True
  | .gen _ => True
  | .pd D => s = some D.dom
  | .diff D => s = some D.i.1
  | .scaled L _ => LOp.Doms s L
  | .sum Ls => domsAll s Ls
  | .comp Ls => domsAll s Ls
/-- Every operator of a list. -/
def domsAll (s : Option Shp) : List (LOp X) → Prop
  | [] => True
  | L :: Ls => LOp.Doms s L ∧ domsAll s Ls
end

lemma select_T (i : Shapes) (idx : SIdx) (a : List ℕ) (h : idx.resolve i.2 = .ok a) :
    (LOp.select i idx : LOp X).T = selLin X (ravel i.2 a) := by simp [LOp.T, h]

mutual
lemma typed_loc : ∀ (L : LOp X) (i o : Shapes), L.Typed i o → Loc i.2 o.2 L.T
  | .ident s, i, o, h => by
    obtain ⟨rfl, rfl⟩ := h; exact loc_id _
  | .select j idx, i, o, h => by
    obtain ⟨rfl, rfl, ⟨a, ha⟩, _⟩ := h
    rw [select_T _ _ _ ha]
    exact selLin_loc _ _ _ (resolve_lt _ _ _ ha)
  | .gen g, i, o, h => by
    obtain ⟨rfl, rfl, h⟩ := h; exact h
  | .pd D, i, o, h => by
    obtain ⟨rfl, rfl, h⟩ := h; exact h.loc
  | .diff D, i, o, h => by
    obtain ⟨rfl, rfl, h⟩ := h; exact diff_loc D h
  | .scaled L c, i, o, h => loc_smul c (typed_loc L i o h)
  | .sum Ls, i, o, h => typedAll_loc Ls i o h.2
  | .comp Ls, i, o, h => typedSeq_loc Ls i o h
lemma typedAll_loc : ∀ (Ls : List (LOp X)) (i o : Shapes), typedAll Ls i o → Loc i.2 o.2 (sumT Ls)
  | [], _, _, _ => loc_zero _ _
  | L :: Ls, i, o, h => loc_add (typed_loc L i o h.1) (typedAll_loc Ls i o h.2)
lemma typedSeq_loc : ∀ (Ls : List (LOp X)) (i o : Shapes), typedSeq Ls i o → Loc i.2 o.2 (compT Ls)
  | [], i, o, h => by cases h; exact loc_id _
  | L :: Ls, i, o, h => by
    obtain ⟨m, h1, h2⟩ := h
    exact loc_comp (typedSeq_loc Ls i m h1) (typed_loc L m o h2)
end

lemma side_good {s : Option Shp} {T : Val X →ₗ[ℝ] Val X} {o : Shapes} {arg : Bool} {k k' : K X} (h : Good T o arg k k')
    (hs : Side s arg k) : Side s arg k' := fun d hd => by
  obtain ⟨h1, h2⟩ := hs d hd
  refine ⟨h.safe h1, ?_⟩
  rw [h.sh, set_inA_other, h2]

lemma fit_good {T : Val X →ₗ[ℝ] Val X} {o : Shapes} {arg : Bool} {k k' : K X} (h : Good T o arg k k') : Fit o arg k' := by
  unfold Fit; rw [h.sh, set_inA, set_outA]; exact ⟨rfl, rfl⟩

end LinPDE.CovAlg
