import Verif.Coeff.Model
import Verif.Coeff.Smooth
import Mathlib.Tactic.Abel
import Mathlib.Tactic.Module
import Mathlib.Algebra.BigOperators.Fin
import Mathlib.Algebra.BigOperators.Group.List.Basic

/-! # Coefficient tables: helper lemmas -/

namespace LinPDE.Coeff
open LinPDE.Nd LinPDE.Calc

variable {V : Type*} [AddCommGroup V] [Module ℝ V]

lemma rowApply_cons (D : MI → V) (mc) (r : Row) : rowApply D (mc :: r) = mc.2 • D mc.1 + rowApply D r := by
  simp [rowApply]

lemma rowApply_append (D : MI → V) (r s : Row) : rowApply D (r ++ s) = rowApply D r + rowApply D s := by
  simp [rowApply]

lemma rowInsert_apply (D : MI → V) (m : MI) (c : ℝ) : ∀ r : Row,
    rowApply D (rowInsert r m c) = rowApply D r + c • D m
  | [] => by simp [rowInsert, rowApply]
  | (m', c') :: r => by
    rw [rowInsert]
    split_ifs with h
    · subst h; rw [rowApply_cons, rowApply_cons]; simp only; module
    · rw [rowApply_cons, rowApply_cons, rowInsert_apply D m c r, add_assoc]

lemma rowMerge_apply (D : MI → V) : ∀ (s r : Row), rowApply D (rowMerge r s) = rowApply D r + rowApply D s
  | [], r => by simp [rowMerge, rowApply]
  | mc :: s, r => by
    have := rowMerge_apply D s (rowInsert r mc.1 mc.2)
    rw [rowMerge, List.foldl_cons]
    rw [rowMerge] at this
    rw [this, rowInsert_apply, rowApply_cons, add_assoc]

lemma dictInsert_apply (D : List ℤ → MI → V) (k : List ℤ) (s : Row) : ∀ d : List (List ℤ × Row),
    ((dictInsert d k s).map fun kv => rowApply (D kv.1) kv.2).sum =
      (d.map fun kv => rowApply (D kv.1) kv.2).sum + rowApply (D k) s
  | [] => by simp [dictInsert]
  | (k', r) :: d => by
    rw [dictInsert]
    split_ifs with h
    · subst h; simp only [List.map_cons, List.sum_cons, rowMerge_apply]; abel
    · simp only [List.map_cons, List.sum_cons, dictInsert_apply D k s d]; abel

lemma foldInsert_apply (D : List ℤ → MI → V) : ∀ (e d : List (List ℤ × Row)),
    ((e.foldl (fun acc kv => dictInsert acc kv.1 kv.2) d).map fun kv => rowApply (D kv.1) kv.2).sum =
      (d.map fun kv => rowApply (D kv.1) kv.2).sum + (e.map fun kv => rowApply (D kv.1) kv.2).sum
  | [], d => by simp
  | kv :: e, d => by
    rw [List.foldl_cons, foldInsert_apply D e, dictInsert_apply, List.map_cons, List.sum_cons, add_assoc]

/-! ### Keys -/

lemma rowInsert_keys (m : MI) (c : ℝ) : ∀ (r : Row) (x : MI),
    x ∈ (rowInsert r m c).map Prod.fst ↔ x ∈ r.map Prod.fst ∨ x = m
  | [], x => by simp [rowInsert]
  | (m', c') :: r, x => by
    rw [rowInsert]
    split_ifs with h
    · subst h; simp only [List.map_cons, List.mem_cons]; tauto
    · simp only [List.map_cons, List.mem_cons, rowInsert_keys m c r x]; tauto

lemma rowInsert_nodup (m : MI) (c : ℝ) : ∀ (r : Row), (r.map Prod.fst).Nodup → ((rowInsert r m c).map Prod.fst).Nodup
  | [], _ => by simp [rowInsert]
  | (m', c') :: r, hn => by
    rw [rowInsert]
    split_ifs with h
    · exact hn
    · simp only [List.map_cons, List.nodup_cons] at hn ⊢
      refine ⟨?_, rowInsert_nodup m c r hn.2⟩
      rw [rowInsert_keys]
      rintro (h1 | h1)
      · exact hn.1 h1
      · exact h h1.symm

lemma rowMerge_keys (s : Row) : ∀ (r : Row) (x : MI),
    x ∈ (rowMerge r s).map Prod.fst ↔ x ∈ r.map Prod.fst ∨ x ∈ s.map Prod.fst := by
  induction s with
  | nil => intro r x; simp [rowMerge]
  | cons mc s ih =>
    intro r x
    have := ih (rowInsert r mc.1 mc.2) x
    rw [rowMerge] at this ⊢
    rw [List.foldl_cons, this, rowInsert_keys, List.map_cons, List.mem_cons]
    tauto

lemma rowMerge_nodup (s : Row) : ∀ (r : Row), (r.map Prod.fst).Nodup → ((rowMerge r s).map Prod.fst).Nodup := by
  induction s with
  | nil => intro r h; exact h
  | cons mc s ih =>
    intro r h
    have := ih (rowInsert r mc.1 mc.2) (rowInsert_nodup _ _ _ h)
    rw [rowMerge] at this ⊢
    exact this

/-- Entries of a dictionary. -/
def dkeys (d : List (List ℤ × Row)) : List (List ℤ × MI) := d.flatMap fun kv => kv.2.map fun mc => (kv.1, mc.1)

lemma mem_dkeys {d : List (List ℤ × Row)} {k m} : (k, m) ∈ dkeys d ↔ ∃ r, (k, r) ∈ d ∧ m ∈ r.map Prod.fst := by
  simp only [dkeys, List.mem_flatMap, List.mem_map, Prod.mk.injEq]
  constructor
  · rintro ⟨⟨k', r⟩, hkv, ⟨m', c⟩, hmc, rfl, rfl⟩
    exact ⟨r, hkv, ⟨m', c⟩, hmc, rfl⟩
  · rintro ⟨r, h, ⟨m', c⟩, hmc, rfl⟩
    exact ⟨(k, r), h, (m', c), hmc, rfl, rfl⟩

lemma dictInsert_outer (k : List ℤ) (s : Row) : ∀ (d : List (List ℤ × Row)) (x : List ℤ),
    x ∈ (dictInsert d k s).map Prod.fst ↔ x ∈ d.map Prod.fst ∨ x = k
  | [], x => by simp [dictInsert]
  | (k', r) :: d, x => by
    rw [dictInsert]
    split_ifs with h
    · subst h; simp only [List.map_cons, List.mem_cons]; tauto
    · simp only [List.map_cons, List.mem_cons, dictInsert_outer k s d x]; tauto

lemma dictInsert_nodup (k : List ℤ) (s : Row) : ∀ (d : List (List ℤ × Row)), (d.map Prod.fst).Nodup →
    ((dictInsert d k s).map Prod.fst).Nodup
  | [], _ => by simp [dictInsert]
  | (k', r) :: d, hn => by
    rw [dictInsert]
    split_ifs with h
    · exact hn
    · simp only [List.map_cons, List.nodup_cons] at hn ⊢
      refine ⟨?_, dictInsert_nodup k s d hn.2⟩
      rw [dictInsert_outer]
      rintro (h1 | h1)
      · exact hn.1 h1
      · exact h h1.symm

lemma dictInsert_inner (k : List ℤ) (s : Row) (hs : (s.map Prod.fst).Nodup) : ∀ (d : List (List ℤ × Row)),
    (∀ kv ∈ d, (kv.2.map Prod.fst).Nodup) → ∀ kv ∈ dictInsert d k s, (kv.2.map Prod.fst).Nodup
  | [], _, kv, hkv => by
    simp only [dictInsert, List.mem_singleton] at hkv; subst hkv; exact hs
  | (k', r) :: d, hd, kv, hkv => by
    rw [dictInsert] at hkv
    split_ifs at hkv with h
    · rcases List.mem_cons.mp hkv with h1 | h1
      · subst h1; exact rowMerge_nodup s r (hd _ List.mem_cons_self)
      · exact hd _ (List.mem_cons_of_mem _ h1)
    · rcases List.mem_cons.mp hkv with h1 | h1
      · subst h1; exact hd _ List.mem_cons_self
      · exact dictInsert_inner k s hs d (fun kv h => hd kv (List.mem_cons_of_mem _ h)) kv h1

lemma dictInsert_dkeys (k : List ℤ) (s : Row) : ∀ (d : List (List ℤ × Row)) (x : List ℤ) (m : MI),
    (x, m) ∈ dkeys (dictInsert d k s) ↔ (x, m) ∈ dkeys d ∨ (x = k ∧ m ∈ s.map Prod.fst)
  | [], x, m => by
    simp only [dictInsert, mem_dkeys, List.mem_singleton, Prod.mk.injEq, List.not_mem_nil, false_and, exists_false, false_or]
    constructor
    · rintro ⟨r, ⟨rfl, rfl⟩, h⟩; exact ⟨rfl, h⟩
    · rintro ⟨rfl, h⟩; exact ⟨s, ⟨rfl, rfl⟩, h⟩
  | (k', r) :: d, x, m => by
    have hc : ∀ (a : List ℤ) (b : Row) (d : List (List ℤ × Row)),
        (x, m) ∈ dkeys ((a, b) :: d) ↔ (x = a ∧ m ∈ b.map Prod.fst) ∨ (x, m) ∈ dkeys d := by
      intro a b d
      simp only [mem_dkeys, List.mem_cons, Prod.mk.injEq]
      constructor
      · rintro ⟨r, ⟨rfl, rfl⟩ | h, hm⟩
        · exact Or.inl ⟨rfl, hm⟩
        · exact Or.inr ⟨r, h, hm⟩
      · rintro (⟨rfl, hm⟩ | ⟨r, h, hm⟩)
        · exact ⟨b, Or.inl ⟨rfl, rfl⟩, hm⟩
        · exact ⟨r, Or.inr h, hm⟩
    rw [dictInsert]
    split_ifs with h
    · subst h; rw [hc, hc, rowMerge_keys]; tauto
    · rw [hc, hc, dictInsert_dkeys k s d x m]; tauto

lemma foldInsert_dkeys : ∀ (e d : List (List ℤ × Row)) (x : List ℤ) (m : MI),
    (x, m) ∈ dkeys (e.foldl (fun acc kv => dictInsert acc kv.1 kv.2) d) ↔ (x, m) ∈ dkeys d ∨ (x, m) ∈ dkeys e
  | [], d, x, m => by simp [dkeys]
  | kv :: e, d, x, m => by
    rw [List.foldl_cons, foldInsert_dkeys e, dictInsert_dkeys]
    have : (x, m) ∈ dkeys (kv :: e) ↔ (x = kv.1 ∧ m ∈ kv.2.map Prod.fst) ∨ (x, m) ∈ dkeys e := by
      simp only [mem_dkeys, List.mem_cons]
      constructor
      · rintro ⟨r, h | h, hm⟩
        · subst h; exact Or.inl ⟨rfl, hm⟩
        · exact Or.inr ⟨r, h, hm⟩
      · rintro (⟨rfl, hm⟩ | ⟨r, h, hm⟩)
        · exact ⟨kv.2, Or.inl rfl, hm⟩
        · exact ⟨r, Or.inr h, hm⟩
    rw [this]; tauto

lemma foldInsert_outer : ∀ (e d : List (List ℤ × Row)) (x : List ℤ),
    x ∈ (e.foldl (fun acc kv => dictInsert acc kv.1 kv.2) d).map Prod.fst ↔ x ∈ d.map Prod.fst ∨ x ∈ e.map Prod.fst
  | [], d, x => by simp
  | kv :: e, d, x => by
    rw [List.foldl_cons, foldInsert_outer e, dictInsert_outer, List.map_cons, List.mem_cons]; tauto

lemma foldInsert_wf : ∀ (e d : List (List ℤ × Row)), (d.map Prod.fst).Nodup →
    (∀ kv ∈ d, (kv.2.map Prod.fst).Nodup) → (∀ kv ∈ e, (kv.2.map Prod.fst).Nodup) →
    ((e.foldl (fun acc kv => dictInsert acc kv.1 kv.2) d).map Prod.fst).Nodup ∧
      ∀ kv ∈ e.foldl (fun acc kv => dictInsert acc kv.1 kv.2) d, (kv.2.map Prod.fst).Nodup
  | [], d, h1, h2, _ => ⟨h1, h2⟩
  | kv :: e, d, h1, h2, h3 => by
    rw [List.foldl_cons]
    exact foldInsert_wf e _ (dictInsert_nodup _ _ _ h1)
      (dictInsert_inner _ _ (h3 kv List.mem_cons_self) _ h2) fun kv h => h3 kv (List.mem_cons_of_mem _ h)

lemma mk'_ok {t : Table} (hw : t.WF) : Table.mk' t.dict t.domShape t.codShape = .ok t := by
  unfold Table.mk'
  rw [if_pos]
  rw [List.all_eq_true]
  intro kv hkv
  rw [Bool.and_eq_true]
  refine ⟨hw.cod kv hkv, ?_⟩
  rw [List.all_eq_true]
  intro mc hmc
  rw [beq_iff_eq]; exact hw.dom kv hkv mc hmc

/-! ### Partial derivatives of functions -/

variable {d : ℕ}

/-- `∂^a = ∂_0^{a_0} ∘ ... ∘ ∂_{d-1}^{a_{d-1}}` on smooth functions. -/
noncomputable def dpow (a : List ℕ) : Module.End ℝ (Smooth d) :=
  ((List.finRange d).map fun i => (pd i : Module.End ℝ (Smooth d)) ^ a.getD i.1 0).prod

lemma prod_one_but {M ι : Type*} [Monoid M] [DecidableEq ι] (f : ι → M) (p : ι) (hf : ∀ i, i ≠ p → f i = 1) :
    ∀ l : List ι, l.Nodup → (l.map f).prod = if p ∈ l then f p else 1
  | [], _ => by simp
  | i :: l, h => by
    rw [List.nodup_cons] at h
    rw [List.map_cons, List.prod_cons, prod_one_but f p hf l h.2]
    by_cases hi : i = p
    · subst hi; simp [h.1]
    · rw [hf i hi, one_mul]
      simp [List.mem_cons, Ne.symm hi]

lemma getD_set_replicate (n p q k : ℕ) (hp : p < n) :
    ((List.replicate n 0).set p k).getD q 0 = if q = p then k else 0 := by
  rw [List.getD_eq_getElem?_getD, List.getElem?_set]
  by_cases h : p = q
  · subst h; simp [hp]
  · simp [h, Ne.symm h]
    by_cases hq : q < n
    · rw [List.getElem?_replicate]; simp [hq]
    · rw [List.getElem?_replicate]; simp [hq]

lemma dpow_fromPos (i : Fin d) (shape : Shp) (hd : shape.prod = d) (k : ℕ) :
    dpow (d := d) (MI.fromPos i.1 shape k).data = (pd i : Module.End ℝ (Smooth d)) ^ k := by
  unfold dpow MI.fromPos
  simp only
  have hg : ∀ q, ((List.replicate shape.prod 0).set i.1 k).getD q 0 = if q = i.1 then k else 0 := fun q =>
    getD_set_replicate _ _ _ _ (by rw [hd]; exact i.2)
  simp only [hg]
  rw [prod_one_but (fun j : Fin d => (pd j : Module.End ℝ (Smooth d)) ^ (if j.1 = i.1 then k else 0)) i]
  · simp
  · intro j hj
    have : j.1 ≠ i.1 := fun h => hj (Fin.ext h)
    simp [this]
  · exact List.nodup_finRange d

lemma pd_commute (i j : Fin d) : Commute (pd i : Module.End ℝ (Smooth d)) (pd j) := by
  apply LinearMap.ext
  intro f
  exact pd_comm i j f

/-- A sum over flat positions. -/
lemma sum_range_fin {V : Type*} [AddCommMonoid V] (g : ℕ → V) (n : ℕ) :
    ((List.range n).map g).sum = ∑ i : Fin n, g i.1 := by
  rw [← List.sum_ofFn, List.ofFn_eq_map, ← List.map_coe_finRange_eq_range, List.map_map]
  rfl

lemma sum_filter_nonzero {V : Type*} [AddCommGroup V] [Module ℝ V] (w : ℕ → ℝ) (g : ℕ → V) (q : ℕ → Bool)
    (hq : ∀ p, q p = true ↔ w p ≠ 0) : ∀ l : List ℕ,
    ((l.filter q).map fun p => w p • g p).sum = (l.map fun p => w p • g p).sum
  | [] => rfl
  | p :: l => by
    by_cases h : q p
    · rw [List.filter_cons_of_pos h, List.map_cons, List.map_cons, List.sum_cons, List.sum_cons,
        sum_filter_nonzero w g q hq l]
    · rw [List.filter_cons_of_neg h, List.map_cons, List.sum_cons, sum_filter_nonzero w g q hq l]
      have h0 : w p = 0 := by
        by_contra h0; exact h ((hq p).mpr h0)
      rw [h0, zero_smul, zero_add]

lemma weightRow_apply {V : Type*} [AddCommGroup V] [Module ℝ V] (D : MI → V) (shape : Shp) (order : ℕ) (w : List ℝ) :
    rowApply D (weightRow shape order w) = ∑ i : Fin w.length, w.getD i.1 0 • D (MI.fromPos i.1 shape order) := by
  unfold rowApply weightRow
  rw [List.map_map]
  have := sum_filter_nonzero (fun p => w.getD p 0) (fun p => D (MI.fromPos p shape order))
    (fun p => decide (w.getD p 0 ≠ 0)) (fun p => by simp) (List.range w.length)
  rw [sum_range_fin] at this
  rw [← this]
  rfl

lemma fromPos_shape (p : ℕ) (shape : Shp) (k : ℕ) : (MI.fromPos p shape k).shape = shape := rfl

lemma fromPos_inj {p q : ℕ} {shape : Shp} {k : ℕ} (hk : k ≠ 0) (hp : p < shape.prod) (hq : q < shape.prod)
    (h : MI.fromPos p shape k = MI.fromPos q shape k) : p = q := by
  have h1 := congrArg (fun m => m.data.getD p 0) h
  simp only [MI.fromPos] at h1
  rw [getD_set_replicate _ _ _ _ hp, getD_set_replicate _ _ _ _ hq] at h1
  by_contra hne
  simp [hne] at h1
  exact hk h1

end LinPDE.Coeff
