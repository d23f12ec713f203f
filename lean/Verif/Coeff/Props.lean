import Verif.Coeff.Lemmas
import Mathlib.Tactic.NormNum
import Mathlib.Tactic.FinCases

/-! # Properties of coefficient tables, multi-indices and named differential operators (C31–C34)

`Table.apply t D` is `Σ_k Σ_m c_{k,m} D k m`, where `D k m` stands for the derivative `∂^m` of output `k`;
`D` is arbitrary (any values in any real vector space), hence covers every function and every point.
-/

namespace LinPDE.Coeff
open LinPDE.Nd LinPDE.Calc

variable {V : Type*} [AddCommGroup V] [Module ℝ V]

/-! ## C31: arithmetic of coefficient tables -/

lemma mk'_isOk_iff_aux (dict : List (List ℤ × Row)) (ds cs : Shp) :
    (∃ t, Table.mk' dict ds cs = .ok t) ↔
      ∀ kv ∈ dict, codIdxOK kv.1 cs = true ∧ ∀ mc ∈ kv.2, mc.1.shape = ds := by
  unfold Table.mk'
  constructor
  · rintro ⟨t, h⟩
    split_ifs at h with hc
    rw [List.all_eq_true] at hc
    intro kv hkv
    have := hc kv hkv
    rw [Bool.and_eq_true, List.all_eq_true] at this
    exact ⟨this.1, fun mc hmc => by simpa using this.2 mc hmc⟩
  · intro h
    rw [if_pos]
    · exact ⟨_, rfl⟩
    · rw [List.all_eq_true]
      intro kv hkv
      rw [Bool.and_eq_true, List.all_eq_true]
      exact ⟨(h kv hkv).1, fun mc hmc => by simpa using (h kv hkv).2 mc hmc⟩

lemma codIdxOK_iff (idx : List ℤ) (shape : Shp) :
    codIdxOK idx shape = true ↔ List.Forall₂ (fun (i : ℤ) (n : ℕ) => i < n) idx shape := by
  induction idx generalizing shape with
  | nil => cases shape <;> simp [codIdxOK]
  | cons i idx ih =>
    cases shape with
    | nil => simp [codIdxOK]
    | cons n shape =>
      rw [List.forall₂_cons, ← ih shape]
      simp [codIdxOK]
      tauto

/-- The constructor accepts exactly the tables whose codomain indices have one entry per axis of the codomain shape, each
below the length of the axis (negative entries are not refused), and whose multi-indices have the domain shape; it stores
them unchanged, and raises `ValueError` otherwise. -/
theorem mk'_isOk_iff (dict : List (List ℤ × Row)) (ds cs : Shp) :
    (∀ t, Table.mk' dict ds cs = .ok t ↔ t = ⟨dict, ds, cs⟩ ∧ ∀ kv ∈ dict,
      List.Forall₂ (fun (i : ℤ) (n : ℕ) => i < n) kv.1 cs ∧ ∀ mc ∈ kv.2, mc.1.shape = ds) ∧
    (Table.mk' dict ds cs = .error .valueError ↔ ¬ ∀ kv ∈ dict,
      List.Forall₂ (fun (i : ℤ) (n : ℕ) => i < n) kv.1 cs ∧ ∀ mc ∈ kv.2, mc.1.shape = ds) := by
  have h := mk'_isOk_iff_aux dict ds cs
  simp only [codIdxOK_iff] at h
  have h2 : Table.mk' dict ds cs = .ok ⟨dict, ds, cs⟩ ∨ Table.mk' dict ds cs = .error .valueError := by
    unfold Table.mk'
    split_ifs
    · exact Or.inl rfl
    · exact Or.inr rfl
  rw [← h]
  rcases h2 with h2 | h2 <;> rw [h2]
  · exact ⟨fun t => ⟨fun e => ⟨(Except.ok.inj e).symm, _, rfl⟩, fun e => by rw [e.1]⟩, by simp⟩
  · exact ⟨fun t => ⟨fun e => (by cases e), fun e => (by obtain ⟨_, t, ht⟩ := e; cases ht)⟩, by simp⟩

/-- Negative codomain indices slip through the check, although they denote no output. -/
example : ∃ t, Table.mk' [([-5], [(⟨[], [1]⟩, 1)])] [] [2] = .ok t := ⟨_, by rfl⟩

/-- The sum of two tables exists exactly if their shapes agree. -/
theorem add_isOk_iff (s t : Table) (hs : s.WF) (ht : t.WF) :
    (∃ r, s.add t = .ok r) ↔ s.domShape = t.domShape ∧ s.codShape = t.codShape := by
  unfold Table.add
  by_cases h1 : s.domShape = t.domShape
  · by_cases h2 : s.codShape = t.codShape
    · rw [if_neg (by simpa using h1), if_neg (by simpa using h2), mk'_isOk_iff_aux]
      refine ⟨fun _ => ⟨h1, h2⟩, fun _ => ?_⟩
      intro kv hkv
      set e := t.dict.foldl (fun acc kv => dictInsert acc kv.1 kv.2) s.dict with he
      constructor
      · have hm : kv.1 ∈ e.map Prod.fst := List.mem_map_of_mem hkv
        rw [he, foldInsert_outer] at hm
        rcases hm with hm | hm <;> obtain ⟨kv', hkv', hk⟩ := List.mem_map.mp hm
        · rw [← hk]; exact hs.cod kv' hkv'
        · rw [← hk, h2]; exact ht.cod kv' hkv'
      · intro mc hmc
        have hm : (kv.1, mc.1) ∈ dkeys e := mem_dkeys.mpr ⟨kv.2, hkv, List.mem_map_of_mem hmc⟩
        rw [he, foldInsert_dkeys] at hm
        rcases hm with hm | hm <;> obtain ⟨r, hr, hx⟩ := mem_dkeys.mp hm <;>
          obtain ⟨mc', hmc', hx'⟩ := List.mem_map.mp hx
        · rw [← hx']; exact hs.dom _ hr _ hmc'
        · rw [← hx', h1]; exact ht.dom _ hr _ hmc'
    · rw [if_neg (by simpa using h1), if_pos h2]
      exact ⟨fun ⟨_, h⟩ => by simp at h, fun h => absurd h.2 h2⟩
  · rw [if_pos h1]
    exact ⟨fun ⟨_, h⟩ => by simp at h, fun h => absurd h.1 h1⟩

lemma add_ok {s t r : Table} (h : s.add t = .ok r) :
    r = ⟨t.dict.foldl (fun acc kv => dictInsert acc kv.1 kv.2) s.dict, s.domShape, s.codShape⟩ ∧
      s.domShape = t.domShape ∧ s.codShape = t.codShape := by
  unfold Table.add at h
  split_ifs at h with h1 h2
  unfold Table.mk' at h
  split_ifs at h with h3
  push Not at h1 h2
  exact ⟨(Except.ok.inj h).symm, h1, h2⟩

/-- Applying the sum of two tables is the sum of applying them. -/
theorem add_apply {s t r : Table} (h : s.add t = .ok r) (D : List ℤ → MI → V) :
    r.apply D = s.apply D + t.apply D := by
  obtain ⟨rfl, -, -⟩ := add_ok h
  exact foldInsert_apply D t.dict s.dict

/-- The sum keeps the shapes, has distinct keys, and valid indices. -/
theorem add_wf {s t r : Table} (hs : s.WF) (ht : t.WF) (h : s.add t = .ok r) :
    r.WF ∧ r.domShape = s.domShape ∧ r.codShape = s.codShape := by
  obtain ⟨hr, h1, h2⟩ := add_ok h
  have hok : ∃ t', Table.mk' r.dict r.domShape r.codShape = .ok t' := by
    unfold Table.add at h
    rw [if_neg (by simpa using h1), if_neg (by simpa using h2)] at h
    subst hr; exact ⟨_, h⟩
  have hv := (mk'_isOk_iff_aux _ _ _).mp hok
  have hw := foldInsert_wf t.dict s.dict hs.outer hs.inner ht.inner
  subst hr
  exact ⟨⟨hw.1, hw.2, fun kv hkv => (hv kv hkv).1, fun kv hkv => (hv kv hkv).2⟩, rfl, rfl⟩

/-- Merging loses no entry and invents none. -/
theorem add_keys {s t r : Table} (h : s.add t = .ok r) (k : List ℤ) (m : MI) :
    (k, m) ∈ r.keys ↔ (k, m) ∈ s.keys ∨ (k, m) ∈ t.keys := by
  obtain ⟨rfl, -, -⟩ := add_ok h
  exact foldInsert_dkeys t.dict s.dict k m

lemma dkeys_nodup : ∀ (d : List (List ℤ × Row)), (d.map Prod.fst).Nodup →
    (∀ kv ∈ d, (kv.2.map Prod.fst).Nodup) → (dkeys d).Nodup
  | [], _, _ => by simp [dkeys]
  | kv :: d, h1, h2 => by
    rw [List.map_cons, List.nodup_cons] at h1
    have hc : dkeys (kv :: d) = (kv.2.map fun mc => (kv.1, mc.1)) ++ dkeys d := by simp [dkeys]
    rw [hc, List.nodup_append]
    refine ⟨?_, dkeys_nodup d h1.2 fun kv h => h2 kv (List.mem_cons_of_mem _ h), ?_⟩
    · have := h2 kv List.mem_cons_self
      have e : (kv.2.map fun mc => (kv.1, mc.1)) = (kv.2.map Prod.fst).map fun m => (kv.1, m) := by
        rw [List.map_map]; rfl
      rw [e]
      exact this.map fun a b h => (Prod.mk.inj h).2
    · rintro ⟨a, b⟩ ha ⟨a', b'⟩ hb heq
      obtain ⟨rfl, rfl⟩ := Prod.mk.inj heq
      obtain ⟨mc, -, he⟩ := List.mem_map.mp ha
      obtain ⟨hk, -⟩ := Prod.mk.inj he
      obtain ⟨r, hr, -⟩ := mem_dkeys.mp hb
      exact h1.1 (by rw [hk]; exact List.mem_map_of_mem (f := Prod.fst) hr)

/-- Entries are never duplicated. -/
theorem keys_nodup {t : Table} (ht : t.WF) : t.keys.Nodup := dkeys_nodup _ ht.outer ht.inner

/-- The stored number of entries is the number of distinct entries. -/
theorem numEntries_eq {t : Table} (ht : t.WF) : t.numEntries = t.keys.toFinset.card := by
  rw [List.toFinset_card_of_nodup (keys_nodup ht)]
  simp only [Table.numEntries, Table.keys, List.length_flatMap, List.length_map]

/-- The sum has the entries of both tables, each once. -/
theorem add_numEntries {s t r : Table} (hs : s.WF) (ht : t.WF) (h : s.add t = .ok r) :
    r.numEntries = (s.keys.toFinset ∪ t.keys.toFinset).card := by
  rw [numEntries_eq (add_wf hs ht h).1]
  congr 1
  ext ⟨k, m⟩
  simp only [List.mem_toFinset, Finset.mem_union, add_keys h]

/-- Coefficients add. -/
theorem add_coef {s t r : Table} (h : s.add t = .ok r) (k : List ℤ) (m : MI) :
    r.coef k m = s.coef k m + t.coef k m := add_apply h _

lemma map_eq_of_keys (c : ℝ) (t : Table) :
    (t.dict.map fun kv => (kv.1, kv.2.map fun mc => (mc.1, mc.2 * c))).map Prod.fst = t.dict.map Prod.fst := by
  rw [List.map_map]; rfl

/-- Scaling a table always succeeds, scales every application, and keeps entries, shapes and order. -/
theorem smul_spec (c : ℝ) (t : Table) (ht : t.WF) : ∃ r, t.smul c = .ok r ∧ r.WF ∧
    r.domShape = t.domShape ∧ r.codShape = t.codShape ∧ r.keys = t.keys ∧ r.numEntries = t.numEntries := by
  refine ⟨⟨t.dict.map fun kv => (kv.1, kv.2.map fun mc => (mc.1, mc.2 * c)), t.domShape, t.codShape⟩, ?_, ?_, rfl, rfl, ?_, ?_⟩
  · unfold Table.smul Table.mk'
    rw [if_pos]
    rw [List.all_eq_true]
    intro kv hkv
    obtain ⟨kv', h', rfl⟩ := List.mem_map.mp hkv
    rw [Bool.and_eq_true, List.all_eq_true]
    refine ⟨ht.cod kv' h', ?_⟩
    intro mc hmc
    obtain ⟨mc', hm', rfl⟩ := List.mem_map.mp hmc
    rw [beq_iff_eq]; exact ht.dom kv' h' mc' hm'
  · refine ⟨?_, ?_, ?_, ?_⟩
    · show ((t.dict.map fun kv => (kv.1, kv.2.map fun mc => (mc.1, mc.2 * c))).map Prod.fst).Nodup
      rw [map_eq_of_keys]; exact ht.outer
    · intro kv hkv
      obtain ⟨kv', h', rfl⟩ := List.mem_map.mp hkv
      have := ht.inner kv' h'
      simpa [List.map_map, Function.comp_def] using this
    · intro kv hkv
      obtain ⟨kv', h', rfl⟩ := List.mem_map.mp hkv
      exact ht.cod kv' h'
    · intro kv hkv mc hmc
      obtain ⟨kv', h', rfl⟩ := List.mem_map.mp hkv
      obtain ⟨mc', hm', rfl⟩ := List.mem_map.mp hmc
      exact ht.dom kv' h' mc' hm'
  · simp only [Table.keys, List.flatMap_map, List.map_map, Function.comp_def]
  · simp only [Table.numEntries, List.map_map, Function.comp_def, List.length_map]

lemma smul_ok {c : ℝ} {t r : Table} (h : t.smul c = .ok r) :
    r = ⟨t.dict.map fun kv => (kv.1, kv.2.map fun mc => (mc.1, mc.2 * c)), t.domShape, t.codShape⟩ := by
  unfold Table.smul Table.mk' at h
  split_ifs at h
  exact (Except.ok.inj h).symm

lemma rowApply_scale (D : MI → V) (c : ℝ) (r : Row) :
    rowApply D (r.map fun mc => (mc.1, mc.2 * c)) = c • rowApply D r := by
  induction r with
  | nil => simp [rowApply]
  | cons mc r ih => rw [List.map_cons, rowApply_cons, ih, rowApply_cons]; simp only; module

/-- Applying a scaled table. -/
theorem smul_apply {c : ℝ} {t r : Table} (h : t.smul c = .ok r) (D : List ℤ → MI → V) :
    r.apply D = c • t.apply D := by
  rw [smul_ok h]
  unfold Table.apply
  simp only [List.map_map, Function.comp_def, rowApply_scale]
  induction t.dict with
  | nil => simp
  | cons kv d ih => simp only [List.map_cons, List.sum_cons, smul_add, ih]

/-- Applying a negated table. -/
theorem neg_apply {t r : Table} (h : t.neg = .ok r) (D : List ℤ → MI → V) : r.apply D = -t.apply D := by
  rw [smul_apply h D, neg_one_smul]

/-- Subtraction succeeds exactly if the shapes agree, and denotes the difference. -/
theorem sub_spec (s t : Table) (hs : s.WF) (ht : t.WF) :
    ((∃ r, s.sub t = .ok r) ↔ s.domShape = t.domShape ∧ s.codShape = t.codShape) ∧
      ∀ r, s.sub t = .ok r → r.WF ∧ ∀ D : List ℤ → MI → V, r.apply D = s.apply D - t.apply D := by
  obtain ⟨n, hn, hw, hd, hc, -, -⟩ := smul_spec (-1) t ht
  have e : s.sub t = s.add n := by
    unfold Table.sub Table.neg; rw [hn]; rfl
  rw [e]
  constructor
  · rw [add_isOk_iff s n hs hw, hd, hc]
  · intro r hr
    refine ⟨(add_wf hs hw hr).1, fun D => ?_⟩
    rw [add_apply hr D, neg_apply (t := t) hn D, sub_eq_add_neg]

/-- `has_mixed` reports exactly the presence of a multi-index with two non-zero entries. -/
theorem hasMixed_iff (t : Table) : t.hasMixed = true ↔ ∃ k m, (k, m) ∈ t.keys ∧
    1 < (m.data.filter (· ≠ 0)).length := by
  unfold Table.hasMixed
  simp only [List.any_eq_true]
  constructor
  · rintro ⟨kv, hkv, mc, hmc, h⟩
    refine ⟨kv.1, mc.1, mem_dkeys.mpr ⟨kv.2, hkv, List.mem_map_of_mem hmc⟩, ?_⟩
    simpa [MI.isMixed] using h
  · rintro ⟨k, m, hkm, h⟩
    obtain ⟨r, hr, hm⟩ := mem_dkeys.mp hkm
    obtain ⟨mc, hmc, rfl⟩ := List.mem_map.mp hm
    exact ⟨(k, r), hr, mc, hmc, by simpa [MI.isMixed] using h⟩

/-! ## C32: the named operators -/

variable {d : ℕ}

/-- Derivatives of a smooth scalar function on `ℝ^d`. -/
noncomputable def derivs (f : Smooth d) : List ℤ → MI → Smooth d := fun _ m => dpow m.data f

lemma getD_ofFn (w : Fin d → ℝ) (i : Fin d) (h : d = (List.ofFn w).length) : (List.ofFn w).getD (Fin.cast h i).1 0 = w i := by
  rw [List.getD_eq_getElem?_getD, List.getElem?_ofFn]; simp

lemma weightRow_shape (shape : Shp) (order : ℕ) (w : List ℝ) : ∀ mc ∈ weightRow shape order w, mc.1.shape = shape := by
  intro mc hmc
  obtain ⟨p, -, rfl⟩ := List.mem_map.mp hmc
  rfl

lemma mkScalar (shape : Shp) (row : Row) (h : ∀ mc ∈ row, mc.1.shape = shape) :
    (do let t ← Table.mk' [([], row)] shape []
        DiffOp.mk' t shape []) = (.ok ⟨⟨[([], row)], shape, []⟩, shape, []⟩ : Except Err DiffOp) := by
  have : Table.mk' [([], row)] shape [] = .ok ⟨[([], row)], shape, []⟩ := by
    unfold Table.mk'
    rw [if_pos]
    simp only [List.all_cons, List.all_nil, Bool.and_true, Bool.and_eq_true, List.all_eq_true]
    exact ⟨rfl, fun mc hmc => by simpa using h mc hmc⟩
  rw [this]
  show DiffOp.mk' _ _ _ = _
  unfold DiffOp.mk'
  simp

lemma weightedLaplacian_ok (shape : Shp) (w : List ℝ) :
    weightedLaplacian shape w = .ok ⟨⟨[([], weightRow shape 2 w)], shape, []⟩, shape, []⟩ :=
  mkScalar shape _ (weightRow_shape shape 2 w)

/-- **C32** weighted Laplacian: `Σ_i w_i ∂_i²`, for every domain shape. -/
theorem weightedLaplacian_spec (shape : Shp) (hd : shape.prod = d) (w : Fin d → ℝ) :
    ∃ L, weightedLaplacian shape (List.ofFn w) = .ok L ∧ L.domShape = shape ∧ L.codShape = [] ∧
      ∀ f : Smooth d, L.coeffs.apply (derivs f) = ∑ i : Fin d, w i • pd i (pd i f) := by
  refine ⟨_, weightedLaplacian_ok shape _, rfl, rfl, fun f => ?_⟩
  unfold Table.apply
  simp only [List.map_cons, List.map_nil, List.sum_cons, List.sum_nil, add_zero]
  rw [weightRow_apply, ← Fin.sum_congr' _ (List.length_ofFn (f := w)).symm]
  apply Finset.sum_congr rfl
  intro i _
  rw [getD_ofFn]
  congr 1
  have := dpow_fromPos i shape hd 2
  rw [pow_two] at this
  exact congrArg (fun T : Module.End ℝ (Smooth d) => T f) this

/-- **C32** Laplacian: `Σ_i ∂_i²`. -/
theorem laplacian_spec (shape : Shp) (hd : shape.prod = d) :
    ∃ L, laplacian shape = .ok L ∧ L.domShape = shape ∧ L.codShape = [] ∧
      ∀ f : Smooth d, L.coeffs.apply (derivs f) = ∑ i : Fin d, pd i (pd i f) := by
  obtain ⟨L, h1, h2, h3, h4⟩ := weightedLaplacian_spec shape hd (fun _ => 1)
  refine ⟨L, ?_, h2, h3, fun f => ?_⟩
  · rw [← h1, laplacian, hd, List.ofFn_const]
  · rw [h4]; simp

/-- **C32** spatial Laplacian on `ℝ^{1+n}`, `n ≥ 1`: `Σ_{i ≥ 1} ∂_i²`. -/
theorem spatialLaplacian_spec (n : ℕ) (hn : 1 ≤ n) :
    ∃ L, spatialLaplacian [n + 1] = .ok L ∧ L.domShape = [n + 1] ∧ L.codShape = [] ∧
      ∀ f : Smooth (n + 1), L.coeffs.apply (derivs f) = ∑ i : Fin n, pd i.succ (pd i.succ f) := by
  obtain ⟨L, h1, h2, h3, h4⟩ := weightedLaplacian_spec [n + 1] (by simp) (Fin.cons 0 fun _ : Fin n => 1)
  refine ⟨L, ?_, h2, h3, fun f => ?_⟩
  · unfold spatialLaplacian
    simp only
    rw [if_neg (by omega), ← h1, List.ofFn_succ]
    simp
  · rw [h4, Fin.sum_univ_succ]; simp

/-- **C32** the spatial Laplacian rejects every other domain shape. -/
theorem spatialLaplacian_error (shape : Shp) (h : ∀ n, 1 ≤ n → shape ≠ [n + 1]) :
    spatialLaplacian shape = .error .valueError := by
  unfold spatialLaplacian
  split
  · rename_i k
    rw [if_pos]
    by_contra hk
    exact h (k - 1) (by omega) (by congr 1; omega)
  · rfl

/-- **C32** directional derivative: `Σ_i v_i ∂_i`. -/
theorem directionalDerivative_spec (shape : Shp) (hd : shape.prod = d) (v : Fin d → ℝ) :
    ∃ L, directionalDerivative shape (List.ofFn v) = .ok L ∧ L.domShape = shape ∧ L.codShape = [] ∧
      ∀ f : Smooth d, L.coeffs.apply (derivs f) = ∑ i : Fin d, v i • pd i f := by
  refine ⟨_, mkScalar shape _ (weightRow_shape shape 1 _), rfl, rfl, fun f => ?_⟩
  unfold Table.apply
  simp only [List.map_cons, List.map_nil, List.sum_cons, List.sum_nil, add_zero]
  rw [weightRow_apply, ← Fin.sum_congr' _ (List.length_ofFn (f := v)).symm]
  apply Finset.sum_congr rfl
  intro i _
  rw [getD_ofFn]
  congr 1
  have := dpow_fromPos i shape hd 1
  rw [pow_one] at this
  exact congrArg (fun T : Module.End ℝ (Smooth d) => T f) this

/-- **C32** the directional derivative is the derivative along the direction. -/
theorem directionalDerivative_fderiv (shape : Shp) (hd : shape.prod = d) (v : Fin d → ℝ) :
    ∃ L, directionalDerivative shape (List.ofFn v) = .ok L ∧
      ∀ (f : Smooth d) (x : Fin d → ℝ), (L.coeffs.apply (derivs f)).1 x = fderiv ℝ f.1 x v := by
  obtain ⟨L, h1, -, -, h4⟩ := directionalDerivative_spec shape hd v
  refine ⟨L, h1, fun f x => ?_⟩
  rw [h4]
  have hv : v = ∑ i, v i • Calc.e i := by
    ext j; simp [Calc.e, Finset.sum_apply, Pi.single_apply]
  conv_rhs => rw [hv, map_sum]
  rw [AddSubmonoidClass.coe_finsetSum, Finset.sum_apply]
  apply Finset.sum_congr rfl
  intro i _
  rw [map_smul]
  rfl

lemma partialDerivative_ok (m : MI) :
    partialDerivative m = .ok ⟨⟨[([], [(m, 1)])], m.shape, []⟩, m.shape, []⟩ :=
  mkScalar m.shape _ (by simp)

/-- **C32** partial derivative: `∂^α` for every multi-index. -/
theorem partialDerivative_spec (m : MI) :
    ∃ L, partialDerivative m = .ok L ∧ L.domShape = m.shape ∧ L.codShape = [] ∧
      ∀ f : Smooth d, L.coeffs.apply (derivs f) = dpow m.data f := by
  refine ⟨_, partialDerivative_ok m, rfl, rfl, fun f => ?_⟩
  simp [Table.apply, rowApply, derivs]

/-- **C32** time derivative on `ℝ^{1+n}`: the derivative with respect to the first coordinate. -/
theorem timeDerivative_spec (n : ℕ) :
    ∃ L, timeDerivative [n + 1] = .ok L ∧ L.domShape = [n + 1] ∧ L.codShape = [] ∧
      ∀ f : Smooth (n + 1), L.coeffs.apply (derivs f) = pd 0 f := by
  have e : (⟨[1 + (n + 1 - 1)], 1 :: List.replicate (n + 1 - 1) 0⟩ : MI) = MI.fromPos 0 [n + 1] 1 := by
    unfold MI.fromPos
    simp [List.replicate_succ, Nat.add_comm]
  refine ⟨⟨⟨[([], [(MI.fromPos 0 [n + 1] 1, 1)])], [n + 1], []⟩, [n + 1], []⟩, ?_, rfl, rfl, fun f => ?_⟩
  · unfold timeDerivative
    simp only
    rw [e, partialDerivative_ok]
    rfl
  · have := dpow_fromPos (d := n + 1) 0 [n + 1] (by simp) 1
    simp only [Table.apply, rowApply, derivs, List.map_cons, List.map_nil, List.sum_cons, List.sum_nil, add_zero, one_smul]
    rw [pow_one] at this
    exact congrArg (fun T : Module.End ℝ (Smooth (n + 1)) => T f) this

/-- **C32** time derivative on scalar time (domain shape `()`). -/
theorem timeDerivative_scalar_spec :
    ∃ L, timeDerivative [] = .ok L ∧ L.domShape = [] ∧ L.codShape = [] ∧
      ∀ f : Smooth 1, L.coeffs.apply (derivs f) = pd 0 f := by
  refine ⟨_, partialDerivative_ok _, rfl, rfl, fun f => ?_⟩
  have := dpow_fromPos (d := 1) (0 : Fin 1) [] rfl 1
  simp only [Table.apply, rowApply, derivs, List.map_cons, List.map_nil, List.sum_cons, List.sum_nil, add_zero, one_smul]
  rw [pow_one] at this
  exact congrArg (fun T : Module.End ℝ (Smooth 1) => T f) this

/-- **C32** domains with two or more axes are refused by the time derivative and the heat operator, and the heat
operator also refuses scalar domains. -/
theorem time_heat_error (a b : ℕ) (s : Shp) (alpha : ℝ) : timeDerivative (a :: b :: s) = .error .valueError ∧
    heatOperator (a :: b :: s) alpha = .error .valueError ∧ heatOperator [] alpha = .error .valueError :=
  ⟨rfl, rfl, rfl⟩

/-- **C32** heat operator on `ℝ^{1+n}`: the two summands add up to `∂_t - α Σ_{i ≥ 1} ∂_i²`. -/
theorem heatOperator_spec (n : ℕ) (alpha : ℝ) :
    ∃ T L, heatOperator [n + 1] alpha = .ok (T, L) ∧ T.domShape = [n + 1] ∧ T.codShape = [] ∧
      L.domShape = [n + 1] ∧ L.codShape = [] ∧
      ∀ f : Smooth (n + 1), T.coeffs.apply (derivs f) + L.coeffs.apply (derivs f) =
        pd 0 f - alpha • ∑ i : Fin n, pd i.succ (pd i.succ f) := by
  obtain ⟨T, t1, t2, t3, t4⟩ := timeDerivative_spec n
  obtain ⟨L, l1, l2, l3, l4⟩ := weightedLaplacian_spec [n + 1] (by simp) (Fin.cons 0 fun _ : Fin n => -alpha)
  have e : ((List.range (n + 1)).map fun i => if i = 0 then 0 else -alpha) =
      List.ofFn (Fin.cons 0 fun _ : Fin n => -alpha : Fin (n + 1) → ℝ) := by
    rw [List.range_succ_eq_map, List.ofFn_succ]
    simp [Function.comp_def]
  refine ⟨T, L, ?_, t2, t3, l2, l3, fun f => ?_⟩
  · unfold heatOperator
    simp only
    rw [e, t1, l1]
    show (if _ then _ else _) = _
    rw [if_pos ⟨by rw [t2, l2], by rw [t3, l3]⟩]
  · rw [t4, l4, sub_eq_add_neg, Fin.sum_univ_succ]
    simp only [Fin.cons_zero, zero_smul, zero_add, Fin.cons_succ, Finset.smul_sum]
    rw [← Finset.sum_neg_distrib]
    exact congrArg _ (Finset.sum_congr rfl fun i _ => Subtype.ext (by simp))

/-! ### Expansion into partial derivatives -/

/-- Value of the expanded sum `Σ Σ c ∂^m (select k)`. -/
noncomputable def sumsApply (D : List ℤ → MI → V) (ss : List (List Summand)) : V :=
  (ss.map fun s => (s.map fun u => u.coef • D u.out u.mi).sum).sum

/-- **C32** `to_sum`: if every row of the table is non-empty and there is a row, the operator expands into a sum of
partial derivatives of selected outputs with the same action. -/
theorem toSum_spec (L : DiffOp) (h0 : L.coeffs.dict ≠ []) (h : ∀ kv ∈ L.coeffs.dict, kv.2 ≠ []) :
    ∃ ss, L.toSum = .ok ss ∧ ∀ D : List ℤ → MI → V, sumsApply D ss = L.coeffs.apply D := by
  have key : ∀ dd : List (List ℤ × Row), (∀ kv ∈ dd, kv.2 ≠ []) →
      innerSums dd = .ok (dd.map fun kv => kv.2.map fun mc => ⟨mc.2, mc.1, kv.1⟩) := by
    intro dd
    induction dd with
    | nil => intro _; rfl
    | cons kv dd ih =>
      intro hh
      have h1 : innerSum kv = .ok (kv.2.map fun mc => ⟨mc.2, mc.1, kv.1⟩) := by
        unfold innerSum mkSum
        rw [if_neg]
        simp only [List.isEmpty_iff, List.map_eq_nil_iff]
        exact hh kv List.mem_cons_self
      unfold innerSums
      rw [h1, ih fun kv h => hh kv (List.mem_cons_of_mem _ h)]
      rfl
  refine ⟨L.coeffs.dict.map fun kv => kv.2.map fun mc => ⟨mc.2, mc.1, kv.1⟩, ?_, fun D => ?_⟩
  · unfold DiffOp.toSum
    rw [key _ h]
    show mkSum _ = _
    unfold mkSum
    rw [if_neg]
    simp only [List.isEmpty_iff, List.map_eq_nil_iff]
    exact h0
  · simp only [sumsApply, Table.apply, rowApply, List.map_map, Function.comp_def]

/-- **C32 (violated part)** operators whose coefficients are all zero are accepted by the constructors but cannot be
expanded, so they cannot be applied: `np.ndenumerate` drops zero weights and the empty sum raises `IndexError`. -/
theorem zero_weights_not_applicable (shape : Shp) (n : ℕ) :
    (∃ L, weightedLaplacian shape (List.replicate n 0) = .ok L ∧ L.toSum = .error .indexError) ∧
      ∃ L, directionalDerivative shape (List.replicate n 0) = .ok L ∧ L.toSum = .error .indexError := by
  have z : ∀ o, weightRow shape o (List.replicate n 0) = [] := by
    intro o
    unfold weightRow
    rw [List.map_eq_nil_iff, List.filter_eq_nil_iff]
    intro p hp
    have : (List.replicate n (0 : ℝ)).getD p 0 = 0 := by
      rw [List.getD_eq_getElem?_getD, List.getElem?_replicate]
      split_ifs <;> rfl
    rw [this]; simp
  constructor
  · refine ⟨_, weightedLaplacian_ok _ _, ?_⟩
    rw [z]; rfl
  · refine ⟨_, mkScalar shape _ (weightRow_shape shape 1 _), ?_⟩
    rw [z]; rfl

/-- The heat operator with `α = 0` is such a case. -/
theorem heat_zero_alpha_not_applicable (n : ℕ) :
    ∃ T L, heatOperator [n + 1] 0 = .ok (T, L) ∧ L.toSum = .error .indexError := by
  obtain ⟨T, t1, t2, t3, -⟩ := timeDerivative_spec n
  obtain ⟨⟨L, l1, l2⟩, -⟩ := zero_weights_not_applicable [n + 1] (n + 1)
  refine ⟨T, L, ?_, l2⟩
  unfold heatOperator
  simp only
  have e : ((List.range (n + 1)).map fun i => if i = 0 then (0 : ℝ) else -0) = List.replicate (n + 1) 0 := by
    rw [List.eq_replicate_iff]
    refine ⟨by simp, fun b hb => ?_⟩
    obtain ⟨i, -, rfl⟩ := List.mem_map.mp hb
    split_ifs <;> simp
  rw [e, t1, l1]
  show (if _ then _ else _) = _
  have lo := weightedLaplacian_ok [n + 1] (List.replicate (n + 1) 0)
  rw [l1] at lo
  have := Except.ok.inj lo
  rw [if_pos ⟨by rw [t2, this], by rw [t3, this]⟩]

/-! ## C33: factorisation of partial derivatives -/

/-- `CompositeLinearFunctionOperator` applies its factors from the last to the first. -/
noncomputable def applyComposite (fs : List MI) (f : Smooth d) : Smooth d := fs.foldr (fun m g => dpow m.data g) f

/-- `_partial_derivative.py:95-110`: the automatic-differentiation path applies them from the first to the last. -/
noncomputable def applyForward (fs : List MI) (f : Smooth d) : Smooth d := fs.foldl (fun g m => dpow m.data g) f

lemma applyComposite_eq (fs : List MI) (f : Smooth d) :
    applyComposite fs f = ((fs.map fun m => dpow (d := d) m.data).prod) f := by
  induction fs with
  | nil => rfl
  | cons m fs ih =>
    rw [List.map_cons, List.prod_cons]
    show dpow m.data (applyComposite fs f) = dpow m.data (_ : Smooth d)
    rw [ih]

lemma dpow_commute (a b : List ℕ) : Commute (dpow (d := d) a) (dpow b) := by
  unfold dpow
  apply Commute.list_prod_left
  intro x hx
  obtain ⟨i, -, rfl⟩ := List.mem_map.mp hx
  apply Commute.list_prod_right
  intro y hy
  obtain ⟨j, -, rfl⟩ := List.mem_map.mp hy
  exact (pd_commute i j).pow_pow _ _

/-- Both orders of application agree, for every list of factors. -/
theorem forward_eq_composite (fs : List MI) (f : Smooth d) : applyForward fs f = applyComposite fs f := by
  have : applyForward fs f = applyComposite fs.reverse f := by
    unfold applyForward applyComposite
    rw [List.foldr_reverse]
  rw [this, applyComposite_eq, applyComposite_eq]
  have := List.Perm.prod_eq' (l₁ := fs.reverse.map fun m => dpow (d := d) m.data)
    (l₂ := fs.map fun m => dpow (d := d) m.data) ((List.reverse_perm fs).map _) ?_
  · rw [this]
  · rw [List.pairwise_map]
    exact List.pairwise_of_forall fun a b => dpow_commute _ _

lemma sum_flat_range (m : MI) : ((List.range m.data.length).map fun p => m.data.getD p 0) = m.data := by
  apply List.ext_getElem
  · simp
  · intro i h1 h2
    simp [List.getD_eq_getElem?_getD, h2]

lemma prod_range_dpow (m : MI) (hm : m.data.length = d) (hs : m.shape.prod = d) :
    ((List.range m.data.length).map fun p => (dpow (d := d) (MI.fromPos p m.shape 1).data) ^ m.data.getD p 0).prod =
      dpow m.data := by
  rw [hm, ← List.map_coe_finRange_eq_range, List.map_map]
  conv_rhs => rw [dpow]
  congr 1
  apply List.map_congr_left
  intro i _
  simp only [Function.comp_apply]
  rw [dpow_fromPos i m.shape hs 1, pow_one]

/-- **C33** composing the first-order factors of `∂^α`, in either order of application, is `∂^α`; every factor has
order one and there are `|α|` of them. -/
theorem factorizeFirstOrder_spec (m : MI) (hm : m.data.length = d) (hs : m.shape.prod = d) {fs : List MI}
    (h : factorizeFirstOrder m = .ok fs) (f : Smooth d) :
    applyComposite fs f = dpow m.data f ∧ applyForward fs f = dpow m.data f := by
  have hc : applyComposite fs f = dpow m.data f := by
    unfold factorizeFirstOrder at h
    simp only at h
    split_ifs at h
    rw [← Except.ok.inj h, applyComposite_eq, List.map_flatMap]
    rw [← prod_range_dpow m hm hs]
    congr 1
    generalize List.range m.data.length = l
    induction l with
    | nil => rfl
    | cons p l ih =>
      rw [List.flatMap_cons, List.prod_append, ih, List.map_cons, List.prod_cons, List.map_replicate, List.prod_replicate]
  exact ⟨hc, by rw [forward_eq_composite, hc]⟩

lemma fromPos_order (p : ℕ) (shape : Shp) (k : ℕ) (hp : p < shape.prod) : (MI.fromPos p shape k).order = k := by
  unfold MI.fromPos MI.order
  simp only
  rw [List.set_eq_take_append_cons_drop]
  simp [hp]

theorem factorizeFirstOrder_orders (m : MI) (hm : m.data.length = m.shape.prod) {fs : List MI}
    (h : factorizeFirstOrder m = .ok fs) : (∀ g ∈ fs, g.order = 1 ∧ g.shape = m.shape) ∧ fs.length = m.order ∧
      (fs.map MI.order).sum = m.order := by
  unfold factorizeFirstOrder at h
  simp only at h
  split_ifs at h
  have hfs := Except.ok.inj h
  have h1 : ∀ g ∈ fs, g.order = 1 ∧ g.shape = m.shape := by
    intro g hg
    rw [← hfs] at hg
    obtain ⟨p, hp, hg⟩ := List.mem_flatMap.mp hg
    rw [List.mem_range] at hp
    rw [List.eq_of_mem_replicate hg]
    exact ⟨fromPos_order p _ 1 (by omega), rfl⟩
  have h2 : fs.length = m.order := by
    rw [← hfs, List.length_flatMap]
    simp only [List.length_replicate]
    rw [sum_flat_range]; rfl
  refine ⟨h1, h2, ?_⟩
  have : fs.map MI.order = List.replicate fs.length 1 := by
    rw [List.eq_replicate_iff]
    refine ⟨by simp, ?_⟩
    intro b hb
    obtain ⟨g, hg, rfl⟩ := List.mem_map.mp hb
    exact (h1 g hg).1
  rw [this, List.sum_replicate, h2]; simp

lemma prod_filter_one {M : Type*} [Monoid M] (g : ℕ → M) (q : ℕ → Bool) (hq : ∀ p, q p = false → g p = 1) :
    ∀ l : List ℕ, ((l.filter q).map g).prod = (l.map g).prod
  | [] => rfl
  | p :: l => by
    by_cases h : q p
    · rw [List.filter_cons_of_pos h, List.map_cons, List.map_cons, List.prod_cons, List.prod_cons, prod_filter_one g q hq l]
    · rw [List.filter_cons_of_neg h, List.map_cons, List.prod_cons, prod_filter_one g q hq l, hq p (by simpa using h), one_mul]

/-- **C33** composing the per-dimension factors of `∂^α`, in either order of application, is `∂^α`. -/
theorem factorizeDimwise_spec (m : MI) (hm : m.data.length = d) (hs : m.shape.prod = d) {fs : List MI}
    (h : factorizeDimwise m = .ok fs) (f : Smooth d) :
    applyComposite fs f = dpow m.data f ∧ applyForward fs f = dpow m.data f := by
  have hc : applyComposite fs f = dpow m.data f := by
    unfold factorizeDimwise at h
    simp only at h
    split_ifs at h
    rw [← Except.ok.inj h, applyComposite_eq, List.map_map]
    congr 1
    have e : ∀ i : Fin d, dpow (d := d) (MI.fromPos i.1 m.shape (m.data.getD i.1 0)).data = (pd i : Module.End ℝ (Smooth d)) ^ m.data.getD i.1 0 :=
      fun i => dpow_fromPos i m.shape hs _
    have z : ∀ p, (decide (0 < m.data.getD p 0)) = false → dpow (d := d) (MI.fromPos p m.shape (m.data.getD p 0)).data = 1 := by
      intro p hp
      have hp0 : m.data.getD p 0 = 0 := by simpa using hp
      rw [hp0]
      unfold dpow MI.fromPos
      rw [List.prod_eq_one]
      intro x hx
      obtain ⟨i, -, rfl⟩ := List.mem_map.mp hx
      have : ((List.replicate m.shape.prod 0).set p 0).getD i.1 0 = 0 := by
        rw [List.getD_eq_getElem?_getD, List.getElem?_set, List.getElem?_replicate]
        split_ifs <;> simp
      simp only [this, pow_zero]
    have := prod_filter_one (fun p => dpow (d := d) (MI.fromPos p m.shape (m.data.getD p 0)).data) _ z (List.range m.data.length)
    refine Eq.trans this ?_
    rw [hm, ← List.map_coe_finRange_eq_range, List.map_map]
    conv_rhs => rw [dpow]
    congr 1
    apply List.map_congr_left
    intro i _
    exact e i
  exact ⟨hc, by rw [forward_eq_composite, hc]⟩

theorem factorizeDimwise_orders (m : MI) (hm : m.data.length = m.shape.prod) {fs : List MI}
    (h : factorizeDimwise m = .ok fs) : (∀ g ∈ fs, g.isMixed = false ∧ 0 < g.order ∧ g.shape = m.shape) ∧
      (fs.map MI.order).sum = m.order := by
  unfold factorizeDimwise at h
  simp only at h
  split_ifs at h
  have hfs := Except.ok.inj h
  constructor
  · intro g hg
    rw [← hfs] at hg
    obtain ⟨p, hp, rfl⟩ := List.mem_map.mp hg
    obtain ⟨hp1, hp2⟩ := List.mem_filter.mp hp
    rw [List.mem_range] at hp1
    have hp2 : 0 < m.data.getD p 0 := by simpa using hp2
    refine ⟨?_, by rw [fromPos_order p _ _ (by omega)]; exact hp2, rfl⟩
    unfold MI.isMixed MI.fromPos
    simp only [decide_eq_false_iff_not, not_lt]
    rw [List.set_eq_take_append_cons_drop]
    have hlt : p < (List.replicate m.shape.prod 0).length := by simp; omega
    rw [if_pos hlt, List.filter_append, List.filter_cons]
    simp only [List.take_replicate, List.drop_replicate, List.filter_replicate]
    simp
    split_ifs <;> simp
  · rw [← hfs, List.map_map]
    have e : ∀ l : List ℕ, (∀ p ∈ l, p < m.shape.prod) → (((l.filter fun p => decide (0 < m.data.getD p 0)).map
        (MI.order ∘ fun p => MI.fromPos p m.shape (m.data.getD p 0))).sum) = (l.map fun p => m.data.getD p 0).sum := by
      intro l
      induction l with
      | nil => intro _; rfl
      | cons p l ih =>
        intro hl
        have ih := ih fun q hq => hl q (List.mem_cons_of_mem _ hq)
        by_cases hp : 0 < m.data.getD p 0
        · rw [List.filter_cons_of_pos (by simpa using hp), List.map_cons, List.sum_cons, ih, List.map_cons, List.sum_cons]
          simp only [Function.comp_apply]
          rw [fromPos_order p _ _ (hl p List.mem_cons_self)]
        · rw [List.filter_cons_of_neg (by simpa using hp), ih, List.map_cons, List.sum_cons]
          omega
    rw [e _ fun p hp => by rw [List.mem_range] at hp; omega, sum_flat_range]
    rfl

/-- **C33** factorisation fails exactly for the derivative of order zero (an empty composition raises). -/
theorem factorize_error_iff (m : MI) : (factorizeFirstOrder m = .error .indexError ↔ m.order = 0) ∧
    (factorizeDimwise m = .error .indexError ↔ m.order = 0) := by
  have key : m.order = 0 ↔ ∀ p, p < m.data.length → m.data.getD p 0 = 0 := by
    unfold MI.order
    rw [List.sum_eq_zero_iff]
    constructor
    · intro h p hp
      have := h (m.data[p]) (List.getElem_mem hp)
      simpa [List.getD_eq_getElem?_getD, hp] using this
    · intro h x hx
      obtain ⟨p, hp, rfl⟩ := List.getElem_of_mem hx
      simpa [List.getD_eq_getElem?_getD, hp] using h p hp
  rw [key]
  unfold factorizeFirstOrder factorizeDimwise
  simp only
  constructor
  · rw [ite_eq_left_iff]
    simp only [reduceCtorEq, imp_false, not_not, List.isEmpty_iff, List.flatMap_eq_nil_iff, List.mem_range,
      List.replicate_eq_nil_iff]
  · rw [ite_eq_left_iff]
    simp only [reduceCtorEq, imp_false, not_not, List.isEmpty_iff, List.map_eq_nil_iff, List.filter_eq_nil_iff,
      List.mem_range, decide_eq_true_eq, not_lt, Nat.le_zero]

/-! ## C34: equality of multi-indices -/

/-- **C34 (violated)** the comparison is not transitive across shapes: `[1,1] == 1`, `1 == [1,1,1]`, but
`[1,1]` and `[1,1,1]` do not compare equal. -/
theorem eq_not_transitive_violated : ∃ a b c : MI, a.eq b = some true ∧ b.eq c = some true ∧ a.eq c ≠ some true :=
  ⟨⟨[2], [1, 1]⟩, ⟨[], [1]⟩, ⟨[3], [1, 1, 1]⟩, by decide, by decide, by decide⟩

/-- **C34 (violated)** multi-indices that compare equal can have different hashes. -/
theorem eq_hash_violated : ∃ a b : MI, a.eq b = some true ∧ a.hashInput ≠ b.hashInput :=
  ⟨⟨[], [0]⟩, ⟨[2], [0, 0]⟩, by decide, by decide⟩

lemma bcastRev_self : ∀ s : Shp, bcastRev s s = some s
  | [] => rfl
  | a :: s => by simp [bcastRev, bcastRev_self s]

lemma bcast_self (s : Shp) : bcast s s = some s := by simp [bcast, bcastRev_self]

lemma clamp_fits : ∀ (s : Shp) (i : List ℕ), Fits s i → List.zipWith (fun n i => if n = 1 then 0 else i) s i = i
  | [], [], _ => rfl
  | n :: s, i :: is, h => by
    obtain ⟨h1, h2⟩ := h
    rw [List.zipWith_cons_cons, clamp_fits s is h2]
    congr 1
    split_ifs with hn <;> omega
  | [], _ :: _, h => by simp [Fits] at h
  | _ :: _, [], h => by simp [Fits] at h

lemma bget_self (a : MI) (p : ℕ) (hp : p < a.shape.prod) : a.bget (unravel a.shape p) = a.data.getD p 0 := by
  have hf := fits_unravel hp
  have hl : (unravel a.shape p).length = a.shape.length := by
    have : ∀ (s : Shp) (i : List ℕ), Fits s i → i.length = s.length := by
      intro s
      induction s with
      | nil => intro i h; cases i <;> simp_all [Fits]
      | cons n s ih => intro i h; cases i with
        | nil => simp [Fits] at h
        | cons j i => simp [ih i h.2]
    exact this _ _ hf
  unfold MI.bget
  simp only [hl, Nat.sub_self, List.drop_zero]
  rw [clamp_fits _ _ hf, ravel_unravel hp]

/-- **C34 (partial)** on multi-indices of one shape (the only ones a table accepts) the comparison is equality of the
arrays, hence an equivalence relation, and equal multi-indices have equal hashes.  Missing: different shapes, where
the claim is false (`eq_not_transitive_violated`, `eq_hash_violated`). -/
theorem eq_same_shape_partial (a b : MI) (h : a.shape = b.shape) (ha : a.data.length = a.shape.prod)
    (hb : b.data.length = b.shape.prod) : a.eq b = some (decide (a = b)) := by
  unfold MI.eq
  rw [← h, bcast_self]
  simp only [Option.some.injEq]
  rw [Bool.eq_iff_iff, List.all_eq_true, decide_eq_true_eq]
  constructor
  · intro hall
    have : a.data = b.data := by
      apply List.ext_getElem
      · rw [ha, hb, h]
      · intro p h1 h2
        have := hall p (List.mem_range.mpr (by omega))
        rw [beq_iff_eq, bget_self a p (by omega)] at this
        rw [h, bget_self b p (by omega)] at this
        simpa [List.getD_eq_getElem?_getD, h1, h2] using this
    cases a; cases b; simp_all
  · rintro rfl p _
    simp

theorem eq_same_shape_hash_partial (a b : MI) (h : a.shape = b.shape) (ha : a.data.length = a.shape.prod)
    (hb : b.data.length = b.shape.prod) (he : a.eq b = some true) : a.hashInput = b.hashInput := by
  rw [eq_same_shape_partial a b h ha hb, Option.some.injEq, decide_eq_true_eq] at he
  rw [he]

/-- Negative orders are refused, everything else is accepted unchanged. -/
theorem mi_mk'_spec (shape : Shp) (data : List ℤ) :
    ((∃ x ∈ data, x < 0) → MI.mk' shape data = .error .valueError) ∧
      ∀ nat : List ℕ, data = nat.map Int.ofNat → MI.mk' shape data = .ok ⟨shape, nat⟩ := by
  unfold MI.mk'
  constructor
  · rintro ⟨x, hx, h⟩
    rw [if_pos]
    rw [List.any_eq_true]
    exact ⟨x, hx, by simpa using h⟩
  · rintro nat rfl
    rw [if_neg]
    · rw [List.map_map]
      have : (Int.toNat ∘ Int.ofNat) = id := by ext x; rfl
      rw [this, List.map_id]
    · simp

/-! ## Non-vacuity -/

/-- Two tables on `ℝ²`. -/
noncomputable def exLaplace : Table := ⟨[([], [(⟨[2], [2, 0]⟩, 1), (⟨[2], [0, 2]⟩, 1)])], [2], []⟩
noncomputable def exDxx : Table := ⟨[([], [(⟨[2], [1, 1]⟩, 3), (⟨[2], [2, 0]⟩, 4)])], [2], []⟩

lemma exLaplace_wf : exLaplace.WF :=
  ⟨by decide, by intro kv h; simp only [exLaplace, List.mem_singleton] at h; subst h; decide,
    by intro kv h; simp only [exLaplace, List.mem_singleton] at h; subst h; decide,
    by intro kv h; simp only [exLaplace, List.mem_singleton] at h; subst h; simp [exLaplace]⟩

lemma exDxx_wf : exDxx.WF :=
  ⟨by decide, by intro kv h; simp only [exDxx, List.mem_singleton] at h; subst h; decide,
    by intro kv h; simp only [exDxx, List.mem_singleton] at h; subst h; decide,
    by intro kv h; simp only [exDxx, List.mem_singleton] at h; subst h; simp [exDxx]⟩

/-- The sum has three entries, the shared one with coefficient `1 + 4`. -/
example : ∃ r, exLaplace.add exDxx = .ok r ∧ r.numEntries = 3 ∧ r.coef [] ⟨[2], [2, 0]⟩ = 5 := by
  obtain ⟨r, hr⟩ := (add_isOk_iff _ _ exLaplace_wf exDxx_wf).mpr ⟨rfl, rfl⟩
  refine ⟨r, hr, ?_, ?_⟩
  · rw [add_numEntries exLaplace_wf exDxx_wf hr]
    have h1 : exLaplace.keys = [([], ⟨[2], [2, 0]⟩), ([], ⟨[2], [0, 2]⟩)] := rfl
    have h2 : exDxx.keys = [([], ⟨[2], [1, 1]⟩), ([], ⟨[2], [2, 0]⟩)] := rfl
    rw [h1, h2]; decide
  · rw [add_coef hr]
    simp [Table.coef, Table.apply, rowApply, exLaplace, exDxx]
    norm_num

example : ∃ r, exLaplace.sub exDxx = .ok r := ((sub_spec (V := ℝ) _ _ exLaplace_wf exDxx_wf).1).mpr ⟨rfl, rfl⟩

/-- `∂_0² ∂_1` factorises. -/
example : factorizeFirstOrder ⟨[2], [2, 1]⟩ = .ok [⟨[2], [1, 0]⟩, ⟨[2], [1, 0]⟩, ⟨[2], [0, 1]⟩] ∧
    factorizeDimwise ⟨[2], [2, 1]⟩ = .ok [⟨[2], [2, 0]⟩, ⟨[2], [0, 1]⟩] := ⟨rfl, rfl⟩

example : (⟨[2], [1, 2]⟩ : MI).eq ⟨[2], [1, 2]⟩ = some true ∧ (⟨[2], [1, 2]⟩ : MI).eq ⟨[2], [2, 1]⟩ = some false := by decide

end LinPDE.Coeff
