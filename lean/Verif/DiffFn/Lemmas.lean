import Verif.DiffFn.Spec

/-!
# Lemmas on differential operators on functions
-/

namespace LinPDE.DiffFn
open LinPDE.Nd LinPDE.Coeff LinPDE.Calc

variable {d : ℕ}

/-! ### Sums -/

lemma valAll_append (fs gs : List (SF d)) : valAll (fs ++ gs) = valAll fs ++ valAll gs := by
  induction fs with
  | nil => simp [valAll]
  | cons f fs ih => simp [valAll, ih]

lemma valAll_eq (fs : List (SF d)) : valAll fs = fs.map SF.val := by
  induction fs with
  | nil => simp [valAll]
  | cons f fs ih => simp [valAll, ih]

lemma expand_val (p : ℕ) (fs : List (SF d)) : ((expand fs).map fun g => g.val p).sum = (fs.map fun g => g.val p).sum := by
  induction fs with
  | nil => simp [expand]
  | cons f fs ih =>
    cases f <;> simp only [expand, List.map_cons, List.sum_cons, List.map_append, List.sum_append, ih]
    rw [SF.val, valAll_eq]
    beta_reduce
    rw [List.map_map]
    rfl

lemma wfAll_append (s : Shp × Shp) (fs gs : List (SF d)) : wfAll s (fs ++ gs) ↔ wfAll s fs ∧ wfAll s gs := by
  induction fs with
  | nil => simp [wfAll]
  | cons f fs ih => simp [wfAll, ih, and_assoc]

lemma wfAll_iff (s : Shp × Shp) (fs : List (SF d)) : wfAll s fs ↔ ∀ f ∈ fs, f.sh = s ∧ f.WF := by
  induction fs with
  | nil => simp [wfAll]
  | cons f fs ih => simp [wfAll, ih, and_assoc]

lemma constFreeAll_iff (fs : List (SF d)) : constFreeAll fs ↔ ∀ f ∈ fs, ConstFree f := by
  induction fs with
  | nil => simp [constFreeAll]
  | cons f fs ih => simp [constFreeAll, ih]

lemma expand_wf (s : Shp × Shp) (fs : List (SF d)) (h : ∀ f ∈ fs, f.sh = s ∧ f.WF) : wfAll s (expand fs) := by
  induction fs with
  | nil => simp [expand, wfAll]
  | cons f fs ih =>
    have ih' := ih fun g hg => h g (List.mem_cons_of_mem _ hg)
    have hf := h f List.mem_cons_self
    cases f with
    | sum i o gs =>
      rw [expand, wfAll_append]
      refine ⟨?_, ih'⟩
      have := hf.2
      rw [SF.WF] at this
      have hs : (i, o) = s := hf.1
      rw [← hs]
      exact this.2
    | _ => rw [expand, wfAll]; exact ⟨hf.1, hf.2, ih'⟩; all_goals nofun

lemma expand_ne (fs : List (SF d)) (h0 : fs ≠ []) (h : ∀ f ∈ fs, f.WF) : expand fs ≠ [] := by
  cases fs with
  | nil => exact absurd rfl h0
  | cons f fs =>
    have hf := h f List.mem_cons_self
    cases f with
    | sum i o gs =>
      rw [SF.WF] at hf
      rw [expand]
      simp [hf.1]
    | _ => rw [expand]; simp; all_goals nofun

lemma mkSum_ok {fs : List (SF d)} {g : SF d} {s : Shp × Shp} (hs : ∀ f ∈ fs, f.sh = s ∧ f.WF) (h : mkSum fs = .ok g) :
    g.sh = s ∧ g.WF ∧ ∀ p, g.val p = (fs.map fun f => f.val p).sum := by
  cases fs with
  | nil => cases h
  | cons f fs =>
    rw [mkSum] at h
    split_ifs at h
    injection h with h
    subst h
    have hf := (hs f List.mem_cons_self).1
    refine ⟨by rw [SF.sh]; exact hf, ?_, fun p => ?_⟩
    · rw [SF.WF]
      refine ⟨expand_ne _ (by simp) fun g hg => (hs g hg).2, ?_⟩
      rw [show (f.sh.1, f.sh.2) = s from hf]
      exact expand_wf s _ hs
    · rw [SF.val, valAll_eq]
      beta_reduce
      rw [List.map_map]
      exact expand_val p _

lemma mkSum_isOk {fs : List (SF d)} {s : Shp × Shp} (h0 : fs ≠ []) (hs : ∀ f ∈ fs, f.sh = s) :
    mkSum fs = .ok (.sum s.1 s.2 (expand fs)) := by
  cases fs with
  | nil => exact absurd rfl h0
  | cons f fs =>
    have hf := hs f List.mem_cons_self
    rw [mkSum, if_pos, hf]
    rw [List.all_eq_true]
    intro g hg
    rw [beq_iff_eq, hs g hg, hf]

/-! ### Sums and multiples of functions -/

lemma constS_add (a b : ℝ) : (constS (a + b) : Smooth d) = constS a + constS b := rfl

lemma constS_smul (a b : ℝ) : (constS (a * b) : Smooth d) = a • constS b := rfl

lemma constS_zero : (constS 0 : Smooth d) = 0 := rfl

lemma addZero_ok {f g : SF d} {i o : Shp} (h : addZero f i o = .ok g) : g = f := by
  unfold addZero at h
  split_ifs at h
  injection h with h
  exact h.symm

lemma constAdd_ok {i s i' t : Shp} {v w : ℕ → ℝ} {g : SF d} (h : constAdd i s v i' t w = .ok g) :
    g = .const i s fun p => v p + w p := by
  unfold constAdd at h
  split_ifs at h
  injection h with h
  exact h.symm

lemma mkSum_pair {f g h : SF d} {s : Shp × Shp} (hf : f.sh = s ∧ f.WF) (hg : g.sh = s ∧ g.WF) (hh : mkSum [f, g] = .ok h) :
    h.sh = s ∧ h.WF ∧ ∀ p, h.val p = f.val p + g.val p := by
  obtain ⟨h1, h2, h3⟩ := mkSum_ok (s := s) (by simp [hf, hg]) hh
  exact ⟨h1, h2, fun p => by rw [h3]; simp⟩

lemma add_ok {f g h : SF d} {s : Shp × Shp} (hf : f.sh = s ∧ f.WF) (hg : g.sh = s ∧ g.WF) (hh : f.add g = .ok h) :
    h.sh = s ∧ h.WF ∧ ∀ p, h.val p = f.val p + g.val p := by
  unfold SF.add at hh
  split at hh
  · rw [addZero_ok hh]
    exact ⟨hf.1, hf.2, fun p => by simp [SF.val]⟩
  · rw [constAdd_ok hh]
    exact ⟨hf.1, by simp [SF.WF], fun p => by simp only [SF.val]; rfl⟩
  · rw [constAdd_ok hh]
    exact ⟨hf.1, by simp [SF.WF], fun p => by simp only [SF.val, zero_add]⟩
  · exact mkSum_pair hf hg hh

lemma smul_sh (c : ℝ) (f : SF d) : (f.smul c).sh = f.sh := by
  unfold SF.smul
  split <;> rfl

lemma smul_wf (c : ℝ) (f : SF d) : (f.smul c).WF := by
  unfold SF.smul
  split <;> simp [SF.WF]

lemma smul_val (c : ℝ) (f : SF d) (p : ℕ) : (f.smul c).val p = c • f.val p := by
  unfold SF.smul
  split
  · simp only [SF.val, smul_smul]
  · simp only [SF.val]; rfl
  · simp only [SF.val, smul_zero]
  · simp only [SF.val]

/-- A reduction of functions of the same shapes. -/
lemma reduceG_ok {α : Type} {F : α → Except Err (SF d)} {D : α → Smooth d} {s : Shp × Shp} :
    ∀ {as : List α} {h : SF d},
    (∀ a ∈ as, ∀ x, F a = .ok x → x.sh = s ∧ x.WF ∧ x.val 0 = D a) → reduceG F as = .ok h →
    h.sh = s ∧ h.WF ∧ h.val 0 = (as.map D).sum := by
  intro as h hF hr
  cases as with
  | nil => cases hr
  | cons a as =>
    rw [reduceG] at hr
    cases ha : F a with
    | error e => rw [ha] at hr; cases hr
    | ok x =>
      rw [ha] at hr
      simp only [bind, Except.bind] at hr
      have hx := hF a List.mem_cons_self x ha
      have key : ∀ (bs : List α) (y : SF d), (∀ b ∈ bs, ∀ x, F b = .ok x → x.sh = s ∧ x.WF ∧ x.val 0 = D b) → y.sh = s → y.WF →
          List.foldlM (fun acc b => do
            let z ← F b
            acc.add z) y bs = .ok h → h.sh = s ∧ h.WF ∧ h.val 0 = y.val 0 + (bs.map D).sum := by
        intro bs
        induction bs with
        | nil =>
          intro y _ hy hw hh
          rw [List.foldlM_nil] at hh
          injection hh with hh
          subst hh
          exact ⟨hy, hw, by simp⟩
        | cons b bs ih =>
          intro y hb hy hw hh
          rw [List.foldlM_cons] at hh
          cases hFb : F b with
          | error e => rw [hFb] at hh; cases hh
          | ok z =>
            rw [hFb] at hh
            simp only [bind, Except.bind] at hh
            have hz := hb b List.mem_cons_self z hFb
            cases hadd : y.add z with
            | error e => rw [hadd] at hh; cases hh
            | ok w =>
              rw [hadd] at hh
              obtain ⟨h1, h2, h3⟩ := add_ok ⟨hy, hw⟩ ⟨hz.1, hz.2.1⟩ hadd
              obtain ⟨k1, k2, k3⟩ := ih w (fun c hc => hb c (List.mem_cons_of_mem _ hc)) h1 h2 hh
              exact ⟨k1, k2, by rw [k3, h3, hz.2.2, List.map_cons, List.sum_cons, add_assoc]⟩
      obtain ⟨k1, k2, k3⟩ := key as x (fun b hb => hF b (List.mem_cons_of_mem _ hb)) hx.1 hx.2.1 hr
      exact ⟨k1, k2, by rw [k3, hx.2.2]; simp⟩

lemma mapE_ok {α β ε : Type} {f : α → Except ε β} : ∀ {as : List α} {bs : List β}, mapE f as = .ok bs →
    List.Forall₂ (fun a b => f a = .ok b) as bs
  | [], bs, h => by rw [mapE] at h; injection h with h; subst h; exact .nil
  | a :: as, bs, h => by
    rw [mapE] at h
    cases ha : f a with
    | error e => rw [ha] at h; cases h
    | ok b =>
      rw [ha] at h
      cases hr : mapE f as with
      | error e => simp only [hr, bind, Except.bind] at h; cases h
      | ok cs =>
        simp only [hr, bind, Except.bind] at h
        injection h with h
        subst h
        exact .cons ha (mapE_ok hr)

/-! ### Expansion of operators -/

lemma innerSums_ok : ∀ {dd : List (List ℤ × Row)} {ss : List (List Summand)}, innerSums dd = .ok ss →
    ss = dd.map fun kv => kv.2.map fun mc => ⟨mc.2, mc.1, kv.1⟩
  | [], ss, h => by rw [innerSums] at h; injection h with h; subst h; rfl
  | kv :: dd, ss, h => by
    rw [innerSums] at h
    unfold innerSum Coeff.mkSum at h
    split_ifs at h with h1
    · cases h
    · cases hr : innerSums dd with
      | error e => simp only [hr, bind, Except.bind] at h; cases h
      | ok r =>
        simp only [hr, bind, Except.bind] at h
        injection h with h
        rw [← h, innerSums_ok hr]
        rfl

lemma toSum_ok {L : DiffOp} {ss : List (List Summand)} (h : L.toSum = .ok ss) :
    ss = L.coeffs.dict.map fun kv => kv.2.map fun mc => ⟨mc.2, mc.1, kv.1⟩ := by
  unfold DiffOp.toSum at h
  cases hr : innerSums L.coeffs.dict with
  | error e => rw [hr] at h; cases h
  | ok r =>
    rw [hr] at h
    have h' : Coeff.mkSum r = .ok ss := h
    unfold Coeff.mkSum at h'
    split_ifs at h'
    injection h' with h'
    rw [← h', innerSums_ok hr]

/-- The expansion applied to a function: the sum of the summands' values. -/
lemma applySum_ok {L : DiffOp} {F : Summand → Except Err (SF d)} {D : List ℤ → MI → Smooth d} {s : Shp × Shp} {h : SF d}
    (hF : ∀ kv ∈ L.coeffs.dict, ∀ mc ∈ kv.2, ∀ x, F ⟨mc.2, mc.1, kv.1⟩ = .ok x →
      x.sh = s ∧ x.WF ∧ x.val 0 = mc.2 • D kv.1 mc.1)
    (hr : applySum F L = .ok h) : h.sh = s ∧ h.WF ∧ h.val 0 = L.coeffs.apply D := by
  unfold applySum at hr
  cases ht : L.toSum with
  | error e => rw [ht] at hr; cases hr
  | ok ss =>
    rw [ht] at hr
    have hss := toSum_ok ht
    dsimp only at hr
    have := reduceG_ok (D := fun us : List Summand => (us.map fun u => u.coef • D u.out u.mi).sum) (s := s) (by
      intro us hus x hx
      rw [hss] at hus
      obtain ⟨kv, hkv, rfl⟩ := List.mem_map.mp hus
      refine reduceG_ok (D := fun u : Summand => u.coef • D u.out u.mi) ?_ hx
      intro u hu y hy
      obtain ⟨mc, hmc, rfl⟩ := List.mem_map.mp hu
      exact hF kv hkv mc hmc y hy) hr
    refine ⟨this.1, this.2.1, ?_⟩
    rw [this.2.2, hss]
    simp only [Table.apply, rowApply, List.map_map, Function.comp_def]

/-! ### Derivatives -/

lemma order_zero_getD {m : MI} (h : m.order = 0) (i : ℕ) : m.data.getD i 0 = 0 := by
  rw [List.getD_eq_getElem?_getD]
  cases hi : m.data[i]? with
  | none => rfl
  | some a =>
    have ha : a ∈ m.data := List.mem_of_getElem? hi
    have := List.sum_eq_zero_iff.mp h a ha
    simpa using this

lemma dpow_order_zero {m : MI} (h : m.order = 0) (f : Smooth d) : dpow m.data f = f := by
  unfold dpow
  simp only [order_zero_getD h, pow_zero, List.map_const', List.prod_replicate, one_pow]
  rfl

lemma pd_constS (i : Fin d) (c : ℝ) : pd i (constS c) = 0 := by
  apply Subtype.ext
  funext x
  rw [pd_apply]
  show fderiv ℝ (fun _ => c) x (e i) = 0
  simp

lemma pow_pd_constS (i : Fin d) (k : ℕ) (hk : k ≠ 0) (c : ℝ) : ((pd i : Module.End ℝ (Smooth d)) ^ k) (constS c) = 0 := by
  obtain ⟨j, rfl⟩ := Nat.exists_eq_succ_of_ne_zero hk
  rw [pow_succ]
  show ((pd i : Module.End ℝ (Smooth d)) ^ j) (pd i (constS c)) = 0
  rw [pd_constS, map_zero]

/-- Derivatives of positive order of constants vanish. -/
lemma dpow_constS {m : MI} (hm : m.data.length = d) (h : m.order ≠ 0) (c : ℝ) : dpow m.data (constS c : Smooth d) = 0 := by
  unfold dpow
  have hex : ∃ i : Fin d, m.data.getD i.1 0 ≠ 0 := by
    by_contra hcon
    push Not at hcon
    apply h
    rw [MI.order, List.sum_eq_zero_iff]
    intro a ha
    obtain ⟨i, hi, rfl⟩ := List.mem_iff_getElem.mp ha
    have := hcon ⟨i, by omega⟩
    rw [List.getD_eq_getElem?_getD, List.getElem?_eq_getElem hi] at this
    simpa using this
  obtain ⟨i, hi⟩ := hex
  have key : ∀ l : List (Fin d), i ∈ l →
      ((l.map fun j => (pd j : Module.End ℝ (Smooth d)) ^ m.data.getD j.1 0).prod) (constS c) = 0 := by
    intro l
    induction l with
    | nil => intro h; cases h
    | cons j l ih =>
      intro hj
      rw [List.map_cons, List.prod_cons]
      show ((pd j : Module.End ℝ (Smooth d)) ^ m.data.getD j.1 0) _ = 0
      by_cases hl : i ∈ l
      · rw [ih hl, map_zero]
      · have hij : i = j := by
          rcases List.mem_cons.mp hj with h | h
          · exact h
          · exact absurd h hl
        subst hij
        have hid : ∀ l' : List (Fin d), ((l'.map fun j => (pd j : Module.End ℝ (Smooth d)) ^ m.data.getD j.1 0).prod) (constS c) = 0 ∨
            ((l'.map fun j => (pd j : Module.End ℝ (Smooth d)) ^ m.data.getD j.1 0).prod) (constS c) = constS c := by
          intro l'
          induction l' with
          | nil => right; rfl
          | cons k l' ih' =>
            rw [List.map_cons, List.prod_cons]
            rcases ih' with h0 | h1
            · left
              show ((pd k : Module.End ℝ (Smooth d)) ^ m.data.getD k.1 0) _ = 0
              rw [h0, map_zero]
            · by_cases hk : m.data.getD k.1 0 = 0
              · right
                rw [hk, pow_zero, one_mul]
                exact h1
              · left
                show ((pd k : Module.End ℝ (Smooth d)) ^ m.data.getD k.1 0) _ = 0
                rw [h1]
                exact pow_pd_constS k _ hk c
        rcases hid l with h0 | h1
        · rw [h0, map_zero]
        · rw [h1]
          exact pow_pd_constS i _ hi c
  exact key _ (List.mem_finRange i)

lemma jvpLoop_eq {m : MI} (hm : m.data.length = d) (hs : m.shape.prod = d) (g : Smooth d) : jvpLoop m g = dpow m.data g := by
  unfold jvpLoop
  cases h : factorizeFirstOrder m with
  | ok fs => exact (factorizeFirstOrder_spec m hm hs h g).2
  | error e =>
    have he : factorizeFirstOrder m = .error .indexError := by
      unfold factorizeFirstOrder at h ⊢
      dsimp only at h ⊢
      split_ifs at h ⊢ with hc
      rfl
    exact (dpow_order_zero ((factorize_error_iff m).1.mp he) g).symm

lemma outPos_nil (k : List ℤ) : outPos [] k = 0 := by
  cases k <;> rfl

lemma den_scalar {L : DiffOp} (h : L.codShape = []) (v : ℕ → Smooth d) : den L v = L.coeffs.apply (derivs (v 0)) := by
  unfold den derivs
  simp only [h, outPos_nil]

lemma apply_add (t : Table) (D E : List ℤ → MI → Smooth d) : t.apply (fun k m => D k m + E k m) = t.apply D + t.apply E := by
  simp only [Table.apply, rowApply, smul_add, List.sum_map_add]

lemma apply_zero (t : Table) : t.apply (fun _ _ => (0 : Smooth d)) = 0 := by
  simp [Table.apply, rowApply]

lemma den_add (L : DiffOp) (v w : ℕ → Smooth d) : den L (fun p => v p + w p) = den L v + den L w := by
  unfold den
  simp only [map_add]
  exact apply_add _ _ _

lemma den_zero (L : DiffOp) : den L (fun _ => (0 : Smooth d)) = 0 := by
  unfold den
  simp only [map_zero]
  exact apply_zero _

lemma den_sum (L : DiffOp) : ∀ vs : List (ℕ → Smooth d), den L (fun p => (vs.map fun g => g p).sum) = (vs.map (den L)).sum
  | [] => by simp [den_zero]
  | v :: vs => by
    simp only [List.map_cons, List.sum_cons]
    rw [den_add, den_sum L vs]

lemma den_const {L : DiffOp} (hL : OpWF d L) (h0 : NoZeroOrder L) (v : ℕ → ℝ) : den L (fun p => (constS (v p) : Smooth d)) = 0 := by
  unfold den Table.apply
  apply List.sum_eq_zero
  intro x hx
  obtain ⟨kv, hkv, rfl⟩ := List.mem_map.mp hx
  apply List.sum_eq_zero
  intro y hy
  obtain ⟨mc, hmc, rfl⟩ := List.mem_map.mp hy
  beta_reduce
  rw [dpow_constS (hL.size kv hkv mc hmc) (h0 kv hkv mc hmc), smul_zero]

end LinPDE.DiffFn
