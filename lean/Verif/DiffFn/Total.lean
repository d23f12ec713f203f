import Verif.DiffFn.Props

/-!
# C62: which applications return, and where the results can be evaluated
-/

namespace LinPDE.DiffFn
open LinPDE.Nd LinPDE.Coeff LinPDE.Calc

variable {d : ℕ}

/-! ### Reductions -/

lemma modeAll_iff (fs : List (SF d)) : modeAll fs = .all ↔ ∀ f ∈ fs, f.mode = .all := by
  induction fs with
  | nil => simp [modeAll]
  | cons f fs ih =>
    rw [modeAll]
    cases hf : f.mode <;> cases hm : modeAll fs <;> simp_all [Mode.min]

/-- A function of the given shapes that can be evaluated everywhere and is not a `Constant`. -/
def Proper (s : Shp × Shp) (f : SF d) : Prop := f.sh = s ∧ f.mode = .all ∧ f.isConst = false

lemma expand_mode (fs : List (SF d)) (h : ∀ f ∈ fs, f.mode = .all) : modeAll (expand fs) = .all := by
  rw [modeAll_iff]
  induction fs with
  | nil => simp [expand]
  | cons f fs ih =>
    have ih' := ih fun g hg => h g (List.mem_cons_of_mem _ hg)
    have hf := h f List.mem_cons_self
    cases f with
    | sum i o gs =>
      rw [SF.mode, modeAll_iff] at hf
      rw [expand]
      intro g hg
      rcases List.mem_append.mp hg with hg | hg
      · exact hf g hg
      · exact ih' g hg
    | _ =>
      rw [expand]
      · exact List.forall_mem_cons.mpr ⟨hf, ih'⟩
      all_goals nofun

lemma add_proper {s : Shp × Shp} {f g : SF d} (hf : Proper s f) (hg : Proper s g) : ∃ h, f.add g = .ok h ∧ Proper s h := by
  have hadd : f.add g = mkSum [f, g] := by
    unfold SF.add
    split
    · exact absurd hg.2.2 (by simp [SF.isConst])
    · exact absurd hg.2.2 (by simp [SF.isConst])
    · exact absurd hg.2.2 (by simp [SF.isConst])
    · rfl
  refine ⟨.sum s.1 s.2 (expand [f, g]), ?_, rfl, ?_, rfl⟩
  · rw [hadd]; exact mkSum_isOk (by simp) (by simp [hf.1, hg.1])
  · rw [SF.mode]; exact expand_mode _ (by simp [hf.2.1, hg.2.1])

lemma fold_proper {α : Type} {F : α → Except Err (SF d)} {s : Shp × Shp} : ∀ (as : List α) (y : SF d), Proper s y →
    (∀ a ∈ as, ∃ x, F a = .ok x ∧ Proper s x) →
    ∃ h, List.foldlM (fun acc b => do
      let z ← F b
      acc.add z) y as = .ok h ∧ Proper s h
  | [], y, hy, _ => ⟨y, rfl, hy⟩
  | a :: as, y, hy, h => by
    obtain ⟨x, hx, hp⟩ := h a List.mem_cons_self
    obtain ⟨w, hw, hwp⟩ := add_proper hy hp
    obtain ⟨r, hr, hrp⟩ := fold_proper as w hwp fun b hb => h b (List.mem_cons_of_mem _ hb)
    refine ⟨r, ?_, hrp⟩
    rw [List.foldlM_cons, hx]
    simp only [bind, Except.bind, hw]
    exact hr

lemma reduceG_proper {α : Type} {F : α → Except Err (SF d)} {s : Shp × Shp} {as : List α} (h0 : as ≠ [])
    (h : ∀ a ∈ as, ∃ x, F a = .ok x ∧ Proper s x) : ∃ r, reduceG F as = .ok r ∧ Proper s r := by
  cases as with
  | nil => exact absurd rfl h0
  | cons a as =>
    obtain ⟨x, hx, hp⟩ := h a List.mem_cons_self
    obtain ⟨r, hr, hrp⟩ := fold_proper as x hp fun b hb => h b (List.mem_cons_of_mem _ hb)
    refine ⟨r, ?_, hrp⟩
    rw [reduceG, hx]
    exact hr

lemma fold_error {α : Type} {F : α → Except Err (SF d)} {s : Shp × Shp} {e : Err} : ∀ (as : List α) (y : SF d), Proper s y →
    (∀ a ∈ as, (∃ x, F a = .ok x ∧ Proper s x) ∨ F a = .error e) → (∃ a ∈ as, F a = .error e) →
    List.foldlM (fun acc b => do
      let z ← F b
      acc.add z) y as = .error e
  | [], _, _, _, h => by obtain ⟨a, ha, -⟩ := h; cases ha
  | a :: as, y, hy, h, hex => by
    rw [List.foldlM_cons]
    rcases h a List.mem_cons_self with ⟨x, hx, hp⟩ | he
    · obtain ⟨w, hw, hwp⟩ := add_proper hy hp
      rw [hx]
      simp only [bind, Except.bind, hw]
      refine fold_error as w hwp (fun b hb => h b (List.mem_cons_of_mem _ hb)) ?_
      obtain ⟨b, hb, hbe⟩ := hex
      rcases List.mem_cons.mp hb with rfl | hb
      · rw [hx] at hbe; cases hbe
      · exact ⟨b, hb, hbe⟩
    · rw [he]; rfl

lemma reduceG_error {α : Type} {F : α → Except Err (SF d)} {s : Shp × Shp} {e : Err} {as : List α}
    (h : ∀ a ∈ as, (∃ x, F a = .ok x ∧ Proper s x) ∨ F a = .error e) (hex : ∃ a ∈ as, F a = .error e) :
    reduceG F as = .error e := by
  cases as with
  | nil => obtain ⟨a, ha, -⟩ := hex; cases ha
  | cons a as =>
    rw [reduceG]
    rcases h a List.mem_cons_self with ⟨x, hx, hp⟩ | he
    · rw [hx]
      refine fold_error as x hp (fun b hb => h b (List.mem_cons_of_mem _ hb)) ?_
      obtain ⟨b, hb, hbe⟩ := hex
      rcases List.mem_cons.mp hb with rfl | hb
      · rw [hx] at hbe; cases hbe
      · exact ⟨b, hb, hbe⟩
    · rw [he]; rfl

lemma reduceG_head {α : Type} {F : α → Except Err (SF d)} {a : α} {as : List α} {e : Err} (h : F a = .error e) :
    reduceG F (a :: as) = .error e := by
  rw [reduceG, h]; rfl

lemma reduceG_zero {α : Type} {F : α → Except Err (SF d)} {i o : Shp} {as : List α} (h0 : as ≠ [])
    (h : ∀ a ∈ as, F a = .ok (.zero i o)) : reduceG F as = .ok (.zero i o) := by
  cases as with
  | nil => exact absurd rfl h0
  | cons a as =>
    rw [reduceG, h a List.mem_cons_self]
    have key : ∀ bs : List α, (∀ b ∈ bs, F b = .ok (.zero i o)) → List.foldlM (fun acc b => do
        let z ← F b
        SF.add acc z) (SF.zero i o : SF d) bs = .ok (.zero i o) := by
      intro bs
      induction bs with
      | nil => intro _; rfl
      | cons b bs ih =>
        intro hb
        rw [List.foldlM_cons, hb b List.mem_cons_self]
        have hz : (SF.zero i o : SF d).add (.zero i o) = .ok (.zero i o) := by simp [SF.add, addZero, SF.sh]
        simp only [bind, Except.bind, hz]
        exact ih fun c hc => hb c (List.mem_cons_of_mem _ hc)
    exact key as fun b hb => h b (List.mem_cons_of_mem _ hb)

/-- The operator has a row, and no empty rows. -/
def Rows (L : DiffOp) : Prop := L.coeffs.dict ≠ [] ∧ ∀ kv ∈ L.coeffs.dict, kv.2 ≠ []

lemma toSum_rows {L : DiffOp} (h : Rows L) : L.toSum = .ok (L.coeffs.dict.map fun kv => kv.2.map fun mc => ⟨mc.2, mc.1, kv.1⟩) := by
  obtain ⟨ss, hs, -⟩ := toSum_spec (V := ℝ) L h.1 h.2
  rw [hs, toSum_ok hs]

lemma applySum_proper {L : DiffOp} (hr : Rows L) {F : Summand → Except Err (SF d)} {s : Shp × Shp}
    (h : ∀ kv ∈ L.coeffs.dict, ∀ mc ∈ kv.2, ∃ x, F ⟨mc.2, mc.1, kv.1⟩ = .ok x ∧ Proper s x) :
    ∃ r, applySum F L = .ok r ∧ Proper s r := by
  unfold applySum
  rw [toSum_rows hr]
  dsimp only
  refine reduceG_proper (by simp [hr.1]) ?_
  intro us hus
  obtain ⟨kv, hkv, rfl⟩ := List.mem_map.mp hus
  refine reduceG_proper (by simp [hr.2 kv hkv]) ?_
  intro u hu
  obtain ⟨mc, hmc, rfl⟩ := List.mem_map.mp hu
  exact h kv hkv mc hmc

lemma applySum_zero {L : DiffOp} (hr : Rows L) {F : Summand → Except Err (SF d)} {i o : Shp}
    (h : ∀ kv ∈ L.coeffs.dict, ∀ mc ∈ kv.2, F ⟨mc.2, mc.1, kv.1⟩ = .ok (.zero i o)) :
    applySum F L = .ok (.zero i o) := by
  unfold applySum
  rw [toSum_rows hr]
  dsimp only
  refine reduceG_zero (by simp [hr.1]) ?_
  intro us hus
  obtain ⟨kv, hkv, rfl⟩ := List.mem_map.mp hus
  refine reduceG_zero (by simp [hr.2 kv hkv]) ?_
  intro u hu
  obtain ⟨mc, hmc, rfl⟩ := List.mem_map.mp hu
  exact h kv hkv mc hmc

/-- If every summand raises the same exception, so does the operator. -/
lemma applySum_error {L : DiffOp} (hr : Rows L) {F : Summand → Except Err (SF d)} {e : Err}
    (h : ∀ kv ∈ L.coeffs.dict, ∀ mc ∈ kv.2, F ⟨mc.2, mc.1, kv.1⟩ = .error e) : applySum F L = .error e := by
  unfold applySum
  rw [toSum_rows hr]
  obtain ⟨h0, h1⟩ := hr
  cases hd : L.coeffs.dict with
  | nil => exact absurd hd h0
  | cons kv dd =>
    rw [hd] at h h1
    have hk := h1 kv List.mem_cons_self
    cases hkv : kv.2 with
    | nil => exact absurd hkv hk
    | cons mc row =>
      dsimp only
      rw [List.map_cons]
      apply reduceG_head
      rw [hkv, List.map_cons]
      exact reduceG_head (h kv List.mem_cons_self mc (by rw [hkv]; exact List.mem_cons_self))

/-! ### Applications that return -/

/-- A function without special structure that can be evaluated everywhere: one given by the user, a constant, or the result of an
operator. -/
def Leaf (s : Shp) : SF d → Prop
  | .fn i o _ => i = s ∧ o = []
  | .const i o _ => i = s ∧ o = []
  | .zero i o => i = s ∧ o = []
  | .lam i m _ => i = s ∧ m = .all
  | _ => False

/-- Such a function or a sum of such functions. -/
def Fine (s : Shp) : SF d → Prop
  | .sum i o fs => i = s ∧ o = [] ∧ fs ≠ [] ∧ ∀ f ∈ fs, Leaf s f
  | f => Leaf s f

lemma Leaf.sh {s : Shp} {f : SF d} (h : Leaf s f) : f.sh = (s, []) := by
  cases f <;> simp_all [Leaf, SF.sh]

lemma Leaf.mode {s : Shp} {f : SF d} (h : Leaf s f) : f.mode = .all := by
  cases f <;> simp_all [Leaf, SF.mode]

lemma Leaf.wf {s : Shp} {f : SF d} (h : Leaf s f) : f.WF := by
  cases f <;> simp_all [Leaf, SF.WF]

lemma Leaf.fine {s : Shp} {f : SF d} (h : Leaf s f) : Fine s f := by
  cases f <;> simp_all [Leaf, Fine]

lemma Fine.sh {s : Shp} {f : SF d} (h : Fine s f) : f.sh = (s, []) := by
  cases f <;> simp_all [Leaf, Fine, SF.sh]

lemma Fine.mode {s : Shp} {f : SF d} (h : Fine s f) : f.mode = .all := by
  cases f with
  | sum i o fs => rw [SF.mode, modeAll_iff]; exact fun g hg => (h.2.2.2 g hg).mode
  | _ => simp_all [Leaf, Fine, SF.mode]

lemma Fine.wf {s : Shp} {f : SF d} (h : Fine s f) : f.WF := by
  cases f with
  | sum i o fs =>
    obtain ⟨rfl, rfl, h0, h1⟩ := h
    rw [SF.WF, wfAll_iff]
    exact ⟨h0, fun g hg => ⟨(h1 g hg).sh, (h1 g hg).wf⟩⟩
  | _ => simp [SF.WF]

lemma Fine.cases {s : Shp} {f : SF d} (h : Fine s f) : (∃ fs, f = .sum s [] fs ∧ fs ≠ [] ∧ ∀ g ∈ fs, Leaf s g) ∨ Leaf s f := by
  cases f with
  | sum i o fs => obtain ⟨rfl, rfl, h0, h1⟩ := h; exact .inl ⟨fs, rfl, h0, h1⟩
  | _ => exact .inr h

/-- The classes with their own derivative rule. -/
def Kind.named : Kind → Bool
  | .pdv _ => true
  | .directional _ => true
  | .weighted _ => true
  | .laplace _ => true
  | _ => false

/-- Laplacians on arrays with two or more axes excluded. -/
def Kind.fits (s : Shp) : Kind → Prop
  | .weighted _ => s.length ≤ 1
  | .laplace _ => s.length ≤ 1
  | _ => True

lemma named_cod {L : DOp} (hL : L.WF d) (hk : L.kind.named = true) : L.op.codShape = [] := by
  have hw := hL.kind
  unfold KindWF at hw
  cases hkind : L.kind <;> rw [hkind] at hw hk <;> simp only [Kind.named, Bool.false_eq_true] at hk <;> dsimp only at hw
  · rw [partialDerivative_ok] at hw; rw [← Except.ok.inj hw.2]
  · rw [directionalDerivative, mkScalar _ _ (weightRow_shape _ _ _)] at hw; rw [← Except.ok.inj hw.2]
  · rw [weightedLaplacian_ok] at hw; rw [← Except.ok.inj hw.2]
  · rw [weightedLaplacian_ok] at hw; rw [← Except.ok.inj hw.2]

lemma noJax_skip {m : MI} (h0 : m.order ≠ 0) {f : SF d} (hf : Leaf m.shape f) (hc : f.isConst = false) (n : ℕ) :
    call (n + 1) (noJaxOp m) f = .error .notImplemented := by
  have hs := hf.sh
  have hb : baseCall (call n (noJaxOp m)) (noJaxOp m).op.domShape f = .error .notImplemented := by
    cases f <;> simp_all [Leaf, SF.isConst] <;> rfl
  rw [call, if_neg (by simp [hc]), if_neg (by simp [noJaxOp, Kind.mi?, h0]), callNoJax, hb]
  simp [noJaxOp, Kind.mi?, fallback, hs]

lemma noJax_const {m : MI} {f : SF d} (hf : f.sh = (m.shape, [])) (hc : f.isConst = true) (n : ℕ) :
    call (n + 1) (noJaxOp m) f = .ok (.zero m.shape []) := by
  rw [call, if_pos (by simp [hc, noJaxOp, Kind.constRule])]
  simp [constCall, hf, noJaxOp]

/-- Named operators on functions without structure. -/
lemma named_leaf {L : DOp} (hL : L.WF d) (hk : L.kind.named = true) (hfit : L.kind.fits L.op.domShape) (hr : Rows L.op)
    (h0 : NoZeroOrder L.op) {f : SF d} (hf : Leaf L.op.domShape f) (n : ℕ) :
    ∃ g, call (n + 2) L f = .ok g ∧ Leaf L.op.domShape g := by
  have hcod := named_cod hL hk
  have hs := hf.sh
  by_cases hc : f.isConst = true
  · by_cases hcr : L.kind.constRule = true
    · exact ⟨.zero L.op.domShape [], by rw [call, if_pos (by simp [hc, hcr])]; simp [constCall, hs, hcod], rfl, rfl⟩
    · -- a weighted Laplacian of a constant
      refine ⟨.zero L.op.domShape [], ?_, rfl, rfl⟩
      have hmi : L.kind.mi? = none := by
        cases hkind : L.kind <;> rw [hkind] at hcr <;> simp_all [Kind.constRule, Kind.mi?]
      rw [call, if_neg (by simp [hcr]), if_neg (by simp [hmi]), callNoJax]
      have hcase : (∃ i o v, f = .const i o v) ∨ ∃ i o, f = .zero i o := by
        cases f <;> simp_all [SF.isConst]
      rcases hcase with ⟨i, o, v, rfl⟩ | ⟨i, o, rfl⟩
      · simp only [baseCall, hmi]
        rw [applySum_zero hr]
        intro kv hkv mc hmc
        have hms : mc.1.shape = L.op.domShape := (hL.op.table.dom kv hkv mc hmc).trans hL.op.dom
        have hkn := (key_nil hL.op hkv).mpr hcod
        unfold noJaxSummand
        simp only [hkn, ne_eq, not_true_eq_false, if_false, bind, Except.bind]
        rw [noJax_const (by rw [hs, hms]) hc n, hms]
        rfl
      · simp only [baseCall]
  · have hc' : f.isConst = false := by simpa using hc
    have hb : baseCall (call (n + 1) L) L.op.domShape f = .error .notImplemented := by
      cases f <;> simp_all [Leaf, SF.isConst] <;> rfl
    have hmo : ∀ m, L.kind.mi? = some m → m.order ≠ 0 := by
      intro m hm
      obtain ⟨-, ho⟩ := kind_mi hL hm
      exact h0 ([], [(m, 1)]) (by rw [ho]; simp) (m, 1) (by simp)
    have hno : callNoJax (call (n + 1)) (selectOut L.op.domShape (n + 1)) L f = .error .notImplemented := by
      unfold callNoJax
      rw [hb]
      dsimp only
      cases hm : L.kind.mi? with
      | some m => rfl
      | none =>
        dsimp only
        apply applySum_error hr
        intro kv hkv mc hmc
        have hms : mc.1.shape = L.op.domShape := (hL.op.table.dom kv hkv mc hmc).trans hL.op.dom
        have hkn := (key_nil hL.op hkv).mpr hcod
        unfold noJaxSummand
        simp only [hkn, ne_eq, not_true_eq_false, if_false, bind, Except.bind]
        rw [noJax_skip (h0 kv hkv mc hmc) (by rw [hms]; exact hf) hc' n]
    have hcall : call (n + 2) L f = fallback L f := by
      rw [call, if_neg (by simp [hc']), if_neg, hno]
      cases hm : L.kind.mi? with
      | none => simp
      | some m => simpa using hmo m hm
    rw [hcall]
    unfold fallback
    rw [if_neg (by simp [hs]), if_neg (by simp [hs, hcod])]
    have hder : f.mode.derived = .all := by rw [hf.mode]; rfl
    cases hkind : L.kind <;> rw [hkind] at hk hfit <;> simp only [Kind.named, Bool.false_eq_true] at hk <;> dsimp only
    · exact ⟨_, rfl, rfl, hder⟩
    · exact ⟨_, rfl, rfl, hder⟩
    · exact ⟨_, rfl, rfl, by rw [if_pos (show L.op.domShape.length ≤ 1 from hfit), hder]⟩
    · exact ⟨_, rfl, rfl, by rw [if_pos (show L.op.domShape.length ≤ 1 from hfit), hder]⟩

lemma mapE_isOk {α β ε : Type} {f : α → Except ε β} {P : β → Prop} : ∀ {as : List α}, (∀ a ∈ as, ∃ b, f a = .ok b ∧ P b) →
    ∃ bs, mapE f as = .ok bs ∧ bs.length = as.length ∧ ∀ b ∈ bs, P b
  | [], _ => ⟨[], rfl, rfl, by simp⟩
  | a :: as, h => by
    obtain ⟨b, hb, hp⟩ := h a List.mem_cons_self
    obtain ⟨bs, hbs, hl, hps⟩ := mapE_isOk fun c hc => h c (List.mem_cons_of_mem _ hc)
    refine ⟨b :: bs, ?_, by simp [hl], List.forall_mem_cons.mpr ⟨hp, hps⟩⟩
    rw [mapE, hb, hbs]
    rfl

lemma expand_leaf {s : Shp} : ∀ {fs : List (SF d)}, (∀ f ∈ fs, Leaf s f) → expand fs = fs
  | [], _ => rfl
  | f :: fs, h => by
    have hf := h f List.mem_cons_self
    have ih := expand_leaf fun g hg => h g (List.mem_cons_of_mem _ hg)
    cases f with
    | sum i o gs => exact absurd hf (by simp [Leaf])
    | _ =>
      rw [expand, ih]
      all_goals nofun

/-- C62, totality: partial and directional derivatives and (weighted) Laplacians without terms of order zero and with a non-zero
coefficient, applied to functions, constants, results of operators, and sums of these, return a function of the same kind, which
is the prescribed one and can be evaluated at single points and on batches. -/
theorem named_total {L : DOp} (hL : L.WF d) (hk : L.kind.named = true) (hfit : L.kind.fits L.op.domShape) (hr : Rows L.op)
    (h0 : NoZeroOrder L.op) {f : SF d} (hf : Fine L.op.domShape f) (n : ℕ) :
    ∃ g, call (n + 3) L f = .ok g ∧ Fine L.op.domShape g ∧ g.val 0 = den L.op f.val ∧
      ∀ b x, g.eval b 0 x = .ok ((den L.op f.val).1 x) := by
  have hcod := named_cod hL hk
  have hex : ∃ g, call (n + 3) L f = .ok g ∧ Fine L.op.domShape g := by
    rcases hf.cases with ⟨fs, rfl, hne, hall⟩ | hf
    · obtain ⟨gs, hgs, hlen, hgl⟩ := mapE_isOk (f := call (n + 2) L) fun a ha => named_leaf hL hk hfit hr h0 (hall a ha) n
      have hgne : gs ≠ [] := by
        intro h; rw [h] at hlen; exact hne (List.length_eq_zero_iff.mp hlen.symm)
      refine ⟨.sum L.op.domShape [] gs, ?_, rfl, rfl, hgne, hgl⟩
      have hmo : ∀ m, L.kind.mi? = some m → m.order ≠ 0 := by
        intro m hm
        obtain ⟨-, ho⟩ := kind_mi hL hm
        exact h0 ([], [(m, 1)]) (by rw [ho]; simp) (m, 1) (by simp)
      rw [call, if_neg (by simp [SF.isConst]), if_neg]
      · rw [callNoJax, baseCall, hgs]
        simp only [bind, Except.bind]
        rw [mkSum_isOk hgne fun g hg => (hgl g hg).sh, expand_leaf hgl]
      · cases hm : L.kind.mi? with
        | none => simp
        | some m => simpa using hmo m hm
    · obtain ⟨g, h1, h2⟩ := named_leaf hL hk hfit hr h0 hf (n + 1)
      exact ⟨g, h1, h2.fine⟩
  obtain ⟨g, hg, hgf⟩ := hex
  obtain ⟨-, -, hv⟩ := call_sound_partial (n + 3) L f g hL hf.wf (by rw [hf.sh, hcod]) (.inl h0) hg
  refine ⟨g, hg, hgf, hv, fun b x => ?_⟩
  unfold SF.eval
  rw [hgf.mode, hv]

/-! ### The constructors -/

lemma scalarRow_wf {shape : Shp} {order : ℕ} {w : List ℝ} (ho : order ≠ 0) (hd : shape.prod = d) (hw : w.length = d) :
    OpWF d ⟨⟨[([], weightRow shape order w)], shape, []⟩, shape, []⟩ ∧
      NoZeroOrder ⟨⟨[([], weightRow shape order w)], shape, []⟩, shape, []⟩ := by
  have hmem : ∀ mc ∈ weightRow shape order w, ∃ p < d, mc.1 = MI.fromPos p shape order := by
    intro mc hmc
    obtain ⟨p, hp, rfl⟩ := List.mem_map.mp hmc
    exact ⟨p, by rw [List.mem_filter, List.mem_range] at hp; omega, rfl⟩
  refine ⟨⟨⟨by simp, ?_, by simp [codIdxOK], ?_⟩, rfl, rfl, hd, ?_⟩, ?_⟩
  · intro kv hkv
    simp only [List.mem_singleton] at hkv
    subst hkv
    unfold weightRow
    rw [List.map_map]
    apply List.Nodup.map_on
    · intro p hp q hq hpq
      rw [List.mem_filter, List.mem_range] at hp hq
      exact fromPos_inj ho (by omega) (by omega) hpq
    · exact List.nodup_range.filter _
  · intro kv hkv mc hmc
    simp only [List.mem_singleton] at hkv
    subst hkv
    exact weightRow_shape shape order w mc hmc
  · intro kv hkv mc hmc
    simp only [List.mem_singleton] at hkv
    subst hkv
    obtain ⟨p, -, hm⟩ := hmem mc hmc
    rw [hm]
    simp [MI.fromPos, hd]
  · intro kv hkv mc hmc
    simp only [List.mem_singleton] at hkv
    subst hkv
    obtain ⟨p, hp, hm⟩ := hmem mc hmc
    rw [hm, fromPos_order p shape order (by omega)]
    exact ho

lemma weightRow_ne {shape : Shp} {order : ℕ} {w : List ℝ} (h : ∃ a ∈ w, a ≠ 0) : weightRow shape order w ≠ [] := by
  obtain ⟨a, ha, h0⟩ := h
  obtain ⟨p, hp, rfl⟩ := List.mem_iff_getElem.mp ha
  unfold weightRow
  intro hcon
  rw [List.map_eq_nil_iff, List.filter_eq_nil_iff] at hcon
  have := hcon p (List.mem_range.mpr hp)
  apply this
  rw [List.getD_eq_getElem?_getD, List.getElem?_eq_getElem hp]
  simpa using h0

/-- C62: `PartialDerivative(m)` of order at least one, on every domain shape. -/
theorem partialDerivative_total {m : MI} (hm : m.data.length = d) (hd : m.shape.prod = d) (h0 : m.order ≠ 0) {f : SF d}
    (hf : Fine m.shape f) (n : ℕ) : ∃ L g, partialDerivative m = .ok L ∧ call (n + 3) ⟨.pdv m, L⟩ f = .ok g ∧ Fine m.shape g ∧
      ∀ b x, g.eval b 0 x = .ok ((dpow m.data (f.val 0)).1 x) := by
  have hwf := noJaxOp_wf hm hd
  obtain ⟨g, h1, h2, -, h4⟩ := named_total (L := ⟨.pdv m, (noJaxOp m).op⟩) ⟨hwf.op, hwf.kind⟩ rfl trivial
    ⟨by simp [noJaxOp], by simp [noJaxOp]⟩ (by simp [NoZeroOrder, noJaxOp, h0]) hf n
  exact ⟨(noJaxOp m).op, g, partialDerivative_ok m, h1, h2, by simpa only [noJaxOp_den] using h4⟩

/-- C62: `DirectionalDerivative(v)` for `v ≠ 0`, on every domain shape: the derivative along `v`. -/
theorem directionalDerivative_total {shape : Shp} (hd : shape.prod = d) {v : Fin d → ℝ} (h0 : v ≠ 0) {f : SF d}
    (hf : Fine shape f) (n : ℕ) : ∃ L g, directionalDerivative shape (List.ofFn v) = .ok L ∧
      call (n + 3) ⟨.directional (List.ofFn v), L⟩ f = .ok g ∧ Fine shape g ∧
      ∀ b x, g.eval b 0 x = .ok (fderiv ℝ (f.val 0).1 x v) := by
  obtain ⟨L, hL, hv⟩ := directionalDerivative_fderiv shape hd v
  have hL' := hL
  rw [directionalDerivative, mkScalar _ _ (weightRow_shape _ _ _)] at hL'
  have hLe := (Except.ok.inj hL').symm
  obtain ⟨hwf, hz⟩ := scalarRow_wf (order := 1) (w := List.ofFn v) (by simp) hd (by simp)
  have hrow : weightRow shape 1 (List.ofFn v) ≠ [] := by
    obtain ⟨i, hi⟩ := Function.ne_iff.mp h0
    exact weightRow_ne ⟨v i, by simp, hi⟩
  subst hLe
  obtain ⟨g, h1, h2, -, h4⟩ := named_total (L := ⟨.directional (List.ofFn v), _⟩) ⟨hwf, by simp [KindWF, hL]⟩ rfl trivial
    ⟨by simp, by simp [hrow]⟩ hz hf n
  refine ⟨_, g, hL, h1, h2, fun b x => ?_⟩
  rw [h4, den_scalar rfl, hv]

/-- C62: `WeightedLaplacian(w)` for `w ≠ 0` on scalar and vector domains: `Σ_i w_i ∂_i²`. -/
theorem weightedLaplacian_total {shape : Shp} (hd : shape.prod = d) (hs : shape.length ≤ 1) {w : Fin d → ℝ} (h0 : w ≠ 0)
    {f : SF d} (hf : Fine shape f) (n : ℕ) (k : List ℝ → Kind) (hk : k = .weighted ∨ k = .laplace) :
    ∃ L g, weightedLaplacian shape (List.ofFn w) = .ok L ∧ call (n + 3) ⟨k (List.ofFn w), L⟩ f = .ok g ∧ Fine shape g ∧
      ∀ b x, g.eval b 0 x = .ok ((∑ i : Fin d, w i • pd i (pd i (f.val 0))).1 x) := by
  obtain ⟨L, hL, -, -, hv⟩ := weightedLaplacian_spec shape hd w
  have hL' := hL
  rw [weightedLaplacian_ok] at hL'
  have hLe := (Except.ok.inj hL').symm
  obtain ⟨hwf, hz⟩ := scalarRow_wf (order := 2) (w := List.ofFn w) (by simp) hd (by simp)
  have hrow : weightRow shape 2 (List.ofFn w) ≠ [] := by
    obtain ⟨i, hi⟩ := Function.ne_iff.mp h0
    exact weightRow_ne ⟨w i, by simp, hi⟩
  subst hLe
  obtain ⟨g, h1, h2, -, h4⟩ := named_total (L := ⟨k (List.ofFn w), _⟩)
    ⟨hwf, by rcases hk with rfl | rfl <;> simp [KindWF, hL]⟩ (by rcases hk with rfl | rfl <;> rfl)
    (by rcases hk with rfl | rfl <;> exact hs) ⟨by simp, by simp [hrow]⟩ hz hf n
  refine ⟨_, g, hL, h1, h2, fun b x => ?_⟩
  rw [h4, den_scalar rfl, hv]

lemma Fine.add {s : Shp} {f g : SF d} (hf : Fine s f) (hg : Fine s g) : ∃ h, f.add g = .ok h ∧ Fine s h := by
  have hz : ∀ i o, g = .zero i o → ∃ h, f.add g = .ok h ∧ Fine s h := by
    rintro i o rfl
    have hgs := hg.sh
    simp only [SF.sh, Prod.mk.injEq] at hgs
    refine ⟨f, ?_, hf⟩
    simp only [SF.add, addZero, hgs, hf.sh, ne_eq, not_true_eq_false, if_false]
  have hs : f.add g = mkSum [f, g] → ∃ h, f.add g = .ok h ∧ Fine s h := by
    intro h
    refine ⟨.sum s [] (expand [f, g]), by rw [h]; exact mkSum_isOk (s := (s, [])) (by simp) (by simp [hf.sh, hg.sh]), rfl, rfl, ?_, ?_⟩
    · exact expand_ne _ (by simp) (by simp [hf.wf, hg.wf])
    · have key : ∀ ls : List (SF d), (∀ l ∈ ls, Fine s l) → ∀ a ∈ expand ls, Leaf s a := by
        intro ls
        induction ls with
        | nil => intro _ a ha; cases ha
        | cons l ls ih =>
          intro hl a ha
          rcases (hl l List.mem_cons_self).cases with ⟨fs, rfl, -, hfs⟩ | hll
          · rw [expand] at ha
            rcases List.mem_append.mp ha with ha | ha
            · exact hfs a ha
            · exact ih (fun b hb => hl b (List.mem_cons_of_mem _ hb)) a ha
          · have he : expand (l :: ls) = l :: expand ls := by
              cases l with
              | sum i o gs => exact absurd hll (by simp [Leaf])
              | _ =>
                rw [expand]
                all_goals nofun
            rw [he] at ha
            rcases List.mem_cons.mp ha with rfl | ha
            · exact hll
            · exact ih (fun b hb => hl b (List.mem_cons_of_mem _ hb)) a ha
      exact key _ (by simp [hf, hg])
  cases g with
  | zero i o => exact hz i o rfl
  | const i o v =>
    have hgs := hg.sh
    simp only [SF.sh, Prod.mk.injEq] at hgs
    have hfs := hf.sh
    obtain ⟨rfl, rfl⟩ := hgs
    cases f with
    | const i' o' w =>
      simp only [SF.sh, Prod.mk.injEq] at hfs
      obtain ⟨rfl, rfl⟩ := hfs
      exact ⟨.const i' [] fun p => w p + v p, by simp [SF.add, constAdd], rfl, rfl⟩
    | zero i' o' =>
      simp only [SF.sh, Prod.mk.injEq] at hfs
      obtain ⟨rfl, rfl⟩ := hfs
      exact ⟨.const i' [] fun p => 0 + v p, by simp [SF.add, constAdd], rfl, rfl⟩
    | _ => exact hs rfl
  | _ => cases f <;> exact hs rfl

/-- C62: `HeatOperator((1 + k,), α)` for `α ≠ 0` and at least one spatial dimension, applied to a function:
`∂_t f - α Δ_x f`, at single points and on batches. -/
theorem heat_total {k : ℕ} (hk : 1 ≤ k) {alpha : ℝ} (ha : alpha ≠ 0) {f : SF (k + 1)} (hf : Fine [k + 1] f) (n : ℕ) :
    ∃ T W m w g, heatOperator [k + 1] alpha = .ok (T, W) ∧ partialDerivative m = .ok T ∧ weightedLaplacian [k + 1] w = .ok W ∧
      sumCall (n + 3) [⟨.pdv m, T⟩, ⟨.weighted w, W⟩] f = .ok g ∧ Fine [k + 1] g ∧
      ∀ b x, g.eval b 0 x = .ok ((pd 0 (f.val 0) - alpha • ∑ i : Fin k, pd i.succ (pd i.succ (f.val 0))).1 x) := by
  obtain ⟨T, W, h1, hTd, hTc, hWd, hWc, h6⟩ := heatOperator_spec k alpha
  have e1 : ((List.range (k + 1)).map fun i => if i = 0 then 0 else -alpha) =
      List.ofFn (Fin.cons 0 fun _ : Fin k => -alpha : Fin (k + 1) → ℝ) := by
    rw [List.range_succ_eq_map, List.ofFn_succ]
    simp [Function.comp_def]
  have e2 : (⟨[1 + (k + 1 - 1)], 1 :: List.replicate (k + 1 - 1) 0⟩ : MI) = MI.fromPos 0 [k + 1] 1 := by
    unfold MI.fromPos
    simp [List.replicate_succ, Nat.add_comm]
  have hheat : heatOperator [k + 1] alpha = (do
      let t ← partialDerivative (MI.fromPos 0 [k + 1] 1)
      let l ← weightedLaplacian [k + 1] (List.ofFn (Fin.cons 0 fun _ : Fin k => -alpha : Fin (k + 1) → ℝ))
      if t.domShape = l.domShape ∧ t.codShape = l.codShape then .ok (t, l) else .error .assertionError) := by
    unfold heatOperator timeDerivative
    dsimp only
    rw [e1, e2]
  have hpart := partialDerivative_total (d := k + 1) (m := MI.fromPos 0 [k + 1] 1) (by simp [MI.fromPos])
    (by simp [MI.fromPos]) (by rw [fromPos_order 0 [k + 1] 1 (by simp)]; simp) (f := f) (by simpa [MI.fromPos] using hf) n
  have hlap := weightedLaplacian_total (d := k + 1) (shape := [k + 1]) (by simp) (by simp)
    (w := Fin.cons 0 fun _ : Fin k => -alpha) (by
      intro h
      have := congrFun h (Fin.succ ⟨0, by omega⟩)
      simp only [Fin.cons_succ, Pi.zero_apply, neg_eq_zero] at this
      exact ha this) hf n .weighted (.inl rfl)
  obtain ⟨T', gT, t1, t2, t3, t4⟩ := hpart
  obtain ⟨W', gW, w1, w2, w3, w4⟩ := hlap
  rw [hheat, t1, w1] at h1
  have h1' : (if T'.domShape = W'.domShape ∧ T'.codShape = W'.codShape then
    (.ok (T', W') : Except Coeff.Err (DiffOp × DiffOp)) else .error .assertionError) = .ok (T, W) := h1
  split_ifs at h1' with hc
  have h1e := Except.ok.inj h1'
  obtain ⟨rfl, rfl⟩ := Prod.mk.inj h1e
  obtain ⟨g, g1, g2⟩ := Fine.add (s := [k + 1]) (by simpa [MI.fromPos] using t3) w3
  refine ⟨T', W', _, _, g, ?_, t1, w1, ?_, g2, fun b x => ?_⟩
  · rw [hheat, t1, w1]
    show (if _ then _ else _) = _
    rw [if_pos hc]
  · simp only [sumCall, reduceG, t2, bind, Except.bind, List.foldlM_cons, List.foldlM_nil, w2, g1]
    rfl
  · have hgv := (add_ok (s := ([k + 1], [])) ⟨by have := t3.sh; simpa [MI.fromPos] using this, t3.wf⟩ ⟨w3.sh, w3.wf⟩ g1).2.2 0
    have hTv := t4 b x
    have hWv := w4 b x
    unfold SF.eval at hTv hWv ⊢
    rw [t3.mode] at hTv
    rw [w3.mode] at hWv
    rw [g2.mode, hgv]
    have hT' := Except.ok.inj hTv
    have hW' := Except.ok.inj hWv
    show Except.ok ((gT.val 0).1 x + (gW.val 0).1 x) = _
    rw [hT', hW']
    congr 1
    have hpd := dpow_fromPos (d := k + 1) 0 [k + 1] (by simp) 1
    rw [pow_one] at hpd
    have hpd' : dpow (MI.fromPos 0 [k + 1] 1).data (f.val 0) = pd 0 (f.val 0) :=
      congrArg (fun T : Module.End ℝ (Smooth (k + 1)) => T (f.val 0)) hpd
    rw [hpd', Fin.sum_univ_succ]
    simp only [Fin.cons_zero, zero_smul, zero_add, Fin.cons_succ, ← Finset.smul_sum]
    generalize (∑ i : Fin k, pd i.succ (pd i.succ (f.val 0))) = S
    show (pd 0 (f.val 0)).1 x + -alpha * S.1 x = (pd 0 (f.val 0)).1 x - alpha * S.1 x
    ring

/-- C62: named operators can be applied one after another to a function, any number of times. -/
theorem repeated_total {s : Shp} (Ls : List DOp) (hLs : ∀ L ∈ Ls, L.WF d ∧ L.kind.named = true ∧ L.op.domShape = s ∧
      L.kind.fits s ∧ Rows L.op ∧ NoZeroOrder L.op) {f : SF d} (hf : Fine s f) (n : ℕ) :
    ∃ g, Ls.foldlM (fun acc L => call (n + 3) L acc) f = .ok g ∧ Fine s g ∧
      g.val 0 = Ls.foldl (fun u L => den L.op fun _ => u) (f.val 0) := by
  induction Ls generalizing f with
  | nil => exact ⟨f, rfl, hf, rfl⟩
  | cons L Ls ih =>
    obtain ⟨h1, h2, rfl, h4, h5, h6⟩ := hLs L List.mem_cons_self
    obtain ⟨g, g1, g2, g3, -⟩ := named_total h1 h2 h4 h5 h6 hf n
    obtain ⟨k, k1, k2, k3⟩ := ih (fun M hM => hLs M (List.mem_cons_of_mem _ hM)) g2
    refine ⟨k, ?_, k2, ?_⟩
    · rw [List.foldlM_cons, g1]
      exact k1
    · have hc := named_cod h1 h2
      rw [k3, List.foldl_cons, g3]
      congr 1
      rw [den_scalar hc, den_scalar hc]

/-- The Laplacian of the sum of a function on `ℝ²` and a constant. -/
example (g : ℕ → Smooth 2) : ∃ L h, weightedLaplacian [2] (List.ofFn (fun _ : Fin 2 => (1 : ℝ))) = .ok L ∧
    call 3 ⟨.laplace (List.ofFn fun _ : Fin 2 => (1 : ℝ)), L⟩ (.sum [2] [] [.fn [2] [] g, .const [2] [] fun _ => 5]) = .ok h ∧
    ∀ x, h.eval true 0 x = .ok ((∑ i : Fin 2, (1 : ℝ) • pd i (pd i (g 0 + (constS 5 + 0)))).1 x) := by
  obtain ⟨L, h, h1, h2, -, h4⟩ := weightedLaplacian_total (d := 2) (shape := [2]) rfl (by simp) (w := fun _ => 1)
    (by intro h; simpa using congrFun h 0)
    (f := .sum [2] [] [.fn [2] [] g, .const [2] [] fun _ => 5]) ⟨rfl, rfl, by simp, by simp [Leaf]⟩ 0 .laplace (.inr rfl)
  refine ⟨L, h, h1, h2, fun x => ?_⟩
  rw [h4]
  simp [SF.val, valAll]

end LinPDE.DiffFn
