import Verif.DiffFn.Total

/-!
# C62: where differential operators on functions fail
-/

namespace LinPDE.DiffFn
open LinPDE.Nd LinPDE.Coeff LinPDE.Calc

variable {d : ℕ}

/-! ### Terms of order zero -/

/-- C62, violated: the derivative of order zero, which is the identity, maps every non-zero constant to `Zero`. -/
theorem order_zero_constant_violated {m : MI} (h0 : m.order = 0) (v : ℕ → ℝ) (hv : v 0 ≠ 0) (n : ℕ) :
    ∃ L g, partialDerivative m = .ok L ∧ call (n + 1) ⟨.pdv m, L⟩ (.const m.shape [] v : SF d) = .ok g ∧
      den L (SF.const m.shape [] v : SF d).val = (SF.const m.shape [] v : SF d).val 0 ∧
      ∀ x, (g.val 0).1 x ≠ ((SF.const m.shape [] v : SF d).val 0).1 x := by
  refine ⟨_, .zero m.shape [], partialDerivative_ok m, ?_, ?_, fun x => ?_⟩
  · rw [call, if_pos (by simp [SF.isConst, Kind.constRule])]
    simp [constCall, SF.sh]
  · exact (noJaxOp_den m _).trans (dpow_order_zero h0 _)
  · simp only [SF.val]
    exact fun h => hv h.symm

/-- C62, violated: every scalar operator given by a table maps constants to `Zero`, whatever its terms of order zero. -/
theorem general_constant_violated {L : DiffOp} (hL : OpWF d L) (hr : Rows L) (hc : L.codShape = []) (v : ℕ → ℝ) (n : ℕ) :
    call (n + 2) ⟨.general, L⟩ (.const L.domShape [] v : SF d) = .ok (.zero L.domShape []) := by
  rw [call, if_neg (by simp [Kind.constRule]), if_neg (by simp [Kind.mi?]), callNoJax]
  simp only [baseCall, Kind.mi?]
  rw [applySum_zero hr]
  intro kv hkv mc hmc
  have hms : mc.1.shape = L.domShape := (hL.table.dom kv hkv mc hmc).trans hL.dom
  have hkn := (key_nil hL hkv).mpr hc
  unfold noJaxSummand
  simp only [hkn, ne_eq, not_true_eq_false, if_false, bind, Except.bind]
  rw [noJax_const (by rw [hms]; rfl) rfl n, hms]
  rfl

/-- `u ↦ ∂²u + 4u` on the line. -/
noncomputable def reaction : DiffOp := ⟨⟨[([], [(⟨[], [2]⟩, 1), (⟨[], [0]⟩, 4)])], [], []⟩, [], []⟩

lemma reaction_wf : OpWF 1 reaction where
  table := ⟨by simp [reaction], by simp [reaction], by simp [reaction, codIdxOK],
    by simp only [reaction, forall_eq, List.mem_cons, List.not_mem_nil, or_false]; rintro mc (rfl | rfl) <;> rfl⟩
  dom := rfl
  cod := rfl
  dim := rfl
  size := by
    simp only [reaction, forall_eq, List.mem_cons, List.not_mem_nil, or_false]
    rintro mc (rfl | rfl) <;> rfl

/-- C62, violated: `∂² + 4`, accepted by the constructors, maps the constant `5` to `Zero` instead of the constant `20`. -/
theorem reaction_constant_violated (n : ℕ) : Table.mk' reaction.coeffs.dict [] [] = .ok reaction.coeffs ∧
    DiffOp.mk' reaction.coeffs [] [] = .ok reaction ∧
    call (n + 2) ⟨.general, reaction⟩ (.const [] [] fun _ => 5 : SF 1) = .ok (.zero [] []) ∧
    den reaction (SF.const [] [] fun _ => 5 : SF 1).val = constS 20 := by
  refine ⟨mk'_ok reaction_wf.table, by simp [DiffOp.mk', reaction], ?_, ?_⟩
  · exact general_constant_violated reaction_wf ⟨by simp [reaction], by simp [reaction]⟩ rfl _ n
  · rw [den_scalar rfl]
    simp only [reaction, Table.apply, rowApply, derivs, List.map_cons, List.map_nil, List.sum_cons, List.sum_nil, add_zero, SF.val]
    rw [dpow_constS (m := ⟨[], [2]⟩) rfl (by simp [MI.order]), dpow_order_zero (m := ⟨[], [0]⟩) rfl, smul_zero, zero_add,
      ← constS_smul]
    norm_num

/-- C62, violated: an operator given by a table with a term of order zero and one of positive order raises `TypeError` for every
function without special structure. -/
theorem zero_order_violated {L : DiffOp} (hL : OpWF d L) {row : Row} (hrow : L.coeffs.dict = [([], row)]) (hc : L.codShape = [])
    (h0 : ∃ mc ∈ row, mc.1.order = 0) (h1 : ∃ mc ∈ row, mc.1.order ≠ 0) (g : ℕ → Smooth d) (n : ℕ) :
    call (n + 2) ⟨.general, L⟩ (.fn L.domShape [] g) = .error .typeError := by
  have hmem : ([], row) ∈ L.coeffs.dict := by rw [hrow]; exact List.mem_singleton.mpr rfl
  have hne : row ≠ [] := by obtain ⟨mc, hmc, -⟩ := h0; exact List.ne_nil_of_mem hmc
  have hr : Rows L := ⟨by rw [hrow]; simp, by rw [hrow]; simp [hne]⟩
  have hsum : ∀ (F : Summand → Except Err (SF d)) (e : Err),
      (∀ mc ∈ row, (∃ x, F ⟨mc.2, mc.1, []⟩ = .ok x ∧ Proper (L.domShape, []) x) ∨ F ⟨mc.2, mc.1, []⟩ = .error e) →
      (∃ mc ∈ row, F ⟨mc.2, mc.1, []⟩ = .error e) → applySum F L = .error e := by
    intro F e hF hex
    unfold applySum
    rw [toSum_rows hr, hrow]
    dsimp only
    rw [List.map_cons]
    apply reduceG_head
    apply reduceG_error (s := (L.domShape, []))
    · intro u hu
      obtain ⟨mc, hmc, rfl⟩ := List.mem_map.mp hu
      exact hF mc hmc
    · obtain ⟨mc, hmc, he⟩ := hex
      exact ⟨_, List.mem_map.mpr ⟨mc, hmc, rfl⟩, he⟩
  have hms : ∀ mc ∈ row, mc.1.shape = L.domShape := fun mc hmc => (hL.table.dom _ hmem mc hmc).trans hL.dom
  have hskip : applySum (noJaxSummand (call (n + 1)) (selectOut L.domShape (n + 1)) (.fn L.domShape [] g)) L =
      .error .notImplemented := by
    have hord : ∀ mc ∈ row, mc.1.order ≠ 0 →
        noJaxSummand (call (n + 1)) (selectOut L.domShape (n + 1)) (.fn L.domShape [] g) ⟨mc.2, mc.1, []⟩ =
          .error .notImplemented := by
      intro mc hmc ho
      unfold noJaxSummand
      simp only [ne_eq, not_true_eq_false, if_false, bind, Except.bind]
      rw [noJax_skip (f := .fn L.domShape [] g) ho ⟨(hms mc hmc).symm, rfl⟩ rfl n]
    refine hsum _ _ (fun mc hmc => ?_) ?_
    · by_cases ho : mc.1.order = 0
      · left
        refine ⟨.scaled (.fn L.domShape [] g) mc.2, ?_, rfl, rfl, rfl⟩
        unfold noJaxSummand
        simp only [ne_eq, not_true_eq_false, if_false, bind, Except.bind]
        rw [call, if_neg (by simp [SF.isConst]), if_pos (by simp [noJaxOp, Kind.mi?, ho])]
        rfl
      · exact .inr (hord mc hmc ho)
    · obtain ⟨mc, hmc, ho⟩ := h1
      exact ⟨mc, hmc, hord mc hmc ho⟩
  have hraw : applySum (rawSummand (.fn L.domShape [] g)) L = .error .typeError := by
    refine hsum _ _ (fun mc hmc => ?_) ?_
    · by_cases ho : mc.1.order = 0
      · exact .inr (by simp [rawSummand, ho])
      · left
        refine ⟨_, by simp only [rawSummand, ne_eq, not_true_eq_false, if_false, ho]; rfl, ?_, rfl, rfl⟩
        rw [smul_sh]
        simp [SF.sh, hms mc hmc]
    · obtain ⟨mc, hmc, ho⟩ := h0
      exact ⟨mc, hmc, by simp [rawSummand, ho]⟩
  rw [call, if_neg (by simp [Kind.constRule]), if_neg (by simp [Kind.mi?]), callNoJax]
  simp only [baseCall, Kind.mi?]
  rw [hskip]
  simp only [fallback, SF.sh, hc, ne_eq, not_true_eq_false, if_false, hraw]

/-- `∂² + 4` cannot be applied to any function. -/
example (g : ℕ → Smooth 1) : call 2 ⟨.general, reaction⟩ (.fn [] [] g) = .error .typeError :=
  zero_order_violated reaction_wf rfl rfl ⟨_, List.mem_cons_of_mem _ List.mem_cons_self, rfl⟩
    ⟨_, List.mem_cons_self, by simp [MI.order]⟩ g 0

/-! ### Operators given by tables -/

/-- C62: an operator given by a table without terms of order zero, applied to a function, returns the prescribed function, and it
can be evaluated at single points; violated: never on batches, nor differentiated again. -/
theorem general_single_violated {L : DiffOp} (hL : OpWF d L) (hr : Rows L) (h0 : NoZeroOrder L) (hc : L.codShape = [])
    (g : ℕ → Smooth d) (n : ℕ) : ∃ h, call (n + 2) ⟨.general, L⟩ (.fn L.domShape [] g) = .ok h ∧
      (∀ x, h.eval false 0 x = .ok ((den L g).1 x)) ∧ (∀ x, h.eval true 0 x = .error .typeError) ∧
      ∀ m M l k, partialDerivative m = .ok M → m.order ≠ 0 → call l ⟨.pdv m, M⟩ h = .ok k →
        ∀ b x, k.eval b 0 x = .error .typeError := by
  have hms : ∀ kv ∈ L.coeffs.dict, ∀ mc ∈ kv.2, mc.1.shape = L.domShape := fun kv hkv mc hmc =>
    (hL.table.dom _ hkv mc hmc).trans hL.dom
  have hskip : applySum (noJaxSummand (call (n + 1)) (selectOut L.domShape (n + 1)) (.fn L.domShape [] g)) L =
      .error .notImplemented := by
    apply applySum_error hr
    intro kv hkv mc hmc
    have hkn := (key_nil hL hkv).mpr hc
    unfold noJaxSummand
    simp only [hkn, ne_eq, not_true_eq_false, if_false, bind, Except.bind]
    rw [noJax_skip (f := .fn L.domShape [] g) (h0 kv hkv mc hmc) ⟨(hms kv hkv mc hmc).symm, rfl⟩ rfl n]
  obtain ⟨r, hraw, hp⟩ := applySum_proper hr (F := rawSummand (.fn L.domShape [] g)) (s := (L.domShape, [])) (by
    intro kv hkv mc hmc
    have hkn := (key_nil hL hkv).mpr hc
    refine ⟨_, by simp only [rawSummand, hkn, ne_eq, not_true_eq_false, if_false, h0 kv hkv mc hmc]; rfl, ?_, rfl, rfl⟩
    rw [smul_sh]
    simp [SF.sh, hms kv hkv mc hmc])
  have hcall : call (n + 2) ⟨.general, L⟩ (.fn L.domShape [] g) = .ok (.lam L.domShape .single (r.val 0)) := by
    rw [call, if_neg (by simp [Kind.constRule]), if_neg (by simp [Kind.mi?]), callNoJax]
    simp only [baseCall, Kind.mi?]
    rw [hskip]
    simp only [fallback, SF.sh, hc, ne_eq, not_true_eq_false, if_false, hraw, hp.2.1, if_true]
  have hv := (call_sound_partial (n + 2) ⟨.general, L⟩ (.fn L.domShape [] g) _ ⟨hL, trivial⟩ (by simp [SF.WF])
    (by simp [SF.sh, hc]) (.inl h0) hcall).2.2
  simp only [SF.val] at hv
  refine ⟨_, hcall, fun x => ?_, fun x => rfl, ?_⟩
  · simp only [SF.eval, SF.mode, SF.val, hv]
  · intro m M l k _ ho hk b x
    cases l with
    | zero => cases hk
    | succ l =>
      rw [call, if_neg (by simp [SF.isConst]), if_neg (by simp [Kind.mi?, ho]), callNoJax] at hk
      simp only [baseCall, Kind.mi?, fallback] at hk
      split_ifs at hk
      injection hk with hk
      subst hk
      cases b <;> rfl

/-- `3 ∂_x ∂_y` on `ℝ²`. -/
example (g : ℕ → Smooth 2) : ∃ h, call 2 ⟨.general, ⟨⟨[([], [(⟨[2], [1, 1]⟩, 3)])], [2], []⟩, [2], []⟩⟩ (.fn [2] [] g) = .ok h ∧
    ∀ x, h.eval true 0 x = .error .typeError := by
  obtain ⟨h, h1, -, h3, -⟩ := general_single_violated (d := 2) (L := ⟨⟨[([], [(⟨[2], [1, 1]⟩, 3)])], [2], []⟩, [2], []⟩)
    ⟨⟨by simp, by simp, by simp [codIdxOK], by simp⟩, rfl, rfl, rfl, by simp⟩ ⟨by simp, by simp⟩
    (by simp [NoZeroOrder, MI.order]) rfl g 0
  exact ⟨h, h1, h3⟩

/-- C62, violated: operators on functions with several outputs cannot be applied: functions without special structure raise
`NotImplementedError`, stacked functions `AssertionError`. -/
theorem multi_output_violated {L : DiffOp} (hL : OpWF d L) (hr : Rows L) (hc : L.codShape ≠ []) (g : ℕ → Smooth d)
    (fs : List (SF d)) (n : ℕ) :
    call (n + 2) ⟨.general, L⟩ (.fn L.domShape L.codShape g) = .error .notImplemented ∧
      call (n + 2) ⟨.general, L⟩ (.stack L.domShape fs) = .error .assertionError := by
  have hk : ∀ kv ∈ L.coeffs.dict, kv.1 ≠ [] := fun kv hkv h => hc ((key_nil hL hkv).mp h)
  constructor
  · have hskip : applySum (noJaxSummand (call (n + 1)) (selectOut L.domShape (n + 1)) (.fn L.domShape L.codShape g)) L =
        .error .notImplemented := by
      apply applySum_error hr
      intro kv hkv mc hmc
      unfold noJaxSummand
      simp only [hk kv hkv, ne_eq, not_false_eq_true, if_true, bind, Except.bind]
      rw [selectOut]
      · rfl
      · nofun
    have hraw : applySum (rawSummand (.fn L.domShape L.codShape g)) L = .error .notImplemented := by
      apply applySum_error hr
      intro kv hkv mc hmc
      simp [rawSummand, hk kv hkv]
    rw [call, if_neg (by simp [Kind.constRule]), if_neg (by simp [Kind.mi?]), callNoJax]
    simp only [baseCall, Kind.mi?]
    rw [hskip]
    simp only [fallback, SF.sh, ne_eq, not_true_eq_false, if_false, hraw]
  · have hskip : applySum (noJaxSummand (call (n + 1)) (selectOut L.domShape (n + 1)) (.stack L.domShape fs)) L =
        .error .assertionError := by
      apply applySum_error hr
      intro kv hkv mc hmc
      unfold noJaxSummand
      simp only [hk kv hkv, ne_eq, not_false_eq_true, if_true, bind, Except.bind]
      rw [selectOut]
    rw [call, if_neg (by simp [Kind.constRule]), if_neg (by simp [Kind.mi?]), callNoJax]
    simp only [baseCall, Kind.mi?]
    rw [hskip]

/-- The divergence on vector fields in the plane. -/
example (g : ℕ → Smooth 2) : call 2 ⟨.general, ⟨⟨[([0], [(⟨[2], [1, 0]⟩, 1)]), ([1], [(⟨[2], [0, 1]⟩, 1)])], [2], [2]⟩, [2], [2]⟩⟩
    (.fn [2] [2] g) = .error .notImplemented :=
  (multi_output_violated (d := 2) (L := ⟨⟨[([0], [(⟨[2], [1, 0]⟩, 1)]), ([1], [(⟨[2], [0, 1]⟩, 1)])], [2], [2]⟩, [2], [2]⟩)
    ⟨⟨by simp, by simp, by simp [codIdxOK], by simp⟩, rfl, rfl, rfl, by simp⟩ ⟨by simp, by simp⟩ (by simp) g [] 0).1

/-! ### Other failures -/

/-- C62, violated: no differential operator (except derivatives of order zero) can be applied to a multiple of a function; the
recursion does not end, whatever the recursion limit. -/
theorem scaled_function_violated (L : DOp) (h0 : ∀ m, L.kind.mi? = some m → m.order ≠ 0) (f : SF d) (c : ℝ) (n : ℕ) :
    call n L (.scaled f c) = .error .recursionError :=
  call_scaled L h0 f c n

/-- C62, violated: twice a function has no Laplacian, although the function has one. -/
theorem double_function_violated (g : ℕ → Smooth 2) (n : ℕ) :
    ∃ L h, weightedLaplacian [2] (List.ofFn fun _ : Fin 2 => (1 : ℝ)) = .ok L ∧
      call (n + 3) ⟨.laplace (List.ofFn fun _ : Fin 2 => (1 : ℝ)), L⟩ (.fn [2] [] g) = .ok h ∧
      call (n + 3) ⟨.laplace (List.ofFn fun _ : Fin 2 => (1 : ℝ)), L⟩ ((SF.fn [2] [] g).smul 2) = .error .recursionError := by
  obtain ⟨L, h, h1, h2, -, -⟩ := weightedLaplacian_total (d := 2) (shape := [2]) rfl (by simp) (w := fun _ => 1)
    (by intro h; simpa using congrFun h 0) (f := .fn [2] [] g) ⟨rfl, rfl⟩ n .laplace (.inr rfl)
  exact ⟨L, h, h1, h2, call_scaled _ (by simp [Kind.mi?]) _ _ _⟩

/-- C62, violated: weighted Laplacians and operators given by tables accept `Zero` of any shapes. -/
theorem zero_shapes_violated (L : DOp) (hk : L.kind = .general ∨ ∃ w, L.kind = .weighted w) (i o : Shp) (n : ℕ) :
    call (n + 1) L (.zero i o : SF d) = .ok (.zero L.op.domShape []) := by
  have hk : L.kind.constRule = false := by
    rcases hk with h | ⟨w, h⟩ <;> rw [h] <;> rfl
  have hmi : L.kind.mi? = none := by
    cases h : L.kind <;> rw [h] at hk <;> simp_all [Kind.constRule, Kind.mi?]
  rw [call, if_neg (by simp [hk]), if_neg (by simp [hmi]), callNoJax]
  simp only [baseCall]

/-- C62, violated: on domains whose points are arrays with two or more axes, Laplacians of functions are returned but can be
evaluated nowhere. -/
theorem laplacian_axes_violated {shape : Shp} (hd : shape.prod = d) (hs : 2 ≤ shape.length) {w : Fin d → ℝ} (h0 : w ≠ 0)
    (g : ℕ → Smooth d) (n : ℕ) : ∃ L h, weightedLaplacian shape (List.ofFn w) = .ok L ∧
      call (n + 2) ⟨.laplace (List.ofFn w), L⟩ (.fn shape [] g) = .ok h ∧ ∀ b x, h.eval b 0 x = .error .typeError := by
  obtain ⟨hwf, hz⟩ := scalarRow_wf (order := 2) (w := List.ofFn w) (by simp) hd (by simp)
  have hrow : weightRow shape 2 (List.ofFn w) ≠ [] := by
    obtain ⟨i, hi⟩ := Function.ne_iff.mp h0
    exact weightRow_ne ⟨w i, by simp, hi⟩
  refine ⟨_, .lam shape .never (hessDiag (List.ofFn w) (g 0)), weightedLaplacian_ok shape _, ?_, fun b x => by cases b <;> rfl⟩
  rw [call, if_neg (by simp [SF.isConst]), if_neg (by simp [Kind.mi?]), callNoJax]
  simp only [baseCall, Kind.mi?]
  rw [applySum_error (e := .notImplemented) ⟨by simp, by simp [hrow]⟩]
  · have hn : ¬shape.length ≤ 1 := by omega
    simp only [fallback, SF.sh, SF.val, ne_eq, not_true_eq_false, if_false, hn]
  · intro kv hkv mc hmc
    have hkv' := hkv
    simp only [List.mem_singleton] at hkv
    subst hkv
    unfold noJaxSummand
    simp only [ne_eq, not_true_eq_false, if_false, bind, Except.bind]
    rw [noJax_skip (f := .fn shape [] g) (hz _ hkv' mc hmc) ⟨(weightRow_shape shape 2 _ mc hmc).symm, rfl⟩ rfl n]

/-- The Laplacian on `2 × 3` matrices. -/
example (g : ℕ → Smooth 6) : ∃ L h, weightedLaplacian [2, 3] (List.ofFn fun _ : Fin 6 => (1 : ℝ)) = .ok L ∧
    call 2 ⟨.laplace (List.ofFn fun _ : Fin 6 => (1 : ℝ)), L⟩ (.fn [2, 3] [] g) = .ok h ∧
    ∀ b x, h.eval b 0 x = .error .typeError :=
  laplacian_axes_violated (by simp) (by simp) (by intro h; simpa using congrFun h 0) g 0

/-- C62: functions of other shapes are refused by partial derivatives. -/
theorem partial_shapes_refused {m : MI} (h0 : m.order ≠ 0) {i o : Shp} (hs : (i, o) ≠ (m.shape, [])) (g : ℕ → Smooth d)
    (v : ℕ → ℝ) (n : ℕ) : ∃ L, partialDerivative m = .ok L ∧
      call (n + 1) ⟨.pdv m, L⟩ (.fn i o g) = .error .valueError ∧
      call (n + 1) ⟨.pdv m, L⟩ (.const i o v : SF d) = .error .assertionError := by
  refine ⟨_, partialDerivative_ok m, ?_, ?_⟩
  · rw [call, if_neg (by simp [SF.isConst]), if_neg (by simp [Kind.mi?, h0]), callNoJax]
    simp only [baseCall, Kind.mi?, fallback, SF.sh]
    by_cases hi : i = m.shape
    · have ho : o ≠ [] := fun h => hs (by rw [hi, h])
      simp [hi, ho]
    · simp [hi]
  · rw [call, if_pos (by simp [SF.isConst, Kind.constRule])]
    simp only [constCall, SF.sh]
    by_cases hi : i = m.shape
    · have ho : o ≠ [] := fun h => hs (by rw [hi, h])
      simp [hi, ho]
    · simp [hi]

/-- C62: functions of other shapes are refused by the other named operators too. -/
theorem weighted_shapes_refused {k : Kind} {L : DiffOp} (hL : OpWF d L) (hr : Rows L) (hc : L.codShape = [])
    (h0 : NoZeroOrder L) (hk : k.mi? = none) {i o : Shp} (hs : (i, o) ≠ (L.domShape, [])) (g : ℕ → Smooth d) (n : ℕ) :
    call (n + 2) ⟨k, L⟩ (.fn i o g) = .error .valueError := by
  rw [call, if_neg (by simp [SF.isConst]), if_neg (by simp [hk]), callNoJax]
  simp only [baseCall, hk]
  rw [applySum_error (e := .valueError) hr]
  intro kv hkv mc hmc
  have hms : mc.1.shape = L.domShape := (hL.table.dom kv hkv mc hmc).trans hL.dom
  have hkn := (key_nil hL hkv).mpr hc
  unfold noJaxSummand
  simp only [hkn, ne_eq, not_true_eq_false, if_false, bind, Except.bind]
  rw [call, if_neg (by simp [SF.isConst]), if_neg (by simp [noJaxOp, Kind.mi?, h0 kv hkv mc hmc]), callNoJax]
  simp only [baseCall, noJaxOp, Kind.mi?, fallback, SF.sh, hms]
  by_cases hi : i = L.domShape
  · have ho : o ≠ [] := fun h => hs (by rw [hi, h])
    simp [hi, ho]
  · simp [hi]

end LinPDE.DiffFn
