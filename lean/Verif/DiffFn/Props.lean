import Verif.DiffFn.Lemmas

/-!
# C62: a differential operator applied to a function gives the derivative
-/

namespace LinPDE.DiffFn
open LinPDE.Nd LinPDE.Coeff LinPDE.Calc

variable {d : ℕ}

/-! ### Soundness -/

/-- An operator, other than a derivative of order zero, called on a scaled function calls itself on it. -/
lemma call_scaled (L : DOp) (h0 : ∀ m, L.kind.mi? = some m → m.order ≠ 0) (f : SF d) (c : ℝ) :
    ∀ n, call n L (.scaled f c) = .error .recursionError
  | 0 => rfl
  | n + 1 => by
    rw [call, if_neg (by simp [SF.isConst])]
    rw [if_neg]
    · rw [callNoJax, baseCall, call_scaled L h0 f c n]
      rfl
    · cases hm : L.kind.mi? with
      | none => simp
      | some m => simpa using h0 m hm

lemma noJaxOp_wf {m : MI} (hm : m.data.length = d) (hs : m.shape.prod = d) : (noJaxOp m).WF d where
  op := ⟨⟨by simp [noJaxOp], by simp [noJaxOp], by simp [noJaxOp, codIdxOK], by simp [noJaxOp]⟩, rfl, rfl, hs,
    by simp [noJaxOp, hm]⟩
  kind := ⟨hm, partialDerivative_ok m⟩

lemma noJaxOp_den (m : MI) (v : ℕ → Smooth d) : den (noJaxOp m).op v = dpow m.data (v 0) := by
  rw [den_scalar rfl]
  simp [noJaxOp, Table.apply, rowApply, derivs]

lemma key_nil {L : DiffOp} (hL : OpWF d L) {kv : List ℤ × Row} (hkv : kv ∈ L.coeffs.dict) :
    kv.1 = [] ↔ L.codShape = [] := by
  have := hL.table.cod kv hkv
  rw [codIdxOK_iff, hL.cod] at this
  have hl := this.length_eq
  constructor
  · intro h; rw [h] at hl; exact List.length_eq_zero_iff.mp hl.symm
  · intro h; rw [h] at hl; exact List.length_eq_zero_iff.mp hl

lemma kind_mi {L : DOp} (hL : L.WF d) {m : MI} (h : L.kind.mi? = some m) :
    m.data.length = d ∧ L.op = ⟨⟨[([], [(m, 1)])], m.shape, []⟩, m.shape, []⟩ := by
  have hk := hL.kind
  unfold KindWF at hk
  cases hkind : L.kind <;> rw [hkind] at hk h <;> simp only [Kind.mi?] at h <;> try cases h
  all_goals
    dsimp only at hk
    rw [partialDerivative_ok] at hk
    exact ⟨hk.1, (Except.ok.inj hk.2).symm⟩

lemma jvpDir_den {L : DOp} {v : List ℝ} (hv : v.length = d) (hd : L.op.domShape.prod = d)
    (hL : directionalDerivative L.op.domShape v = .ok L.op) (w : ℕ → Smooth d) : jvpDir v (w 0) = den L.op w := by
  obtain ⟨L', h1, -, h3, h4⟩ := directionalDerivative_spec L.op.domShape hd fun i : Fin d => v.getD i.1 0
  have hl : (List.ofFn fun i : Fin d => v.getD i.1 0) = v := by
    subst hv
    apply List.ext_getElem <;> simp
  rw [hl, hL] at h1
  have he := Except.ok.inj h1
  rw [← he] at h3 h4
  rw [den_scalar h3, h4]
  rfl

lemma hessDiag_den {L : DOp} {v : List ℝ} (hv : v.length = d) (hd : L.op.domShape.prod = d)
    (hL : weightedLaplacian L.op.domShape v = .ok L.op) (w : ℕ → Smooth d) : hessDiag v (w 0) = den L.op w := by
  obtain ⟨L', h1, -, h3, h4⟩ := weightedLaplacian_spec L.op.domShape hd fun i : Fin d => v.getD i.1 0
  have hl : (List.ofFn fun i : Fin d => v.getD i.1 0) = v := by
    subst hv
    apply List.ext_getElem <;> simp
  rw [hl, hL] at h1
  have he := Except.ok.inj h1
  rw [← he] at h3 h4
  rw [den_scalar h3, h4]
  rfl

lemma rawSummand_ok {L : DiffOp} (hL : OpWF d L) (f : SF d) {kv : List ℤ × Row} (hkv : kv ∈ L.coeffs.dict) {mc : MI × ℝ}
    (hmc : mc ∈ kv.2) {x : SF d} (h : rawSummand f ⟨mc.2, mc.1, kv.1⟩ = .ok x) :
    x.sh = (L.domShape, []) ∧ x.WF ∧ x.val 0 = mc.2 • dpow mc.1.data (f.val (outPos L.codShape kv.1)) := by
  unfold rawSummand at h
  split_ifs at h with h1 h2
  injection h with h
  subst h
  have hsh : mc.1.shape = L.domShape := (hL.table.dom kv hkv mc hmc).trans hL.dom
  have hc : L.codShape = [] := (key_nil hL hkv).mp (not_not.mp h1)
  refine ⟨by rw [smul_sh]; simp [SF.sh, hsh], smul_wf _ _, ?_⟩
  rw [smul_val]
  simp only [SF.val]
  rw [jvpLoop_eq (hL.size kv hkv mc hmc) (by rw [hsh]; exact hL.dim), hc, outPos_nil]

lemma fallback_sound {L : DOp} (hL : L.WF d) {f g : SF d} (h : fallback L f = .ok g) :
    g.sh = (L.op.domShape, []) ∧ g.WF ∧ g.val 0 = den L.op f.val := by
  unfold fallback at h
  by_cases h1 : f.sh.1 ≠ L.op.domShape
  · rw [if_pos h1] at h; cases h
  by_cases h2 : f.sh.2 ≠ L.op.codShape
  · rw [if_neg h1, if_pos h2] at h; cases h
  rw [if_neg h1, if_neg h2] at h
  have hk := hL.kind
  unfold KindWF at hk
  have hd := hL.op.dim
  cases hkind : L.kind with
  | pdv m =>
    rw [hkind] at h hk
    dsimp only at h hk
    injection h with h
    subst h
    refine ⟨rfl, by simp [SF.WF], ?_⟩
    obtain ⟨hm, ho⟩ := kind_mi hL (m := m) (by rw [hkind]; rfl)
    have hs : m.shape.prod = d := by rw [ho] at hd; exact hd
    simp only [SF.val]
    rw [jvpLoop_eq hm hs, ho]
    exact (noJaxOp_den m f.val).symm
  | noJax m => rw [hkind] at h; cases h
  | directional v =>
    rw [hkind] at h hk
    dsimp only at h hk
    injection h with h
    subst h
    exact ⟨rfl, by simp [SF.WF], by simp only [SF.val]; exact jvpDir_den hk.1 hd hk.2 _⟩
  | weighted v =>
    rw [hkind] at h hk
    dsimp only at h hk
    injection h with h
    subst h
    exact ⟨rfl, by simp [SF.WF], by simp only [SF.val]; exact hessDiag_den hk.1 hd hk.2 _⟩
  | laplace v =>
    rw [hkind] at h hk
    dsimp only at h hk
    injection h with h
    subst h
    exact ⟨rfl, by simp [SF.WF], by simp only [SF.val]; exact hessDiag_den hk.1 hd hk.2 _⟩
  | general =>
    rw [hkind] at h
    dsimp only at h
    cases ha : applySum (rawSummand f) L.op with
    | error e => rw [ha] at h; cases h
    | ok x =>
      rw [ha] at h
      injection h with h
      subst h
      refine ⟨rfl, by simp [SF.WF], ?_⟩
      simp only [SF.val]
      exact (applySum_ok (s := (L.op.domShape, [])) (D := fun k m => dpow m.data (f.val (outPos L.op.codShape k)))
        (fun kv hkv mc hmc x hx => rawSummand_ok hL.op f hkv hmc hx) ha).2.2

lemma constCall_sound {L : DiffOp} (hL : OpWF d L) {f g : SF d} (hf : f.isConst = true) (hz : NoZeroOrder L ∨ ConstFree f)
    (h : constCall L f = .ok g) : g.sh = (L.domShape, []) ∧ g.WF ∧ g.val 0 = den L f.val := by
  unfold constCall at h
  split_ifs at h
  injection h with h
  subst h
  refine ⟨rfl, by simp [SF.WF], ?_⟩
  cases f <;> simp only [SF.isConst, Bool.false_eq_true] at hf
  · rcases hz with h0 | h0
    · simp only [SF.val]; exact (den_const hL h0 _).symm
    · simp [ConstFree] at h0
  · simp only [SF.val]; exact (den_zero L).symm

/-- `SelectOutput` returns only for functions that are `Zero` or sums of such. -/
lemma selectOut_ok (dom : Shp) : ∀ (n : ℕ) (f y : SF d), f.WF → selectOut dom n f = .ok y →
    (∀ p, f.val p = 0) ∧ (∀ p, y.val p = 0) ∧ y.sh = (dom, []) ∧ y.WF ∧ ConstFree y
  | 0, _, _, _, h => by rw [selectOut] at h; cases h
  | n + 1, .stack i fs, y, _, h => by rw [selectOut] at h; cases h
  | n + 1, .fn _ _ _, y, _, h => by rw [selectOut] at h; cases h; nofun
  | n + 1, .const _ _ _, y, _, h => by rw [selectOut] at h; cases h; nofun
  | n + 1, .lam _ _ _, y, _, h => by rw [selectOut] at h; cases h; nofun
  | n + 1, .zero i o, y, _, h => by
    rw [selectOut] at h
    · rw [baseCall] at h
      injection h with h
      subst h
      exact ⟨fun p => by simp [SF.val], fun p => by simp [SF.val], rfl, by simp [SF.WF], by simp [ConstFree]⟩
    · nofun
  | n + 1, .scaled f c, y, _, h => by
    have key : ∀ m, selectOut dom m (.scaled f c) = .error .recursionError := by
      intro m
      induction m with
      | zero => rfl
      | succ m ih =>
        rw [selectOut]
        · rw [baseCall, ih]; rfl
        · nofun
    rw [key] at h
    cases h
  | n + 1, .sum i o fs, y, hw, h => by
    rw [selectOut] at h
    · rw [baseCall] at h
      cases hm : mapE (selectOut dom n) fs with
      | error e => rw [hm] at h; cases h
      | ok gs =>
        rw [hm] at h
        have h' : mkSum gs = .ok y := h
        rw [SF.WF] at hw
        have hwf := (wfAll_iff _ _).mp hw.2
        have hall := mapE_ok hm
        have key : ∀ (as bs : List (SF d)), List.Forall₂ (fun a b => selectOut dom n a = .ok b) as bs → (∀ a ∈ as, a.WF) →
            (∀ a ∈ as, ∀ p, a.val p = 0) ∧ (∀ b ∈ bs, (∀ p, b.val p = 0) ∧ b.sh = (dom, []) ∧ b.WF ∧ ConstFree b) := by
          intro as bs hab
          induction hab with
          | nil => intro _; simp
          | cons h1 _ ih =>
            intro hww
            obtain ⟨k1, k2, k3, k4, k5⟩ := selectOut_ok dom n _ _ (hww _ List.mem_cons_self) h1
            obtain ⟨i1, i2⟩ := ih fun a ha => hww a (List.mem_cons_of_mem _ ha)
            refine ⟨List.forall_mem_cons.mpr ⟨k1, i1⟩, List.forall_mem_cons.mpr ⟨⟨k2, k3, k4, k5⟩, i2⟩⟩
        obtain ⟨k1, k2⟩ := key fs gs hall fun a ha => (hwf a ha).2
        obtain ⟨m1, m2, m3⟩ := mkSum_ok (s := (dom, [])) (fun b hb => ⟨(k2 b hb).2.1, (k2 b hb).2.2.1⟩) h'
        refine ⟨fun p => ?_, fun p => ?_, m1, m2, ?_⟩
        · rw [SF.val, valAll_eq]
          apply List.sum_eq_zero
          intro x hx
          rw [List.map_map] at hx
          obtain ⟨a, ha, rfl⟩ := List.mem_map.mp hx
          exact k1 a ha p
        · rw [m3]
          apply List.sum_eq_zero
          intro x hx
          obtain ⟨b, hb, rfl⟩ := List.mem_map.mp hx
          exact (k2 b hb).1 p
        · cases gs with
          | nil => cases h'
          | cons g gs =>
            rw [mkSum] at h'
            split_ifs at h'
            injection h' with h'
            subst h'
            rw [ConstFree]
            have hex : ∀ ls : List (SF d), (∀ l ∈ ls, ConstFree l) → constFreeAll (expand ls) := by
              intro ls
              induction ls with
              | nil => intro _; simp [expand, constFreeAll]
              | cons l ls ih =>
                intro hl
                have ih' := ih fun a ha => hl a (List.mem_cons_of_mem _ ha)
                have h0 := hl l List.mem_cons_self
                rw [constFreeAll_iff] at ih' ⊢
                cases l with
                | sum i o ks =>
                  rw [ConstFree, constFreeAll_iff] at h0
                  rw [expand]
                  intro a ha
                  rcases List.mem_append.mp ha with ha | ha
                  · exact h0 a ha
                  · exact ih' a ha
                | _ =>
                  rw [expand]
                  · exact List.forall_mem_cons.mpr ⟨h0, ih'⟩
                  all_goals nofun
            exact hex _ fun l hl => (k2 l hl).2.2.2
    · nofun

/-- C62, soundness: whenever a differential operator applied to a function returns a function, it is the one given by the table
of coefficients — provided that the operator has no term of order zero or no `Constant` is involved. -/
theorem call_sound_partial : ∀ (n : ℕ) (L : DOp) (f g : SF d), L.WF d → f.WF → f.sh = (L.op.domShape, L.op.codShape) →
    NoZeroOrder L.op ∨ ConstFree f → call n L f = .ok g →
    g.sh = (L.op.domShape, []) ∧ g.WF ∧ g.val 0 = den L.op f.val
  | 0, _, _, _, _, _, _, _, h => by cases h
  | n + 1, L, f, g, hL, hf, hsh, hz, h => by
    rw [call] at h
    split_ifs at h with h1 h2
    · exact constCall_sound hL.op (by simp only [Bool.and_eq_true] at h1; exact h1.2) hz h
    · injection h with h
      subst h
      obtain ⟨m, hm, h0⟩ : ∃ m, L.kind.mi? = some m ∧ m.order = 0 := by
        cases hm : L.kind.mi? with
        | none => rw [hm] at h2; cases h2
        | some m => exact ⟨m, rfl, by rw [hm] at h2; simpa using h2⟩
      obtain ⟨hml, ho⟩ := kind_mi hL hm
      rw [ho] at hsh ⊢
      refine ⟨hsh, hf, ?_⟩
      exact ((noJaxOp_den m f.val).trans (dpow_order_zero h0 _)).symm
    · have h0 : ∀ m, L.kind.mi? = some m → m.order ≠ 0 := by
        intro m hm
        rw [hm] at h2
        simpa using h2
      have ih := call_sound_partial n
      -- what `_call_no_jax` returns
      have hno : ∀ x, callNoJax (call n) (selectOut L.op.domShape n) L f = .ok x →
          x.sh = (L.op.domShape, []) ∧ x.WF ∧ x.val 0 = den L.op f.val := by
        intro x hx
        unfold callNoJax at hx
        cases hb : baseCall (call n L) L.op.domShape f with
        | error e =>
          rw [hb] at hx
          cases e with
          | notImplemented =>
            dsimp only at hx
            cases hm : L.kind.mi? with
            | some m => rw [hm] at hx; cases hx
            | none =>
              rw [hm] at hx
              dsimp only at hx
              refine applySum_ok (s := (L.op.domShape, [])) (D := fun k m => dpow m.data (f.val (outPos L.op.codShape k))) ?_ hx
              intro kv hkv mc hmc y hy
              unfold noJaxSummand at hy
              have hms : mc.1.shape = L.op.domShape := (hL.op.table.dom kv hkv mc hmc).trans hL.op.dom
              have hwf := noJaxOp_wf (hL.op.size kv hkv mc hmc) (by rw [hms]; exact hL.op.dim)
              by_cases hk : kv.1 = []
              · have hc := (key_nil hL.op hkv).mp hk
                simp only [hk, ne_eq, not_true_eq_false, if_false, bind, Except.bind] at hy
                cases hcall : call n (noJaxOp mc.1) f with
                | error e => rw [hcall] at hy; cases hy
                | ok z =>
                  rw [hcall] at hy
                  dsimp only at hy
                  injection hy with hy
                  subst hy
                  obtain ⟨k1, k2, k3⟩ := ih (noJaxOp mc.1) f z hwf hf (by rw [hsh, hc, ← hms]; rfl)
                    (by
                      rcases hz with hz | hz
                      · left
                        intro kv' hkv' mc' hmc'
                        simp only [noJaxOp, List.mem_singleton] at hkv'
                        subst hkv'
                        simp only [List.mem_singleton] at hmc'
                        subst hmc'
                        exact hz kv hkv mc hmc
                      · right; exact hz) hcall
                  refine ⟨by rw [smul_sh, k1, ← hms]; rfl, smul_wf _ _, ?_⟩
                  rw [smul_val, k3, noJaxOp_den, hc, outPos_nil]
              · simp only [hk, ne_eq, not_false_eq_true, if_true, bind, Except.bind] at hy
                cases hsel : selectOut L.op.domShape n f with
                | error e => rw [hsel] at hy; cases hy
                | ok w =>
                  rw [hsel] at hy
                  dsimp only at hy
                  obtain ⟨s1, s2, s3, s4, s5⟩ := selectOut_ok L.op.domShape n f w hf hsel
                  cases hcall : call n (noJaxOp mc.1) w with
                  | error e => rw [hcall] at hy; cases hy
                  | ok z =>
                    rw [hcall] at hy
                    dsimp only at hy
                    injection hy with hy
                    subst hy
                    obtain ⟨k1, k2, k3⟩ := ih (noJaxOp mc.1) w z hwf s4 (by rw [s3, ← hms]; rfl) (.inr s5) hcall
                    refine ⟨by rw [smul_sh, k1, ← hms]; rfl, smul_wf _ _, ?_⟩
                    beta_reduce
                    rw [smul_val, k3, noJaxOp_den, s2, s1]
          | _ => cases hx
        | ok y =>
          rw [hb] at hx
          injection hx with hx
          subst hx
          cases f with
          | sum i o fs =>
            rw [baseCall] at hb
            cases hmap : mapE (call n L) fs with
            | error e => rw [hmap] at hb; cases hb
            | ok gs =>
              rw [hmap] at hb
              have hb' : mkSum gs = .ok y := hb
              rw [SF.WF] at hf
              have hwf := (wfAll_iff _ _).mp hf.2
              have hall := mapE_ok hmap
              have hzs : ∀ a ∈ fs, NoZeroOrder L.op ∨ ConstFree a := by
                intro a ha
                rcases hz with hz | hz
                · exact .inl hz
                · rw [ConstFree, constFreeAll_iff] at hz
                  exact .inr (hz a ha)
              have key : ∀ (as bs : List (SF d)), List.Forall₂ (fun a b => call n L a = .ok b) as bs → (∀ a ∈ as, a ∈ fs) →
                  (∀ b ∈ bs, b.sh = (L.op.domShape, []) ∧ b.WF) ∧
                  (bs.map fun b => b.val 0).sum = (as.map fun a => den L.op a.val).sum := by
                intro as bs hab
                induction hab with
                | nil => intro _; simp
                | cons h1 _ ih2 =>
                  intro hm
                  have ha := hm _ List.mem_cons_self
                  obtain ⟨k1, k2, k3⟩ := ih L _ _ hL (hwf _ ha).2 ((hwf _ ha).1.trans hsh) (hzs _ ha) h1
                  obtain ⟨i1, i2⟩ := ih2 fun a ha => hm a (List.mem_cons_of_mem _ ha)
                  refine ⟨List.forall_mem_cons.mpr ⟨⟨k1, k2⟩, i1⟩, ?_⟩
                  simp only [List.map_cons, List.sum_cons, i2, k3]
              obtain ⟨k1, k2⟩ := key fs gs hall fun a ha => ha
              obtain ⟨m1, m2, m3⟩ := mkSum_ok k1 hb'
              refine ⟨m1, m2, ?_⟩
              rw [m3, k2, SF.val, den_sum, valAll_eq, List.map_map]
              rfl
          | scaled F k =>
            rw [baseCall, call_scaled L h0 F k n] at hb
            cases hb
          | zero i o =>
            rw [baseCall] at hb
            injection hb with hb
            subst hb
            refine ⟨rfl, by simp [SF.WF], ?_⟩
            simp only [SF.val]
            exact (den_zero L.op).symm
          | _ =>
            rw [baseCall] at hb
            · cases hb
            all_goals nofun
      cases hc : callNoJax (call n) (selectOut L.op.domShape n) L f with
      | ok y =>
        rw [hc] at h
        injection h with h
        subst h
        exact hno y hc
      | error e =>
        rw [hc] at h
        cases e with
        | notImplemented => exact fallback_sound hL h
        | _ => cases h

end LinPDE.DiffFn
