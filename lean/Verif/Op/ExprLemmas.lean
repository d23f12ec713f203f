import Verif.Op.FnlLemmas

/-! # Operator expressions: helper lemmas -/

namespace LinPDE.Ops
open LinPDE.Nd

variable {X : Type}

lemma bind_err {α β ε : Type} {x : Except ε α} {f : α → Except ε β} (h : ∀ a, x = .ok a → ∃ e, f a = .error e) :
    ∃ e, (x >>= f) = .error e := by
  cases x with
  | error e => exact ⟨e, rfl⟩
  | ok a => exact h a rfl

/-- A scalar multiple of a named differential operator (`c * D`, `-D`). -/
def OExpr.scaledDiff : OExpr X → Prop
  | .smul _ (.base _ _ _ b) => b = true
  | .neg (.base _ _ _ b) => b = true
  | _ => False

/-- Some part of the expression scales a differential operator a second time (`c * (d * D)`, `-(c * D)`,
`L - c * D`). -/
def OExpr.Rescales : OExpr X → Prop
  | .ident _ => False
  | .base _ _ _ _ => False
  | .add e e' => e.Rescales ∨ e'.Rescales
  | .sub e e' => e.Rescales ∨ e'.Rescales ∨ e'.scaledDiff
  | .neg e => e.Rescales ∨ e.scaledDiff
  | .smul _ e => e.Rescales ∨ e.scaledDiff
  | .matmul e e' => e.Rescales ∨ e'.Rescales

/-- Not one of the scaled differential operators. -/
def Op.NotSD (L : Op X) : Prop := ∀ M d, L ≠ .scaledDiff M d

lemma mkSum_notSD {Ls : List (Op X)} {N : Op X} (h : Op.mkSum Ls = .ok N) : N.NotSD := by
  intro M d hh
  have := (opMkSum_ok h).2.2
  rw [hh] at this
  exact absurd this (by simp)

lemma mkComp_form {Ls : List (Op X)} {N : Op X} (h : Op.mkComp Ls = .ok N) : N = .comp N.inS N.outS Ls := by
  unfold Op.mkComp at h
  split_ifs at h
  split at h
  · rw [← Except.ok.inj h]; rfl
  · exact absurd h (by simp)

lemma mkComp_notSD {Ls : List (Op X)} {N : Op X} (h : Op.mkComp Ls = .ok N) : N.NotSD := by
  intro M d hh
  have := mkComp_form h
  rw [hh] at this
  exact absurd this (by simp)

lemma matmul_form {L M N : Op X} (h : L.matmul M = .ok N) : N = .comp N.inS N.outS [L, M] ∨
    ∃ i o Ms Ns, M = .sum i o Ms ∧ matmulAll L Ms = .ok Ns ∧ Op.mkSum Ns = .ok N := by
  cases M with
  | sum i o Ms =>
    rw [Op.matmul] at h
    obtain ⟨Ns, h1, h2⟩ := bind_ok h
    exact Or.inr ⟨i, o, Ms, Ns, rfl, h1, h2⟩
  | ident s => rw [Op.matmul] at h; exact Or.inl (mkComp_form h)
  | base i o T b => rw [Op.matmul] at h; exact Or.inl (mkComp_form h)
  | scaled _ _ => rw [Op.matmul] at h; exact Or.inl (mkComp_form h)
  | scaledDiff _ _ => rw [Op.matmul] at h; exact Or.inl (mkComp_form h)
  | comp _ _ _ => rw [Op.matmul] at h; exact Or.inl (mkComp_form h)

lemma matmul_notSD {L M N : Op X} (h : L.matmul M = .ok N) : N.NotSD := by
  rcases matmul_form h with h | ⟨i, o, Ms, Ns, -, -, h⟩
  · intro M' d hh
    rw [hh] at h
    exact absurd h (by simp)
  · exact mkSum_notSD h

lemma smul_isSD {c : ℝ} {L N : Op X} (h : L.smul c = .ok N) :
    (∃ i o T, L = .base i o T true) ∨ N.NotSD := by
  cases L with
  | base i o T b =>
    cases b with
    | true => exact Or.inl ⟨i, o, T, rfl⟩
    | false =>
      refine Or.inr fun M d hh => ?_
      simp only [Op.smul, Bool.false_eq_true, if_false] at h
      rw [← Except.ok.inj h] at hh; exact absurd hh (by simp)
  | scaledDiff M d => simp [Op.smul] at h
  | ident s => refine Or.inr fun M d hh => ?_; simp only [Op.smul] at h; rw [← Except.ok.inj h] at hh; exact absurd hh (by simp)
  | scaled L d => refine Or.inr fun M d hh => ?_; simp only [Op.smul] at h; rw [← Except.ok.inj h] at hh; exact absurd hh (by simp)
  | sum i o ops => refine Or.inr fun M d hh => ?_; simp only [Op.smul] at h; rw [← Except.ok.inj h] at hh; exact absurd hh (by simp)
  | comp i o ops => refine Or.inr fun M d hh => ?_; simp only [Op.smul] at h; rw [← Except.ok.inj h] at hh; exact absurd hh (by simp)

lemma add_notSD {L M N : Op X} (h : L.add M = .ok N) : N.NotSD := mkSum_notSD h

lemma add_notBase {L M N : Op X} (h : L.add M = .ok N) (i o : Shapes) (T : Val X →ₗ[ℝ] Val X) (b : Bool) : N ≠ .base i o T b := by
  intro hh
  have := (opMkSum_ok h).2.2
  rw [hh] at this
  exact absurd this (by simp)

lemma smul_notBase {c : ℝ} {L N : Op X} (h : L.smul c = .ok N) (i o : Shapes) (T : Val X →ₗ[ℝ] Val X) (b : Bool) :
    N ≠ .base i o T b := by
  intro hh
  subst hh
  cases L with
  | base i o T b => cases b <;> simp [Op.smul] at h
  | scaledDiff M d => simp [Op.smul] at h
  | ident s => simp [Op.smul] at h
  | scaled L d => simp [Op.smul] at h
  | sum i o ops => simp [Op.smul] at h
  | comp i o ops => simp [Op.smul] at h

lemma matmul_notBase {L M N : Op X} (h : L.matmul M = .ok N) (i o : Shapes) (T : Val X →ₗ[ℝ] Val X) (b : Bool) :
    N ≠ .base i o T b := by
  intro hh
  rcases matmul_form h with h | ⟨_, _, Ms, Ns, -, -, h⟩
  · rw [hh] at h; exact absurd h (by simp)
  · have := (opMkSum_ok h).2.2
    rw [hh] at this
    exact absurd this (by simp)

/-- The object is a base operator exactly when the expression is. -/
lemma build_base {e : OExpr X} {i o : Shapes} {T : Val X →ₗ[ℝ] Val X} {b : Bool} (h : e.build = .ok (.base i o T b)) :
    e = .base i o T b := by
  cases e with
  | ident s => rw [OExpr.build] at h; exact absurd (Except.ok.inj h) (by simp)
  | base i' o' T' b' => rw [OExpr.build] at h; cases h; rfl
  | add e e' =>
    rw [OExpr.build] at h
    obtain ⟨L, -, h⟩ := bind_ok h
    obtain ⟨M, -, h⟩ := bind_ok h
    exact absurd rfl (add_notBase h i o T b)
  | sub e e' =>
    rw [OExpr.build] at h
    obtain ⟨L, -, h⟩ := bind_ok h
    obtain ⟨M, -, h⟩ := bind_ok h
    obtain ⟨N, -, h⟩ := bind_ok h
    exact absurd rfl (add_notBase h i o T b)
  | neg e =>
    rw [OExpr.build] at h
    obtain ⟨L, -, h⟩ := bind_ok h
    exact absurd rfl (smul_notBase h i o T b)
  | smul c e =>
    rw [OExpr.build] at h
    obtain ⟨L, -, h⟩ := bind_ok h
    exact absurd rfl (smul_notBase h i o T b)
  | matmul e e' =>
    rw [OExpr.build] at h
    obtain ⟨L, -, h⟩ := bind_ok h
    obtain ⟨M, -, h⟩ := bind_ok h
    exact absurd rfl (matmul_notBase h i o T b)

lemma build_scaledDiff {e : OExpr X} {L : Op X} (h : e.build = .ok L) : e.scaledDiff ∨ L.NotSD := by
  cases e with
  | ident s => rw [OExpr.build] at h; cases h; exact Or.inr fun _ _ => by simp
  | base i o T b => rw [OExpr.build] at h; cases h; exact Or.inr fun _ _ => by simp
  | add e e' =>
    rw [OExpr.build] at h
    obtain ⟨L, -, h⟩ := bind_ok h
    obtain ⟨M, -, h⟩ := bind_ok h
    exact Or.inr (add_notSD h)
  | sub e e' =>
    rw [OExpr.build] at h
    obtain ⟨L, -, h⟩ := bind_ok h
    obtain ⟨M, -, h⟩ := bind_ok h
    obtain ⟨N, -, h⟩ := bind_ok h
    exact Or.inr (add_notSD h)
  | matmul e e' =>
    rw [OExpr.build] at h
    obtain ⟨L, -, h⟩ := bind_ok h
    obtain ⟨M, -, h⟩ := bind_ok h
    exact Or.inr (matmul_notSD h)
  | neg e =>
    rw [OExpr.build] at h
    obtain ⟨M, hM, h⟩ := bind_ok h
    rcases smul_isSD h with ⟨i, o, T, rfl⟩ | h
    · rw [build_base hM]; exact Or.inl rfl
    · exact Or.inr h
  | smul c e =>
    rw [OExpr.build] at h
    obtain ⟨M, hM, h⟩ := bind_ok h
    rcases smul_isSD h with ⟨i, o, T, rfl⟩ | h
    · rw [build_base hM]; exact Or.inl rfl
    · exact Or.inr h

lemma scaledDiff_build {e : OExpr X} {L : Op X} (he : e.scaledDiff) (h : e.build = .ok L) : ∃ M d, L = .scaledDiff M d := by
  cases e with
  | smul c e =>
    cases e with
    | base i o T b =>
      have hb : b = true := he
      subst hb
      rw [OExpr.build, OExpr.build] at h
      exact ⟨_, _, (Except.ok.inj h).symm⟩
    | _ => exact absurd he (by simp [OExpr.scaledDiff])
  | neg e =>
    cases e with
    | base i o T b =>
      have hb : b = true := he
      subst hb
      rw [OExpr.build, OExpr.build] at h
      exact ⟨_, _, (Except.ok.inj h).symm⟩
    | _ => exact absurd he (by simp [OExpr.scaledDiff])
  | _ => exact absurd he (by simp [OExpr.scaledDiff])

lemma typed_unique : ∀ (e : OExpr X) (i o i' o' : Shapes), e.Typed i o → e.Typed i' o' → i = i' ∧ o = o'
  | .ident _, _, _, _, _, h, h' => ⟨h.1.symm.trans h'.1, h.2.symm.trans h'.2⟩
  | .base _ _ _ _, _, _, _, _, h, h' => ⟨h.1.symm.trans h'.1, h.2.symm.trans h'.2⟩
  | .add e _, i, o, i', o', h, h' => typed_unique e i o i' o' h.1 h'.1
  | .sub e _, i, o, i', o', h, h' => typed_unique e i o i' o' h.1 h'.1
  | .neg e, i, o, i', o', h, h' => typed_unique e i o i' o' h h'
  | .smul _ e, i, o, i', o', h, h' => typed_unique e i o i' o' h h'
  | .matmul e e', i, o, i', o', ⟨m, h1, h2⟩, ⟨m', h1', h2'⟩ =>
    ⟨(typed_unique e' i m i' m' h1 h1').1, (typed_unique e m o m' o' h2 h2').2⟩

lemma smul_build {c : ℝ} {e : OExpr X} {L N : Op X} (hL : e.build = .ok L) (h : L.smul c = .ok N) (hw : L.WF) :
    N.WF ∧ N.inS = L.inS ∧ N.outS = L.outS ∧ N.den = c • L.den ∧ ¬e.scaledDiff := by
  rcases opSmul_spec c L hw with ⟨M, d, -, h2⟩ | ⟨N', h1, h2, h3, h4, h5, h6⟩
  · rw [h2] at h; exact absurd h (by simp)
  · rw [h1] at h
    have := Except.ok.inj h
    subst this
    refine ⟨h2, h3, h4, h5, fun hs => ?_⟩
    obtain ⟨M, d, hM⟩ := scaledDiff_build hs hL
    exact h6 M d hM

lemma add_ok {L M N : Op X} (hL : L.WF) (hM : M.WF) (h : L.add M = .ok N) :
    M.inS = L.inS ∧ M.outS = L.outS ∧ N.WF ∧ N.inS = L.inS ∧ N.outS = L.outS ∧ N.den = L.den + M.den := by
  obtain ⟨p1, p2⟩ := opAdd_spec L M hL hM
  by_cases hs : M.inS = L.inS ∧ M.outS = L.outS
  · obtain ⟨N', h1, h2, h3, h4, h5⟩ := p1 hs
    rw [h1] at h
    have := Except.ok.inj h
    subst this
    exact ⟨hs.1, hs.2, h2, h3, h4, h5⟩
  · rw [p2 hs] at h; exact absurd h (by simp)

/-- Whatever is built is well formed, denotes the expression, is well typed and rescales nothing. -/
lemma build_sound : ∀ (e : OExpr X) (L : Op X), e.build = .ok L →
    L.WF ∧ L.den = e.den ∧ e.Typed L.inS L.outS ∧ ¬e.Rescales
  | .ident s, L, h => by
    rw [OExpr.build] at h; cases h
    exact ⟨by rw [Op.WF]; trivial, by rw [Op.den]; rfl, ⟨rfl, rfl⟩, id⟩
  | .base i o T b, L, h => by
    rw [OExpr.build] at h; cases h
    exact ⟨by rw [Op.WF]; trivial, by rw [Op.den]; rfl, ⟨rfl, rfl⟩, id⟩
  | .add e e', N, h => by
    rw [OExpr.build] at h
    obtain ⟨L, hL, h⟩ := bind_ok h
    obtain ⟨M, hM, h⟩ := bind_ok h
    obtain ⟨a1, a2, a3, a4⟩ := build_sound e L hL
    obtain ⟨b1, b2, b3, b4⟩ := build_sound e' M hM
    obtain ⟨c1, c2, c3, c4, c5, c6⟩ := add_ok a1 b1 h
    refine ⟨c3, by rw [c6, a2, b2]; rfl, ⟨by rw [c4, c5]; exact a3, by rw [c4, c5, ← c1, ← c2]; exact b3⟩, ?_⟩
    rintro (hh | hh)
    · exact a4 hh
    · exact b4 hh
  | .sub e e', N, h => by
    rw [OExpr.build] at h
    obtain ⟨L, hL, h⟩ := bind_ok h
    obtain ⟨M, hM, h⟩ := bind_ok h
    obtain ⟨K, hK, h⟩ := bind_ok h
    obtain ⟨a1, a2, a3, a4⟩ := build_sound e L hL
    obtain ⟨b1, b2, b3, b4⟩ := build_sound e' M hM
    obtain ⟨d1, d2, d3, d4, d5⟩ := smul_build hM hK b1
    obtain ⟨c1, c2, c3, c4, c5, c6⟩ := add_ok a1 d1 h
    refine ⟨c3, ?_, ⟨by rw [c4, c5]; exact a3, by rw [c4, c5, ← c1, ← c2, d2, d3]; exact b3⟩, ?_⟩
    · rw [c6, a2, d4, b2, OExpr.den, sub_eq_add_neg]
      congr 1
      exact LinearMap.ext fun v => by simp
    · rintro (hh | hh | hh)
      · exact a4 hh
      · exact b4 hh
      · exact d5 hh
  | .neg e, N, h => by
    rw [OExpr.build] at h
    obtain ⟨L, hL, h⟩ := bind_ok h
    obtain ⟨a1, a2, a3, a4⟩ := build_sound e L hL
    obtain ⟨d1, d2, d3, d4, d5⟩ := smul_build hL h a1
    refine ⟨d1, ?_, by rw [d2, d3]; exact a3, ?_⟩
    · rw [d4, a2, OExpr.den]
      exact LinearMap.ext fun v => by simp
    · rintro (hh | hh)
      · exact a4 hh
      · exact d5 hh
  | .smul c e, N, h => by
    rw [OExpr.build] at h
    obtain ⟨L, hL, h⟩ := bind_ok h
    obtain ⟨a1, a2, a3, a4⟩ := build_sound e L hL
    obtain ⟨d1, d2, d3, d4, d5⟩ := smul_build hL h a1
    refine ⟨d1, by rw [d4, a2, OExpr.den], by rw [d2, d3]; exact a3, ?_⟩
    rintro (hh | hh)
    · exact a4 hh
    · exact d5 hh
  | .matmul e e', N, h => by
    rw [OExpr.build] at h
    obtain ⟨L, hL, h⟩ := bind_ok h
    obtain ⟨M, hM, h⟩ := bind_ok h
    obtain ⟨a1, a2, a3, a4⟩ := build_sound e L hL
    obtain ⟨b1, b2, b3, b4⟩ := build_sound e' M hM
    obtain ⟨p1, p2⟩ := matmul_spec L a1 M b1
    by_cases hs : M.outS = L.inS
    · obtain ⟨N', n1, n2, n3, n4, n5⟩ := p1 hs
      rw [n1] at h
      have := Except.ok.inj h
      subst this
      refine ⟨n2, by rw [n5, a2, b2, OExpr.den], ⟨M.outS, by rw [n3]; exact b3, by rw [n4, hs]; exact a3⟩, ?_⟩
      rintro (hh | hh)
      · exact a4 hh
      · exact b4 hh
    · rw [p2 hs] at h; exact absurd h (by simp)

/-- Well-typed expressions without rescaling can be built. -/
lemma build_total : ∀ (e : OExpr X) (i o : Shapes), e.Typed i o → ¬e.Rescales → ∃ L, e.build = .ok L ∧ L.inS = i ∧ L.outS = o := by
  have shapes : ∀ (e : OExpr X) (i o : Shapes) (L : Op X), e.Typed i o → e.build = .ok L → L.inS = i ∧ L.outS = o :=
    fun e i o L ht h => typed_unique e _ _ _ _ (build_sound e L h).2.2.1 ht
  suffices H : ∀ (e : OExpr X) (i o : Shapes), e.Typed i o → ¬e.Rescales → ∃ L, e.build = .ok L by
    intro e i o h1 h2
    obtain ⟨L, hL⟩ := H e i o h1 h2
    exact ⟨L, hL, shapes e i o L h1 hL⟩
  have scale : ∀ (c : ℝ) (e : OExpr X) (L : Op X), e.build = .ok L → ¬e.scaledDiff → ∃ N, L.smul c = .ok N ∧ N.WF ∧
      N.inS = L.inS ∧ N.outS = L.outS := by
    intro c e L hL hs
    have hn := (build_scaledDiff hL).resolve_left hs
    rcases opSmul_spec c L (build_sound e L hL).1 with ⟨M, d, h, -⟩ | ⟨N, h1, h2, h3, h4, -⟩
    · exact absurd h (hn M d)
    · exact ⟨N, h1, h2, h3, h4⟩
  intro e
  induction e with
  | ident s => intro i o _ _; exact ⟨_, rfl⟩
  | base i o T b => intro _ _ _ _; exact ⟨_, rfl⟩
  | add e e' ih ih' =>
    intro i o ⟨t, t'⟩ hr
    obtain ⟨L, hL⟩ := ih i o t fun h => hr (Or.inl h)
    obtain ⟨M, hM⟩ := ih' i o t' fun h => hr (Or.inr h)
    obtain ⟨N, hN, -⟩ := (opAdd_spec L M (build_sound _ L hL).1 (build_sound _ M hM).1).1
      ⟨by rw [(shapes _ _ _ _ t hL).1, (shapes _ _ _ _ t' hM).1], by rw [(shapes _ _ _ _ t hL).2, (shapes _ _ _ _ t' hM).2]⟩
    refine ⟨N, ?_⟩
    show (e.build >>= _ : Except Err (Op X)) = _
    rw [hL]
    show (e'.build >>= _ : Except Err (Op X)) = _
    rw [hM]; exact hN
  | sub e e' ih ih' =>
    intro i o ⟨t, t'⟩ hr
    obtain ⟨L, hL⟩ := ih i o t fun h => hr (Or.inl h)
    obtain ⟨M, hM⟩ := ih' i o t' fun h => hr (Or.inr (Or.inl h))
    obtain ⟨K, hK, kw, k1, k2⟩ := scale (-1) e' M hM fun h => hr (Or.inr (Or.inr h))
    obtain ⟨N, hN, -⟩ := (opAdd_spec L K (build_sound _ L hL).1 kw).1
      ⟨by rw [k1, (shapes _ _ _ _ t hL).1, (shapes _ _ _ _ t' hM).1], by rw [k2, (shapes _ _ _ _ t hL).2, (shapes _ _ _ _ t' hM).2]⟩
    refine ⟨N, ?_⟩
    show (e.build >>= _ : Except Err (Op X)) = _
    rw [hL]
    show (e'.build >>= _ : Except Err (Op X)) = _
    rw [hM]
    show (M.neg >>= _ : Except Err (Op X)) = _
    unfold Op.neg
    rw [hK]; exact hN
  | neg e ih =>
    intro i o t hr
    obtain ⟨L, hL⟩ := ih i o t fun h => hr (Or.inl h)
    obtain ⟨K, hK, -⟩ := scale (-1) e L hL fun h => hr (Or.inr h)
    refine ⟨K, ?_⟩
    show (e.build >>= _ : Except Err (Op X)) = _
    rw [hL]; exact hK
  | smul c e ih =>
    intro i o t hr
    obtain ⟨L, hL⟩ := ih i o t fun h => hr (Or.inl h)
    obtain ⟨K, hK, -⟩ := scale c e L hL fun h => hr (Or.inr h)
    refine ⟨K, ?_⟩
    show (e.build >>= _ : Except Err (Op X)) = _
    rw [hL]; exact hK
  | matmul e e' ih ih' =>
    intro i o ⟨m, t', t⟩ hr
    obtain ⟨L, hL⟩ := ih m o t fun h => hr (Or.inl h)
    obtain ⟨M, hM⟩ := ih' i m t' fun h => hr (Or.inr h)
    obtain ⟨N, hN, -⟩ := (matmul_spec L (build_sound _ L hL).1 M (build_sound _ M hM).1).1
      (by rw [(shapes _ _ _ _ t hL).1, (shapes _ _ _ _ t' hM).2])
    refine ⟨N, ?_⟩
    show (e.build >>= _ : Except Err (Op X)) = _
    rw [hL]
    show (e'.build >>= _ : Except Err (Op X)) = _
    rw [hM]; exact hN

/-- No scaling in the expression. -/
def OExpr.Clean : OExpr X → Prop
  | .ident _ => True
  | .base _ _ _ _ => True
  | .add e e' => e.Clean ∧ e'.Clean
  | .matmul e e' => e.Clean ∧ e'.Clean
  | _ => False

/-- No scaling to the right of a composition. -/
def OExpr.Runs : OExpr X → Prop
  | .ident _ => True
  | .base _ _ _ _ => True
  | .add e e' => e.Runs ∧ e'.Runs
  | .sub e e' => e.Runs ∧ e'.Runs
  | .neg e => e.Runs
  | .smul _ e => e.Runs
  | .matmul e e' => e.Runs ∧ e'.Clean

lemma sum_clean {Ls : List (Op X)} {N : Op X} (h : Op.mkSum Ls = .ok N) (hc : allClean Ls) : N.Clean := by
  rw [(opMkSum_ok h).2.2, Op.Clean]; exact hc

lemma sum_runs {Ls : List (Op X)} {N : Op X} (h : Op.mkSum Ls = .ok N) (hc : allRuns Ls) : N.Runs := by
  rw [(opMkSum_ok h).2.2, Op.Runs]; exact hc

mutual
lemma matmul_clean (L : Op X) (hL : L.Clean) : ∀ (M N : Op X), M.Clean → L.matmul M = .ok N → N.Clean
  | .sum i o Ms, N, hM, h => by
    rw [Op.Clean] at hM
    rw [Op.matmul] at h
    obtain ⟨Ns, h1, h2⟩ := bind_ok h
    exact sum_clean h2 (matmulAll_clean L hL Ms Ns hM h1)
  | .ident s, N, hM, h => by
    rw [Op.matmul] at h; rw [mkComp_form h, Op.Clean]; exact ⟨hL, hM, trivial⟩
  | .base i o T b, N, hM, h => by
    rw [Op.matmul] at h; rw [mkComp_form h, Op.Clean]; exact ⟨hL, hM, trivial⟩
  | .scaled M c, N, hM, h => by rw [Op.Clean] at hM; exact hM.elim
  | .scaledDiff M c, N, hM, h => by rw [Op.Clean] at hM; exact hM.elim
  | .comp i o Ms, N, hM, h => by
    rw [Op.matmul] at h; rw [mkComp_form h, Op.Clean]; exact ⟨hL, hM, trivial⟩
lemma matmulAll_clean (L : Op X) (hL : L.Clean) : ∀ (Ms Ns : List (Op X)), allClean Ms → matmulAll L Ms = .ok Ns → allClean Ns
  | [], Ns, _, h => by rw [matmulAll] at h; cases h; trivial
  | M :: Ms, Ns, hc, h => by
    rw [allClean] at hc
    rw [matmulAll] at h
    obtain ⟨N, h1, h⟩ := bind_ok h
    obtain ⟨Ns', h2, h⟩ := bind_ok h
    cases h
    exact ⟨matmul_clean L hL M N hc.1 h1, matmulAll_clean L hL Ms Ns' hc.2 h2⟩
end

mutual
lemma matmul_runs (L : Op X) (hL : L.Runs) : ∀ (M N : Op X), M.Clean → L.matmul M = .ok N → N.Runs
  | .sum i o Ms, N, hM, h => by
    rw [Op.Clean] at hM
    rw [Op.matmul] at h
    obtain ⟨Ns, h1, h2⟩ := bind_ok h
    exact sum_runs h2 (matmulAll_runs L hL Ms Ns hM h1)
  | .ident s, N, hM, h => by
    rw [Op.matmul] at h; rw [mkComp_form h, Op.Runs]; exact ⟨hL, hM, trivial⟩
  | .base i o T b, N, hM, h => by
    rw [Op.matmul] at h; rw [mkComp_form h, Op.Runs]; exact ⟨hL, hM, trivial⟩
  | .scaled M c, N, hM, h => by rw [Op.Clean] at hM; exact hM.elim
  | .scaledDiff M c, N, hM, h => by rw [Op.Clean] at hM; exact hM.elim
  | .comp i o Ms, N, hM, h => by
    rw [Op.matmul] at h; rw [mkComp_form h, Op.Runs]; exact ⟨hL, hM, trivial⟩
lemma matmulAll_runs (L : Op X) (hL : L.Runs) : ∀ (Ms Ns : List (Op X)), allClean Ms → matmulAll L Ms = .ok Ns → allRuns Ns
  | [], Ns, _, h => by rw [matmulAll] at h; cases h; trivial
  | M :: Ms, Ns, hc, h => by
    rw [allClean] at hc
    rw [matmulAll] at h
    obtain ⟨N, h1, h⟩ := bind_ok h
    obtain ⟨Ns', h2, h⟩ := bind_ok h
    cases h
    exact ⟨matmul_runs L hL M N hc.1 h1, matmulAll_runs L hL Ms Ns' hc.2 h2⟩
end

lemma build_clean : ∀ (e : OExpr X) (L : Op X), e.Clean → e.build = .ok L → L.Clean
  | .ident s, L, _, h => by rw [OExpr.build] at h; cases h; trivial
  | .base i o T b, L, _, h => by rw [OExpr.build] at h; cases h; trivial
  | .add e e', N, hc, h => by
    rw [OExpr.build] at h
    obtain ⟨L, hL, h⟩ := bind_ok h
    obtain ⟨M, hM, h⟩ := bind_ok h
    exact sum_clean h ⟨build_clean e L hc.1 hL, build_clean e' M hc.2 hM, trivial⟩
  | .matmul e e', N, hc, h => by
    rw [OExpr.build] at h
    obtain ⟨L, hL, h⟩ := bind_ok h
    obtain ⟨M, hM, h⟩ := bind_ok h
    exact matmul_clean L (build_clean e L hc.1 hL) M N (build_clean e' M hc.2 hM) h
  | .sub _ _, _, hc, _ => hc.elim
  | .neg _, _, hc, _ => hc.elim
  | .smul _ _, _, hc, _ => hc.elim

lemma smul_runs {c : ℝ} {L N : Op X} (hL : L.Runs) (h : L.smul c = .ok N) : N.Runs := by
  cases L with
  | base i o T b =>
    cases b <;> (simp only [Op.smul, Bool.false_eq_true, if_false, if_true] at h; rw [← Except.ok.inj h, Op.Runs]; exact hL)
  | scaledDiff M d => simp [Op.smul] at h
  | ident s => simp only [Op.smul] at h; rw [← Except.ok.inj h, Op.Runs]; exact hL
  | scaled L d => simp only [Op.smul] at h; rw [← Except.ok.inj h, Op.Runs]; rw [Op.Runs] at hL; exact hL
  | sum i o ops => simp only [Op.smul] at h; rw [← Except.ok.inj h, Op.Runs]; exact hL
  | comp i o ops => simp only [Op.smul] at h; rw [← Except.ok.inj h, Op.Runs]; exact hL

lemma build_runs : ∀ (e : OExpr X) (L : Op X), e.Runs → e.build = .ok L → L.Runs
  | .ident s, L, _, h => by rw [OExpr.build] at h; cases h; trivial
  | .base i o T b, L, _, h => by rw [OExpr.build] at h; cases h; trivial
  | .add e e', N, hc, h => by
    rw [OExpr.build] at h
    obtain ⟨L, hL, h⟩ := bind_ok h
    obtain ⟨M, hM, h⟩ := bind_ok h
    exact sum_runs h ⟨build_runs e L hc.1 hL, build_runs e' M hc.2 hM, trivial⟩
  | .sub e e', N, hc, h => by
    rw [OExpr.build] at h
    obtain ⟨L, hL, h⟩ := bind_ok h
    obtain ⟨M, hM, h⟩ := bind_ok h
    obtain ⟨K, hK, h⟩ := bind_ok h
    exact sum_runs h ⟨build_runs e L hc.1 hL, smul_runs (build_runs e' M hc.2 hM) hK, trivial⟩
  | .neg e, N, hc, h => by
    rw [OExpr.build] at h
    obtain ⟨L, hL, h⟩ := bind_ok h
    exact smul_runs (build_runs e L hc hL) h
  | .smul c e, N, hc, h => by
    rw [OExpr.build] at h
    obtain ⟨L, hL, h⟩ := bind_ok h
    exact smul_runs (build_runs e L hc hL) h
  | .matmul e e', N, hc, h => by
    rw [OExpr.build] at h
    obtain ⟨L, hL, h⟩ := bind_ok h
    obtain ⟨M, hM, h⟩ := bind_ok h
    exact matmul_runs L (build_runs e L hc.1 hL) M N (build_clean e' M hc.2 hM) h

/-! ### Functional expressions -/

/-- Some operator inside the functional expression rescales. -/
def LExpr.Rescales : LExpr X → Prop
  | .base _ _ _ => False
  | .add e e' => e.Rescales ∨ e'.Rescales
  | .sub e e' => e.Rescales ∨ e'.Rescales
  | .neg e => e.Rescales
  | .smul _ e => e.Rescales
  | .matmul e L => e.Rescales ∨ L.Rescales
  | .rmatmul _ e => e.Rescales

/-- No operator inside the functional expression scales. -/
def LExpr.Runs : LExpr X → Prop
  | .base _ _ _ => True
  | .add e e' => e.Runs ∧ e'.Runs
  | .sub e e' => e.Runs ∧ e'.Runs
  | .neg e => e.Runs
  | .smul _ e => e.Runs
  | .matmul e L => e.Runs ∧ L.Clean
  | .rmatmul _ e => e.Runs

lemma ltyped_unique : ∀ (e : LExpr X) (i i' : Shapes) (o o' : Shp), e.Typed i o → e.Typed i' o' → i = i' ∧ o = o'
  | .base _ _ _, _, _, _, _, h, h' => ⟨h.1.symm.trans h'.1, h.2.symm.trans h'.2⟩
  | .add e _, i, i', o, o', h, h' => ltyped_unique e i i' o o' h.1 h'.1
  | .sub e _, i, i', o, o', h, h' => ltyped_unique e i i' o o' h.1 h'.1
  | .neg e, i, i', o, o', h, h' => ltyped_unique e i i' o o' h h'
  | .smul _ e, i, i', o, o', h, h' => ltyped_unique e i i' o o' h h'
  | .matmul e L, i, i', o, o', ⟨m, h1, h2⟩, ⟨m', h1', h2'⟩ =>
    ⟨(typed_unique L i m i' m' h1 h1').1, (ltyped_unique e m m' o o' h2 h2').2⟩
  | .rmatmul _ e, i, i', _, _, h, h' => ⟨(ltyped_unique e i i' _ _ h.1 h'.1).1, h.2.trans h'.2.symm⟩

lemma fadd_ok {F G N : Fnl X} (hF : F.WF) (hG : G.WF) (h : F.add G = .ok N) :
    G.inS = F.inS ∧ G.outS = F.outS ∧ N.WF ∧ N.inS = F.inS ∧ N.outS = F.outS ∧ N.den = F.den + G.den := by
  obtain ⟨p1, p2⟩ := fAdd_spec F G hF hG
  by_cases hs : G.inS = F.inS ∧ G.outS = F.outS
  · obtain ⟨N', h1, h2, h3, h4, h5⟩ := p1 hs
    rw [h1] at h
    have := Except.ok.inj h
    subst this
    exact ⟨hs.1, hs.2, h2, h3, h4, h5⟩
  · rw [p2 hs] at h; exact absurd h (by simp)

lemma lbuild_sound : ∀ (e : LExpr X) (F : Fnl X), e.build = .ok F →
    F.WF ∧ F.den = e.den ∧ e.Typed F.inS F.outS ∧ ¬e.Rescales
  | .base i o T, F, h => by
    rw [LExpr.build] at h; cases h
    exact ⟨by rw [Fnl.WF]; trivial, by rw [Fnl.den]; rfl, ⟨rfl, rfl⟩, id⟩
  | .add e e', N, h => by
    rw [LExpr.build] at h
    obtain ⟨L, hL, h⟩ := bind_ok h
    obtain ⟨M, hM, h⟩ := bind_ok h
    obtain ⟨a1, a2, a3, a4⟩ := lbuild_sound e L hL
    obtain ⟨b1, b2, b3, b4⟩ := lbuild_sound e' M hM
    obtain ⟨c1, c2, c3, c4, c5, c6⟩ := fadd_ok a1 b1 h
    refine ⟨c3, by rw [c6, a2, b2]; rfl, ⟨by rw [c4, c5]; exact a3, by rw [c4, c5, ← c1, ← c2]; exact b3⟩, ?_⟩
    rintro (hh | hh)
    · exact a4 hh
    · exact b4 hh
  | .sub e e', N, h => by
    rw [LExpr.build] at h
    obtain ⟨L, hL, h⟩ := bind_ok h
    obtain ⟨M, hM, h⟩ := bind_ok h
    obtain ⟨a1, a2, a3, a4⟩ := lbuild_sound e L hL
    obtain ⟨b1, b2, b3, b4⟩ := lbuild_sound e' M hM
    obtain ⟨d1, d2, d3, d4⟩ := fSmul_spec (-1) M b1
    obtain ⟨c1, c2, c3, c4, c5, c6⟩ := fadd_ok a1 d1 h
    refine ⟨c3, ?_, ⟨by rw [c4, c5]; exact a3, by rw [c4, c5, ← c1, ← c2, d2, d3]; exact b3⟩, ?_⟩
    · rw [c6, a2, d4, b2, LExpr.den, sub_eq_add_neg]
      congr 1
      exact LinearMap.ext fun v => by simp
    · rintro (hh | hh)
      · exact a4 hh
      · exact b4 hh
  | .neg e, N, h => by
    rw [LExpr.build] at h
    obtain ⟨L, hL, h⟩ := bind_ok h
    obtain ⟨a1, a2, a3, a4⟩ := lbuild_sound e L hL
    obtain ⟨d1, d2, d3, d4⟩ := fSmul_spec (-1) L a1
    have := Except.ok.inj h
    subst this
    refine ⟨d1, ?_, ?_, a4⟩
    · show (L.smul (-1)).den = _
      rw [d4, a2, LExpr.den]
      exact LinearMap.ext fun v => by simp
    · show e.Typed (L.smul (-1)).inS (L.smul (-1)).outS
      rw [d2, d3]; exact a3
  | .smul c e, N, h => by
    rw [LExpr.build] at h
    obtain ⟨L, hL, h⟩ := bind_ok h
    obtain ⟨a1, a2, a3, a4⟩ := lbuild_sound e L hL
    obtain ⟨d1, d2, d3, d4⟩ := fSmul_spec c L a1
    have := Except.ok.inj h
    subst this
    refine ⟨d1, by rw [d4, a2, LExpr.den], ?_, a4⟩
    show e.Typed (L.smul c).inS (L.smul c).outS
    rw [d2, d3]; exact a3
  | .matmul e L, N, h => by
    rw [LExpr.build] at h
    obtain ⟨F, hF, h⟩ := bind_ok h
    obtain ⟨M, hM, h⟩ := bind_ok h
    obtain ⟨a1, a2, a3, a4⟩ := lbuild_sound e F hF
    obtain ⟨b1, b2, b3, b4⟩ := build_sound L M hM
    obtain ⟨p1, p2⟩ := fMatmul_spec F M a1 b1
    by_cases hs : M.outS = F.inS
    · obtain ⟨N', n1, n2, n3, n4, n5⟩ := p1 hs
      rw [n1] at h
      have := Except.ok.inj h
      subst this
      refine ⟨n2, by rw [n5, a2, b2, LExpr.den], ⟨M.outS, by rw [n3]; exact b3, by rw [n4, hs]; exact a3⟩, ?_⟩
      rintro (hh | hh)
      · exact a4 hh
      · exact b4 hh
    · rw [p2 hs] at h; exact absurd h (by simp)
  | .rmatmul A e, N, h => by
    rw [LExpr.build] at h
    obtain ⟨F, hF, h⟩ := bind_ok h
    obtain ⟨a1, a2, a3, a4⟩ := lbuild_sound e F hF
    obtain ⟨p1, p2⟩ := fRmatmul_spec A F a1
    by_cases hs : F.outS = [A.n]
    · obtain ⟨N', n1, n2, n3, n4, n5⟩ := p1 hs
      rw [n1] at h
      have := Except.ok.inj h
      subst this
      exact ⟨n2, by rw [n5, a2, LExpr.den], ⟨by rw [n3, ← hs]; exact a3, n4⟩, a4⟩
    · obtain ⟨e, he⟩ := p2 hs
      rw [he] at h; exact absurd h (by simp)

lemma lbuild_total (e : LExpr X) : ∀ (i : Shapes) (o : Shp), e.Typed i o → ¬e.Rescales → ∃ F, e.build = .ok F ∧ F.inS = i ∧ F.outS = o := by
  have shapes : ∀ (e : LExpr X) (i : Shapes) (o : Shp) (L : Fnl X), e.Typed i o → e.build = .ok L → L.inS = i ∧ L.outS = o :=
    fun e i o L ht h => ltyped_unique e _ _ _ _ (lbuild_sound e L h).2.2.1 ht
  suffices H : ∀ (e : LExpr X) (i : Shapes) (o : Shp), e.Typed i o → ¬e.Rescales → ∃ L, e.build = .ok L by
    intro i o h1 h2
    obtain ⟨L, hL⟩ := H e i o h1 h2
    exact ⟨L, hL, shapes e i o L h1 hL⟩
  intro e
  induction e with
  | base i o T => intro _ _ _ _; exact ⟨_, rfl⟩
  | add e e' ih ih' =>
    intro i o ⟨t, t'⟩ hr
    obtain ⟨L, hL⟩ := ih i o t fun h => hr (Or.inl h)
    obtain ⟨M, hM⟩ := ih' i o t' fun h => hr (Or.inr h)
    obtain ⟨N, hN, -⟩ := (fAdd_spec L M (lbuild_sound _ L hL).1 (lbuild_sound _ M hM).1).1
      ⟨by rw [(shapes _ _ _ _ t hL).1, (shapes _ _ _ _ t' hM).1], by rw [(shapes _ _ _ _ t hL).2, (shapes _ _ _ _ t' hM).2]⟩
    refine ⟨N, ?_⟩
    show (e.build >>= _ : Except Err (Fnl X)) = _
    rw [hL]
    show (e'.build >>= _ : Except Err (Fnl X)) = _
    rw [hM]; exact hN
  | sub e e' ih ih' =>
    intro i o ⟨t, t'⟩ hr
    obtain ⟨L, hL⟩ := ih i o t fun h => hr (Or.inl h)
    obtain ⟨M, hM⟩ := ih' i o t' fun h => hr (Or.inr h)
    obtain ⟨kw, k1, k2, -⟩ := fSmul_spec (-1) M (lbuild_sound _ M hM).1
    obtain ⟨N, hN, -⟩ := (fAdd_spec L (M.smul (-1)) (lbuild_sound _ L hL).1 kw).1
      ⟨by rw [k1, (shapes _ _ _ _ t hL).1, (shapes _ _ _ _ t' hM).1], by rw [k2, (shapes _ _ _ _ t hL).2, (shapes _ _ _ _ t' hM).2]⟩
    refine ⟨N, ?_⟩
    show (e.build >>= _ : Except Err (Fnl X)) = _
    rw [hL]
    show (e'.build >>= _ : Except Err (Fnl X)) = _
    rw [hM]; exact hN
  | neg e ih =>
    intro i o t hr
    obtain ⟨L, hL⟩ := ih i o t hr
    refine ⟨L.neg, ?_⟩
    show (e.build >>= _ : Except Err (Fnl X)) = _
    rw [hL]; rfl
  | smul c e ih =>
    intro i o t hr
    obtain ⟨L, hL⟩ := ih i o t hr
    refine ⟨L.smul c, ?_⟩
    show (e.build >>= _ : Except Err (Fnl X)) = _
    rw [hL]; rfl
  | matmul e L ih =>
    intro i o ⟨m, t', t⟩ hr
    obtain ⟨F, hF⟩ := ih m o t fun h => hr (Or.inl h)
    obtain ⟨M, hM, -, m2⟩ := build_total L i m t' fun h => hr (Or.inr h)
    obtain ⟨N, hN, -⟩ := (fMatmul_spec F M (lbuild_sound _ F hF).1 (build_sound _ M hM).1).1
      (by rw [(shapes _ _ _ _ t hF).1, m2])
    refine ⟨N, ?_⟩
    show (e.build >>= _ : Except Err (Fnl X)) = _
    rw [hF]
    show (L.build >>= _ : Except Err (Fnl X)) = _
    rw [hM]; exact hN
  | rmatmul A e ih =>
    intro i o ⟨t, ho⟩ hr
    obtain ⟨F, hF⟩ := ih i _ t hr
    obtain ⟨N, hN, -⟩ := (fRmatmul_spec A F (lbuild_sound _ F hF).1).1 (shapes _ _ _ _ t hF).2
    refine ⟨N, ?_⟩
    show (e.build >>= _ : Except Err (Fnl X)) = _
    rw [hF]; exact hN

lemma fsmul_runs (c : ℝ) {F : Fnl X} (hF : F.Runs) : (F.smul c).Runs := by
  cases F with
  | scaled F d => rw [Fnl.Runs] at hF; rw [Fnl.smul, Fnl.Runs]; exact hF
  | base i o T => show (Fnl.scaled _ c).Runs; rw [Fnl.Runs]; exact hF
  | sum i o fs => show (Fnl.scaled _ c).Runs; rw [Fnl.Runs]; exact hF
  | comp A F L => show (Fnl.scaled _ c).Runs; rw [Fnl.Runs]; exact hF

lemma fmkSum_runs {Fs : List (Fnl X)} {N : Fnl X} (h : Fnl.mkSum Fs = .ok N) (hr : allFRuns Fs) : N.Runs := by
  cases Fs with
  | nil => simp [Fnl.mkSum] at h
  | cons F Fs =>
    rw [Fnl.mkSum] at h
    split_ifs at h
    rw [← Except.ok.inj h, Fnl.Runs]; exact hr

lemma fmkComp_form {A : Option LinOp} {F N : Fnl X} {L : Option (Op X)} (h : Fnl.mkComp A F L = .ok N) : N = .comp A F L := by
  unfold Fnl.mkComp at h
  split_ifs at h
  exact (Except.ok.inj h).symm

lemma lbuild_runs : ∀ (e : LExpr X) (F : Fnl X), e.Runs → e.build = .ok F → F.Runs
  | .base i o T, F, _, h => by rw [LExpr.build] at h; cases h; trivial
  | .add e e', N, hr, h => by
    rw [LExpr.build] at h
    obtain ⟨L, hL, h⟩ := bind_ok h
    obtain ⟨M, hM, h⟩ := bind_ok h
    exact fmkSum_runs h ⟨lbuild_runs e L hr.1 hL, lbuild_runs e' M hr.2 hM, trivial⟩
  | .sub e e', N, hr, h => by
    rw [LExpr.build] at h
    obtain ⟨L, hL, h⟩ := bind_ok h
    obtain ⟨M, hM, h⟩ := bind_ok h
    exact fmkSum_runs (Fs := [L, M.smul (-1)]) h ⟨lbuild_runs e L hr.1 hL, fsmul_runs (-1) (lbuild_runs e' M hr.2 hM), trivial⟩
  | .neg e, N, hr, h => by
    rw [LExpr.build] at h
    obtain ⟨L, hL, h⟩ := bind_ok h
    rw [← Except.ok.inj h]; exact fsmul_runs (-1) (lbuild_runs e L hr hL)
  | .smul c e, N, hr, h => by
    rw [LExpr.build] at h
    obtain ⟨L, hL, h⟩ := bind_ok h
    rw [← Except.ok.inj h]; exact fsmul_runs c (lbuild_runs e L hr hL)
  | .matmul e L, N, hr, h => by
    rw [LExpr.build] at h
    obtain ⟨F, hF, h⟩ := bind_ok h
    obtain ⟨M, hM, h⟩ := bind_ok h
    have a := lbuild_runs e F hr.1 hF
    have b := build_clean L M hr.2 hM
    have gen : ∀ G : Fnl X, G.Runs → Fnl.mkComp none G (some M) = .ok N → N.Runs := fun G hG hh => by
      rw [fmkComp_form hh, Fnl.Runs]; exact ⟨hG, by rintro _ ⟨⟩; exact b⟩
    cases F with
    | base i o T => exact gen _ a h
    | scaled F c => exact gen _ a h
    | sum i o fs => exact gen _ a h
    | comp A F K =>
      rw [Fnl.Runs] at a
      cases K with
      | none =>
        rw [fmkComp_form (show Fnl.mkComp A F (some M) = .ok N from h), Fnl.Runs]
        exact ⟨a.1, by rintro _ ⟨⟩; exact b⟩
      | some K =>
        obtain ⟨K', hK', h⟩ := bind_ok (show (K.matmul M >>= fun N => Fnl.mkComp A F (some N)) = .ok N from h)
        rw [fmkComp_form h, Fnl.Runs]
        exact ⟨a.1, by rintro _ ⟨⟩; exact matmul_clean K (a.2 K rfl) M K' b hK'⟩
  | .rmatmul A e, N, hr, h => by
    rw [LExpr.build] at h
    obtain ⟨F, hF, h⟩ := bind_ok h
    have a := lbuild_runs e F hr hF
    have gen : ∀ G : Fnl X, G.Runs → Fnl.mkComp (some A) G none = .ok N → N.Runs := fun G hG hh => by
      rw [fmkComp_form hh, Fnl.Runs]; exact ⟨hG, by simp⟩
    cases F with
    | base i o T => exact gen _ a h
    | scaled F c => exact gen _ a h
    | sum i o fs => exact gen _ a h
    | comp B F K =>
      rw [Fnl.Runs] at a
      cases B with
      | none =>
        rw [fmkComp_form (show Fnl.mkComp (some A) F K = .ok N from h), Fnl.Runs]
        exact a
      | some B =>
        obtain ⟨C, -, h⟩ := bind_ok (show (A.mul B >>= fun C => Fnl.mkComp (some C) F K) = .ok N from h)
        rw [fmkComp_form h, Fnl.Runs]
        exact a

end LinPDE.Ops
