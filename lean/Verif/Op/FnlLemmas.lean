import Verif.Op.Lemmas

/-! # Functional arithmetic and termination: helper lemmas -/

namespace LinPDE.Ops
open LinPDE.Nd

variable {X : Type}

/-- An array that carries the value `t` in shape `o`, or the scalar `0` if `t` vanishes. -/
def Good (v : Arr) (o : Shp) (t : ℕ → ℝ) : Prop :=
  (v.shape = o ∧ ∀ p < o.prod, v.get p = t p) ∨ (v.shape = [] ∧ (∀ p, v.get p = 0) ∧ ∀ p < o.prod, t p = 0)

lemma Good.add {v w : Arr} {o : Shp} {t t' : ℕ → ℝ} (hv : Good v o t) (hw : Good w o t') :
    ∃ u, v.add w = .ok u ∧ Good u o (t + t') := by
  rcases hv with ⟨v1, v2⟩ | ⟨v1, v2, v3⟩ <;> rcases hw with ⟨w1, w2⟩ | ⟨w1, w2, w3⟩
  · refine ⟨⟨v.shape, fun p => v.get p + w.get p⟩, ?_, Or.inl ⟨v1, fun p hp => ?_⟩⟩
    · rw [Arr.add, if_pos (by rw [v1, w1])]
    · simp only [Pi.add_apply]; rw [v2 p hp, w2 p hp]
  · by_cases ho : o = []
    · refine ⟨⟨v.shape, fun p => v.get p + w.get p⟩, ?_, Or.inl ⟨v1, fun p hp => ?_⟩⟩
      · rw [Arr.add, if_pos (by rw [v1, w1, ho])]
      · simp only [Pi.add_apply]; rw [v2 p hp, w2 p, w3 p hp]
    · refine ⟨⟨v.shape, fun p => v.get p + w.get 0⟩, ?_, Or.inl ⟨v1, fun p hp => ?_⟩⟩
      · rw [Arr.add, if_neg (by rw [v1, w1]; exact ho), if_neg (by rw [v1]; exact ho), if_pos w1]
      · simp only [Pi.add_apply]; rw [v2 p hp, w2 0, w3 p hp]
  · by_cases ho : o = []
    · refine ⟨⟨v.shape, fun p => v.get p + w.get p⟩, ?_, Or.inl ⟨by rw [v1, ho], fun p hp => ?_⟩⟩
      · rw [Arr.add, if_pos (by rw [v1, w1, ho])]
      · simp only [Pi.add_apply]; rw [v2 p, w2 p hp, v3 p hp]
    · refine ⟨⟨w.shape, fun p => v.get 0 + w.get p⟩, ?_, Or.inl ⟨w1, fun p hp => ?_⟩⟩
      · rw [Arr.add, if_neg (by rw [v1, w1]; exact fun h => ho h.symm), if_pos v1]
      · simp only [Pi.add_apply]; rw [v2 0, w2 p hp, v3 p hp]
  · refine ⟨⟨v.shape, fun p => v.get p + w.get p⟩, ?_, Or.inr ⟨v1, fun p => ?_, fun p hp => ?_⟩⟩
    · rw [Arr.add, if_pos (by rw [v1, w1])]
    · show v.get p + w.get p = 0
      rw [v2 p, w2 p, add_zero]
    · simp only [Pi.add_apply]; rw [v3 p hp, w3 p hp, add_zero]

lemma Good.smul {v : Arr} {o : Shp} {t : ℕ → ℝ} (c : ℝ) (hv : Good v o t) : Good (v.smul c) o (c • t) := by
  rcases hv with ⟨v1, v2⟩ | ⟨v1, v2, v3⟩
  · refine Or.inl ⟨v1, fun p hp => ?_⟩
    show c * v.get p = c * t p
    rw [v2 p hp]
  · refine Or.inr ⟨v1, fun p => ?_, fun p hp => ?_⟩
    · show c * v.get p = 0
      rw [v2 p, mul_zero]
    · show c * t p = 0
      rw [v3 p hp, mul_zero]

lemma Good.congr {v : Arr} {o : Shp} {t t' : ℕ → ℝ} (h : t = t') (hv : Good v o t) : Good v o t' := h ▸ hv

lemma foldAdd_spec (o : Shp) : ∀ (vs : List Arr) (ts : List (ℕ → ℝ)) (v : Arr) (t : ℕ → ℝ), Good v o t →
    List.Forall₂ (fun v t => Good v o t) vs ts →
    ∃ u, vs.foldl (fun acc w => acc >>= fun a => Arr.add a w) (.ok v) = .ok u ∧ Good u o (t + ts.sum)
  | [], _, v, t, hv, .nil => ⟨v, rfl, by simpa using hv⟩
  | w :: vs, _, v, t, hv, .cons (b := t') (l₂ := ts) hw hr => by
    obtain ⟨u, hu, hg⟩ := hv.add hw
    obtain ⟨z, hz, hzg⟩ := foldAdd_spec o vs ts u _ hg hr
    refine ⟨z, ?_, ?_⟩
    · rw [List.foldl_cons]
      show vs.foldl _ (v.add w) = _
      rw [hu, hz]
    · rw [List.sum_cons, ← add_assoc]; exact hzg

lemma callFnlBase_scaled (i : Shapes) (o : Shp) (T : Val X →ₗ[ℝ] (ℕ → ℝ)) (f : JFn X) (c : ℝ) :
    ∀ n, callFnlBase i o T n (.scaled f c) = .error .recursionError
  | 0 => rfl
  | n + 1 => by rw [callFnlBase, callFnlBase_scaled i o T f c n]; rfl

lemma callBase_scaled (i o : Shapes) (T : Val X →ₗ[ℝ] Val X) (f : JFn X) (c : ℝ) :
    ∀ n, callBase i o T n (.scaled f c) = .error .recursionError
  | 0 => rfl
  | n + 1 => by rw [callBase, callBase_scaled i o T f c n]; rfl

lemma callFnlBase_spec (i : Shapes) (o : Shp) (T : Val X →ₗ[ℝ] (ℕ → ℝ)) : ∀ (n : ℕ) (f : JFn X) (v : Arr),
    callFnlBase i o T n f = .ok v → Good v o (T f.eval)
  | 0, f, v, h => by simp [callFnlBase] at h
  | n + 1, f, v, h => by
    cases f with
    | sum sh fs =>
      rw [callFnlBase] at h
      obtain ⟨vs, hvs, h'⟩ := bind_ok h
      clear h
      have hall := mapE_ok _ _ _ hvs
      have hf : List.Forall₂ (fun v t => Good v o t) vs (fs.map (T ∘ JFn.eval)) := by
        clear hvs h'
        induction hall with
        | nil => exact .nil
        | cons hd _ ih => exact .cons (callFnlBase_spec i o T n _ _ hd) ih
      obtain ⟨u, hu, hg⟩ := foldAdd_spec o vs _ ⟨[], fun _ => 0⟩ 0 (Or.inr ⟨rfl, fun _ => rfl, fun _ _ => rfl⟩) hf
      rw [hu] at h'
      have := Except.ok.inj h'
      subst this
      refine hg.congr ?_
      rw [zero_add, eval_sum, map_list_sum, List.map_map]
    | scaled f c =>
      rw [callFnlBase_scaled] at h
      simp at h
    | zero i' o' =>
      rw [callFnlBase] at h
      have := (Except.ok.inj h).symm
      subst this
      exact Or.inr ⟨rfl, fun _ => rfl, fun p _ => by rw [eval_zero, map_zero]; rfl⟩
    | base sh ev =>
      simp only [callFnlBase] at h
      split_ifs at h
      have := (Except.ok.inj h).symm
      subst this
      exact Or.inl ⟨rfl, fun _ _ => rfl⟩
    | const i' o' v =>
      simp only [callFnlBase] at h
      split_ifs at h
      have := (Except.ok.inj h).symm
      subst this
      exact Or.inl ⟨rfl, fun _ _ => rfl⟩

/-! ### Valid functionals -/

mutual
/-- The invariants established by the constructors. -/
def Fnl.WF : Fnl X → Prop
  | .base _ _ _ => True
  | .scaled F _ => F.WF
  | .sum i o fs => fs ≠ [] ∧ (∀ G ∈ fs, G.inS = i ∧ G.outS = o) ∧ allFWF fs
  | .comp A F L => F.WF ∧ (∀ B, A = some B → F.outS = [B.n]) ∧ ∀ M, L = some M → M.WF ∧ M.outS = F.inS
def allFWF : List (Fnl X) → Prop
  | [] => True
  | F :: Fs => F.WF ∧ allFWF Fs
end

/-- Meaning of an optional matrix. -/
noncomputable def optMat : Option LinOp → (ℕ → ℝ) →ₗ[ℝ] (ℕ → ℝ)
  | none => LinearMap.id
  | some A => A.lin

/-- Meaning of an optional operator. -/
noncomputable def optOp : Option (Op X) → Module.End ℝ (Val X)
  | none => 1
  | some L => L.den

mutual
/-- Meaning of a functional object. -/
noncomputable def Fnl.den : Fnl X → (Val X →ₗ[ℝ] (ℕ → ℝ))
  | .base _ _ T => T
  | .scaled F c => c • F.den
  | .sum _ _ fs => fdenSum fs
  | .comp A F L => optMat A ∘ₗ F.den ∘ₗ optOp L
noncomputable def fdenSum : List (Fnl X) → (Val X →ₗ[ℝ] (ℕ → ℝ))
  | [] => 0
  | F :: Fs => F.den + fdenSum Fs
end

lemma mv_congr (A : LinOp) {v w : ℕ → ℝ} (h : ∀ p < A.n, v p = w p) : A.mv v = A.mv w := by
  funext p
  unfold LinOp.mv
  exact Finset.sum_congr rfl fun q hq => by rw [h q (Finset.mem_range.mp hq)]

mutual
lemma fcall_sound (n : ℕ) : ∀ (F : Fnl X) (f : JFn X) (v : Arr), F.WF → F.call n f = .ok v → Good v F.outS (F.den f.eval)
  | .base i o T, f, v, _, h => by
    rw [Fnl.call] at h
    rw [Fnl.den]
    exact callFnlBase_spec i o T n f v h
  | .scaled F c, f, v, hw, h => by
    rw [Fnl.call] at h
    obtain ⟨k, hk, h⟩ := bind_ok h
    have := Except.ok.inj h
    subst this
    rw [Fnl.WF] at hw
    rw [Fnl.den]
    exact (fcall_sound n F f k hw hk).smul c
  | .sum i o fs, f, v, hw, h => by
    rw [Fnl.call] at h
    obtain ⟨vs, hvs, h⟩ := bind_ok h
    rw [Fnl.WF] at hw
    obtain ⟨h0, hsh, hw⟩ := hw
    obtain ⟨ts, ht, hs, hl⟩ := fnlAll_sound n fs f vs o hw (fun M hM => (hsh M hM).2) hvs
    cases vs with
    | nil => exact absurd (List.length_eq_zero_iff.mp (by simpa using hl.symm)) h0
    | cons v0 vs =>
      cases ht with
      | cons h1 h2 =>
        rename_i t0 ts
        obtain ⟨u, hu, hg⟩ := foldAdd_spec o vs ts v0 t0 h1 h2
        rw [reduceArr, hu] at h
        have := Except.ok.inj h
        subst this
        rw [Fnl.den, ← hs, List.sum_cons]
        exact hg
  | .comp A F L, f, v, hw, h => by
    rw [Fnl.call] at h
    obtain ⟨g, hg, h⟩ := bind_ok h
    obtain ⟨w, hw', h⟩ := bind_ok h
    rw [Fnl.WF] at hw
    obtain ⟨hF, hA, hL⟩ := hw
    have e : g.eval = optOp L f.eval := by
      cases L with
      | none => rw [callOpt] at hg; rw [← Except.ok.inj hg]; rfl
      | some M => exact (call_sound n M f g (hL M rfl).1 hg).2
    have hgood := fcall_sound n F g w hF hw'
    rw [Fnl.den]
    cases A with
    | none =>
      rw [linOpt] at h
      have := Except.ok.inj h
      subst this
      refine Good.congr ?_ hgood
      rw [e]; rfl
    | some B =>
      rw [linOpt, LinOp.call] at h
      split_ifs at h with hs
      have := (Except.ok.inj h).symm
      subst this
      have ho := hA B rfl
      rcases hgood with ⟨g1, g2⟩ | ⟨g1, -, -⟩
      · refine Or.inl ⟨rfl, fun p _ => ?_⟩
        show B.mv w.get p = B.mv (F.den (optOp L f.eval)) p
        rw [← e]
        rw [mv_congr B (w := F.den g.eval)]
        intro q hq
        exact g2 q (by rw [ho]; simpa using hq)
      · rw [g1] at hs; simp at hs
lemma fnlAll_sound (n : ℕ) : ∀ (Fs : List (Fnl X)) (f : JFn X) (vs : List Arr) (o : Shp), allFWF Fs →
    (∀ G ∈ Fs, G.outS = o) → fnlAll n Fs f = .ok vs →
    ∃ ts : List (ℕ → ℝ), List.Forall₂ (fun v t => Good v o t) vs ts ∧ ts.sum = fdenSum Fs f.eval ∧ vs.length = Fs.length
  | [], f, vs, o, _, _, h => by
    rw [fnlAll] at h
    have := Except.ok.inj h
    subst this
    exact ⟨[], .nil, by simp [fdenSum], rfl⟩
  | F :: Fs, f, vs, o, hw, ho, h => by
    rw [fnlAll] at h
    obtain ⟨v, hv, h⟩ := bind_ok h
    obtain ⟨vs', hvs, h⟩ := bind_ok h
    have := Except.ok.inj h
    subst this
    rw [allFWF] at hw
    have a := fcall_sound n F f v hw.1 hv
    rw [ho F List.mem_cons_self] at a
    obtain ⟨ts, b1, b2, b3⟩ := fnlAll_sound n Fs f vs' o hw.2 (fun M hM => ho M (List.mem_cons_of_mem _ hM)) hvs
    exact ⟨F.den f.eval :: ts, .cons a b1, by rw [List.sum_cons, b2, fdenSum]; rfl, by simp [b3]⟩
end

/-! ### Construction of functionals -/

lemma fMkSum_spec (i : Shapes) (o : Shp) (Fs : List (Fnl X)) (h0 : Fs ≠ []) (h : ∀ G ∈ Fs, G.inS = i ∧ G.outS = o)
    (hw : allFWF Fs) : ∃ N, Fnl.mkSum Fs = .ok N ∧ N.WF ∧ N.inS = i ∧ N.outS = o ∧ N.den = fdenSum Fs := by
  cases Fs with
  | nil => exact absurd rfl h0
  | cons F Fs =>
    obtain ⟨h1, h2⟩ := h F List.mem_cons_self
    refine ⟨.sum i o (F :: Fs), ?_, ?_, rfl, rfl, by rw [Fnl.den]⟩
    · rw [Fnl.mkSum, if_pos, h1, h2]
      rw [List.all_eq_true]
      intro M hM
      rw [Bool.and_eq_true, beq_iff_eq, beq_iff_eq, (h M hM).1, (h M hM).2]
      exact ⟨h1.symm, h2.symm⟩
    · rw [Fnl.WF]; exact ⟨h0, h, hw⟩

lemma fAdd_spec (F G : Fnl X) (hF : F.WF) (hG : G.WF) :
    (G.inS = F.inS ∧ G.outS = F.outS → ∃ N, F.add G = .ok N ∧ N.WF ∧ N.inS = F.inS ∧ N.outS = F.outS ∧ N.den = F.den + G.den) ∧
      (¬(G.inS = F.inS ∧ G.outS = F.outS) → F.add G = .error .assertionError) := by
  constructor
  · intro h
    obtain ⟨N, n1, n2, n3, n4, n5⟩ := fMkSum_spec F.inS F.outS [F, G] (by simp) (by
      intro K hK
      rcases List.mem_cons.mp hK with rfl | hK
      · exact ⟨rfl, rfl⟩
      · rw [List.mem_singleton] at hK; subst hK; exact h) ⟨hF, hG, trivial⟩
    exact ⟨N, n1, n2, n3, n4, by rw [n5, fdenSum, fdenSum, fdenSum, add_zero]⟩
  · intro h
    unfold Fnl.add
    rw [Fnl.mkSum, if_neg]
    rw [List.all_eq_true]
    intro hh
    have := hh G (by simp)
    rw [Bool.and_eq_true, beq_iff_eq, beq_iff_eq] at this
    exact h this

lemma fSmul_spec (c : ℝ) (F : Fnl X) (hF : F.WF) :
    (F.smul c).WF ∧ (F.smul c).inS = F.inS ∧ (F.smul c).outS = F.outS ∧ (F.smul c).den = c • F.den := by
  cases F with
  | scaled G d =>
    rw [Fnl.WF] at hF
    refine ⟨by rw [Fnl.smul, Fnl.WF]; exact hF, rfl, rfl, ?_⟩
    rw [Fnl.smul, Fnl.den, Fnl.den, mul_smul]
  | base i o T =>
    refine ⟨?_, rfl, rfl, ?_⟩
    · show (Fnl.scaled _ c).WF
      rw [Fnl.WF]; exact hF
    · show (Fnl.scaled _ c).den = _
      conv_lhs => rw [Fnl.den]
  | sum i o fs =>
    refine ⟨?_, rfl, rfl, ?_⟩
    · show (Fnl.scaled _ c).WF
      rw [Fnl.WF]; exact hF
    · show (Fnl.scaled _ c).den = _
      conv_lhs => rw [Fnl.den]
  | comp A F L =>
    refine ⟨?_, rfl, rfl, ?_⟩
    · show (Fnl.scaled _ c).WF
      rw [Fnl.WF]; exact hF
    · show (Fnl.scaled _ c).den = _
      conv_lhs => rw [Fnl.den]

lemma mkCompF_ok (A : Option LinOp) (F : Fnl X) (L : Option (Op X)) (hF : F.WF) (hA : ∀ B, A = some B → F.outS = [B.n])
    (hL : ∀ M, L = some M → M.WF ∧ M.outS = F.inS) :
    Fnl.mkComp A F L = .ok (.comp A F L) ∧ (Fnl.comp A F L).WF := by
  constructor
  · unfold Fnl.mkComp
    rw [if_pos, if_pos]
    · cases A with
      | none => rfl
      | some B => simp [hA B rfl]
    · cases L with
      | none => rfl
      | some M => simp [(hL M rfl).2]
  · rw [Fnl.WF]; exact ⟨hF, hA, hL⟩

lemma fMatmul_spec (F : Fnl X) (M : Op X) (hF : F.WF) (hM : M.WF) :
    (M.outS = F.inS → ∃ N, F.matmul M = .ok N ∧ N.WF ∧ N.inS = M.inS ∧ N.outS = F.outS ∧ N.den = F.den ∘ₗ M.den) ∧
      (M.outS ≠ F.inS → F.matmul M = .error .assertionError) := by
  have gen : ∀ G : Fnl X, G.WF → (M.outS = G.inS → ∃ N, Fnl.mkComp none G (some M) = .ok N ∧ N.WF ∧ N.inS = M.inS ∧
      N.outS = G.outS ∧ N.den = G.den ∘ₗ M.den) ∧ (M.outS ≠ G.inS → Fnl.mkComp none G (some M) = .error .assertionError) := by
    intro G hG
    constructor
    · intro h
      obtain ⟨h1, h2⟩ := mkCompF_ok none G (some M) hG (by simp) (by rintro _ ⟨⟩; exact ⟨hM, h⟩)
      exact ⟨_, h1, h2, rfl, rfl, by rw [Fnl.den]; rfl⟩
    · intro h
      unfold Fnl.mkComp
      rw [if_neg]
      simpa using h
  cases F with
  | base i o T => exact gen _ hF
  | scaled F c => exact gen _ hF
  | sum i o fs => exact gen _ hF
  | comp A F L =>
    rw [Fnl.WF] at hF
    obtain ⟨hF, hA, hL⟩ := hF
    cases L with
    | none =>
      have e : (Fnl.comp A F none).matmul M = Fnl.mkComp A F (some M) := rfl
      rw [e]
      constructor
      · intro h
        obtain ⟨h1, h2⟩ := mkCompF_ok A F (some M) hF hA (by rintro _ ⟨⟩; exact ⟨hM, h⟩)
        refine ⟨_, h1, h2, rfl, ?_, ?_⟩
        · cases A <;> rfl
        · rw [Fnl.den, Fnl.den]; rfl
      · intro h
        have h : M.outS ≠ F.inS := h
        unfold Fnl.mkComp
        rw [if_neg]
        simpa using h
    | some L =>
      obtain ⟨hLw, hLo⟩ := hL L rfl
      obtain ⟨p1, p2⟩ := matmul_spec L hLw M hM
      have e : (Fnl.comp A F (some L)).matmul M = (L.matmul M >>= fun N => Fnl.mkComp A F (some N)) := rfl
      rw [e]
      constructor
      · intro h
        obtain ⟨N, n1, n2, n3, n4, n5⟩ := p1 h
        obtain ⟨h1, h2⟩ := mkCompF_ok A F (some N) hF hA (by rintro _ ⟨⟩; exact ⟨n2, by rw [n4, hLo]⟩)
        refine ⟨.comp A F (some N), by rw [n1]; exact h1, h2, n3, ?_, ?_⟩
        · cases A <;> rfl
        · rw [Fnl.den, Fnl.den, optOp, optOp, n5]; rfl
      · intro h
        rw [p2 h]; rfl

lemma mul_lin {A B C : LinOp} (h : A.mul B = .ok C) : A.n = B.m ∧ C.m = A.m ∧ C.n = B.n ∧ C.lin = A.lin ∘ₗ B.lin := by
  unfold LinOp.mul at h
  split_ifs at h with hn
  have := (Except.ok.inj h).symm
  subst this
  refine ⟨hn, rfl, rfl, ?_⟩
  apply LinearMap.ext
  intro v
  funext p
  show ∑ r ∈ Finset.range B.n, (∑ q ∈ Finset.range A.n, A.mat p q * B.mat q r) * v r =
    ∑ q ∈ Finset.range A.n, A.mat p q * ∑ r ∈ Finset.range B.n, B.mat q r * v r
  simp only [Finset.sum_mul, Finset.mul_sum]
  rw [Finset.sum_comm]
  exact Finset.sum_congr rfl fun q _ => Finset.sum_congr rfl fun r _ => by ring

lemma fRmatmul_spec (A : LinOp) (F : Fnl X) (hF : F.WF) :
    (F.outS = [A.n] → ∃ N, F.rmatmul A = .ok N ∧ N.WF ∧ N.inS = F.inS ∧ N.outS = [A.m] ∧ N.den = A.lin ∘ₗ F.den) ∧
      (F.outS ≠ [A.n] → ∃ e, F.rmatmul A = .error e) := by
  have gen : ∀ (G : Fnl X) (L : Option (Op X)), G.WF → (∀ M, L = some M → M.WF ∧ M.outS = G.inS) →
      (G.outS = [A.n] → ∃ N, Fnl.mkComp (some A) G L = .ok N ∧ N.WF ∧ N.inS = (Fnl.comp none G L).inS ∧ N.outS = [A.m] ∧
        N.den = A.lin ∘ₗ G.den ∘ₗ optOp L) ∧ (G.outS ≠ [A.n] → ∃ e, Fnl.mkComp (some A) G L = .error e) := by
    intro G L hG hL
    constructor
    · intro h
      obtain ⟨h1, h2⟩ := mkCompF_ok (some A) G L hG (by rintro _ ⟨⟩; exact h) hL
      exact ⟨_, h1, h2, by cases L <;> rfl, rfl, by rw [Fnl.den]; rfl⟩
    · intro h
      refine ⟨.assertionError, ?_⟩
      unfold Fnl.mkComp
      split_ifs with h1 h2
      · exact absurd (by simpa using h2) h
      · rfl
      · rfl
  cases F with
  | base i o T => exact gen _ none hF (by simp)
  | scaled F c => exact gen _ none hF (by simp)
  | sum i o fs => exact gen _ none hF (by simp)
  | comp B F L =>
    have hF' := hF
    rw [Fnl.WF] at hF
    obtain ⟨hF, hB, hL⟩ := hF
    cases B with
    | none =>
      have e : (Fnl.comp none F L).rmatmul A = Fnl.mkComp (some A) F L := rfl
      rw [e]
      obtain ⟨g1, g2⟩ := gen F L hF hL
      refine ⟨fun h => ?_, g2⟩
      obtain ⟨N, n1, n2, n3, n4, n5⟩ := g1 h
      exact ⟨N, n1, n2, n3, n4, by rw [n5, Fnl.den]; rfl⟩
    | some B =>
      have e : (Fnl.comp (some B) F L).rmatmul A = (A.mul B >>= fun C => Fnl.mkComp (some C) F L) := rfl
      rw [e]
      constructor
      · intro h
        have hAB : A.n = B.m := by
          have h : [B.m] = [A.n] := h
          simpa using h.symm
        obtain ⟨C, hC⟩ : ∃ C, A.mul B = .ok C := ⟨_, by unfold LinOp.mul; rw [if_pos hAB]⟩
        obtain ⟨-, c2, c3, c4⟩ := mul_lin hC
        obtain ⟨h1, h2⟩ := mkCompF_ok (some C) F L hF (by rintro _ ⟨⟩; rw [c3]; exact hB B rfl) hL
        refine ⟨.comp (some C) F L, by rw [hC]; exact h1, h2, by cases L <;> rfl, ?_, ?_⟩
        · show [C.m] = [A.m]
          rw [c2]
        · rw [Fnl.den, Fnl.den, optMat, optMat, c4]; rfl
      · intro h
        have h : ([B.m] : List ℕ) ≠ [A.n] := h
        refine ⟨.valueError, ?_⟩
        have : A.mul B = .error .valueError := by
          unfold LinOp.mul
          rw [if_neg]
          intro hh; exact h (by rw [hh])
        rw [this]; rfl

/-! ### Termination -/

/-- Functions that are neither scaled nor sums. -/
def JFn.isLeaf : JFn X → Prop
  | .base _ _ => True
  | .const _ _ _ => True
  | .zero _ _ => True
  | _ => False

/-- Functions other than `Zero`, scaled functions and sums. -/
def JFn.isBody : JFn X → Prop
  | .base _ _ => True
  | .const _ _ _ => True
  | _ => False

/-- Functions on which the dispatch of operators and functionals terminates: no scaled function, alone or as a summand. -/
def JFn.Plain : JFn X → Prop
  | .scaled _ _ => False
  | .sum sh fs => fs ≠ [] ∧ ∀ g ∈ fs, g.isLeaf ∧ g.sh = sh
  | _ => True

/-- Functions that contain something other than `Zero`. -/
def JFn.Solid : JFn X → Prop
  | .sum _ fs => ∃ g ∈ fs, g.isBody
  | f => f.isBody

lemma isLeaf_plain {f : JFn X} (h : f.isLeaf) : f.Plain := by cases f <;> simp_all [JFn.isLeaf, JFn.Plain]

lemma leaf_call (i o : Shapes) (T : Val X →ₗ[ℝ] Val X) (n : ℕ) (f : JFn X) (hf : f.isLeaf) (hs : f.sh = i) :
    ∃ g, callBase i o T (n + 1) f = .ok g ∧ g.isLeaf ∧ g.sh = o ∧ (f.isBody → g.isBody) := by
  cases f with
  | base sh ev =>
    refine ⟨.base o (T (JFn.base sh ev).eval), ?_, trivial, rfl, fun _ => trivial⟩
    simp only [callBase]; rw [if_neg (by simpa using hs)]
  | const i' o' v =>
    refine ⟨.base o (T (JFn.const i' o' v).eval), ?_, trivial, rfl, fun _ => trivial⟩
    simp only [callBase]; rw [if_neg (by simpa using hs)]
  | zero i' o' => exact ⟨.zero o.1 o.2, rfl, trivial, rfl, fun h => h⟩
  | scaled f c => exact absurd hf (by simp [JFn.isLeaf])
  | sum sh fs => exact absurd hf (by simp [JFn.isLeaf])

lemma expand_leaf : ∀ (fs : List (JFn X)), (∀ f ∈ fs, f.isLeaf) → expand fs = fs
  | [], _ => rfl
  | f :: fs, h => by
    have ih := expand_leaf fs fun g hg => h g (List.mem_cons_of_mem _ hg)
    have hf := h f List.mem_cons_self
    cases f with
    | sum sh gs => exact absurd hf (by simp [JFn.isLeaf])
    | base _ _ => rw [expand, ih]; all_goals (intros; simp_all)
    | const _ _ _ => rw [expand, ih]; all_goals (intros; simp_all)
    | zero _ _ => rw [expand, ih]; all_goals (intros; simp_all)
    | scaled _ _ => rw [expand, ih]; all_goals (intros; simp_all)

lemma callBase_total (i o : Shapes) (T : Val X →ₗ[ℝ] Val X) (n : ℕ) (f : JFn X) (hf : f.Plain) (hs : f.sh = i) :
    ∃ g, callBase i o T (n + 2) f = .ok g ∧ g.Plain ∧ (f.Solid → g.Solid) := by
  have leaf : f.isLeaf → ∃ g, callBase i o T (n + 2) f = .ok g ∧ g.Plain ∧ (f.Solid → g.Solid) := by
    intro hl
    obtain ⟨g, h1, h2, -, h4⟩ := leaf_call i o T (n + 1) f hl hs
    refine ⟨g, h1, isLeaf_plain h2, fun h => ?_⟩
    have hb : g.isBody := h4 (by cases f <;> simp_all [JFn.Solid, JFn.isBody, JFn.isLeaf])
    cases g <;> simp_all [JFn.Solid, JFn.isBody, JFn.isLeaf]
  cases f with
  | base _ _ => exact leaf trivial
  | const _ _ _ => exact leaf trivial
  | zero _ _ => exact leaf trivial
  | scaled _ _ => exact absurd hf (by simp [JFn.Plain])
  | sum sh fs =>
    obtain ⟨h0, hall⟩ := hf
    have hs : sh = i := hs
    subst hs
    have key : ∀ fs : List (JFn X), (∀ g ∈ fs, g.isLeaf ∧ g.sh = sh) → ∃ gs, mapE (callBase sh o T (n + 1)) fs = .ok gs ∧
        (∀ g ∈ gs, g.isLeaf ∧ g.sh = o) ∧ gs.length = fs.length ∧ ((∃ g ∈ fs, g.isBody) → ∃ g ∈ gs, g.isBody) := by
      intro fs
      induction fs with
      | nil => intro _; exact ⟨[], rfl, by simp, rfl, by simp⟩
      | cons f fs ih =>
        intro hh
        obtain ⟨g, g1, g2, g3, g4⟩ := leaf_call sh o T n f (hh f List.mem_cons_self).1 (hh f List.mem_cons_self).2
        obtain ⟨gs, s1, s2, s3, s4⟩ := ih fun g hg => hh g (List.mem_cons_of_mem _ hg)
        refine ⟨g :: gs, by rw [mapE, g1, s1]; rfl, ?_, by simp [s3], ?_⟩
        · intro k hk
          rcases List.mem_cons.mp hk with rfl | hk
          · exact ⟨g2, g3⟩
          · exact s2 k hk
        · rintro ⟨k, hk, hb⟩
          rcases List.mem_cons.mp hk with rfl | hk
          · exact ⟨g, List.mem_cons_self, g4 hb⟩
          · obtain ⟨k', hk', hb'⟩ := s4 ⟨k, hk, hb⟩
            exact ⟨k', List.mem_cons_of_mem _ hk', hb'⟩
    obtain ⟨gs, s1, s2, s3, s4⟩ := key fs hall
    have hne : gs ≠ [] := by
      intro hh; rw [hh, List.length_nil] at s3
      exact h0 (List.length_eq_zero_iff.mp s3.symm)
    have hmk := mkSum_of_forall o hne fun g hg => (s2 g hg).2
    rw [expand_leaf gs fun g hg => (s2 g hg).1] at hmk
    refine ⟨.sum o gs, ?_, ⟨hne, s2⟩, fun h => s4 h⟩
    rw [callBase, s1]
    exact hmk

lemma plain_expand {f : JFn X} (hf : f.Plain) : (∀ g ∈ expand [f], g.isLeaf ∧ g.sh = f.sh) ∧ expand [f] ≠ [] ∧
    (f.Solid → ∃ g ∈ expand [f], g.isBody) := by
  cases f with
  | base _ _ => exact ⟨by simp [expand, JFn.isLeaf], by simp [expand], by simp [expand, JFn.Solid]⟩
  | const _ _ _ => exact ⟨by simp [expand, JFn.isLeaf], by simp [expand], by simp [expand, JFn.Solid]⟩
  | zero _ _ => exact ⟨by simp [expand, JFn.isLeaf], by simp [expand], by simp [expand, JFn.Solid]⟩
  | scaled _ _ => exact absurd hf (by simp [JFn.Plain])
  | sum sh fs =>
    obtain ⟨h0, h1⟩ := hf
    exact ⟨by simpa [expand, JFn.sh] using h1, by simpa [expand] using h0, by simp [expand, JFn.Solid]⟩

lemma expand_two (f g : JFn X) : expand [f, g] = expand [f] ++ expand [g] := by
  cases f <;> cases g <;> simp [expand]

lemma add_plain (f g : JFn X) (s : Shapes) (hf : f.sh = s) (hg : g.sh = s) (pf : f.Plain) (pg : g.Plain) :
    ∃ h, f.add g = .ok h ∧ h.sh = s ∧ h.Plain ∧ (f.Solid ∨ g.Solid → h.Solid) := by
  have gen : ∃ h, mkSum [f, g] = .ok h ∧ h.sh = s ∧ h.Plain ∧ (f.Solid ∨ g.Solid → h.Solid) := by
    have := mkSum_of_forall (fs := [f, g]) s (by simp) (by simp [hf, hg])
    obtain ⟨a1, a2, a3⟩ := plain_expand pf
    obtain ⟨b1, -, b3⟩ := plain_expand pg
    rw [expand_two] at this
    refine ⟨_, this, rfl, ⟨by simp [a2], ?_⟩, ?_⟩
    · intro k hk
      rcases List.mem_append.mp hk with hk | hk
      · rw [← hf]; exact a1 k hk
      · rw [← hg]; exact b1 k hk
    · rintro (h | h)
      · obtain ⟨k, hk, hb⟩ := a3 h
        exact ⟨k, List.mem_append_left _ hk, hb⟩
      · obtain ⟨k, hk, hb⟩ := b3 h
        exact ⟨k, List.mem_append_right _ hk, hb⟩
  have cst : ∀ i o v i' o' w, (i, o) = s → (i', o') = s →
      ∃ h, (constAdd i o v i' o' w : Except Err (JFn X)) = .ok h ∧ h.sh = s ∧ h.Plain ∧ h.Solid := by
    rintro i o v i' o' w h1 h2
    obtain ⟨rfl, rfl⟩ := Prod.mk.inj (h1.trans h2.symm)
    refine ⟨.const i o fun p => v p + w p, ?_, h1, trivial, trivial⟩
    unfold constAdd; rw [if_neg (by simp), if_pos rfl]
  cases g with
  | zero i o =>
    have e : f.add (.zero i o) = addZero f i o := by cases f <;> rfl
    refine ⟨f, ?_, hf, pf, fun h => h.resolve_right (by simp [JFn.Solid, JFn.isBody])⟩
    rw [e]; unfold addZero
    have : (i, o) = f.sh := by rw [hf, ← hg]; rfl
    rw [← this]; simp
  | const i' o' w =>
    cases f with
    | const i o v => obtain ⟨h, h1, h2, h3, h4⟩ := cst i o v i' o' w hf hg; exact ⟨h, h1, h2, h3, fun _ => h4⟩
    | zero i o => obtain ⟨h, h1, h2, h3, h4⟩ := cst i o (fun _ => 0) i' o' w hf hg; exact ⟨h, h1, h2, h3, fun _ => h4⟩
    | base _ _ => exact gen
    | scaled _ _ => exact gen
    | sum _ _ => exact gen
  | base _ _ => cases f <;> exact gen
  | scaled _ _ => cases f <;> exact gen
  | sum _ _ => cases f <;> exact gen

lemma reduceAdd_plain (s : Shapes) (fs : List (JFn X)) (h0 : fs ≠ []) (h : ∀ f ∈ fs, f.sh = s ∧ f.Plain) :
    ∃ g, reduceAdd fs = .ok g ∧ g.Plain ∧ ((∀ f ∈ fs, f.Solid) → g.Solid) := by
  cases fs with
  | nil => exact absurd rfl h0
  | cons f fs =>
    have key : ∀ (fs : List (JFn X)) (f : JFn X), f.sh = s → f.Plain → (∀ g ∈ fs, g.sh = s ∧ g.Plain) →
        ∃ h, fs.foldl (fun acc g => acc >>= fun a => JFn.add a g) (.ok f) = .ok h ∧ h.Plain ∧ (f.Solid → h.Solid) := by
      intro fs
      induction fs with
      | nil => intro f _ hp _; exact ⟨f, rfl, hp, id⟩
      | cons g fs ih =>
        intro f hf hp hg
        obtain ⟨k, hk, hks, hkp, hkb⟩ := add_plain f g s hf (hg g List.mem_cons_self).1 hp (hg g List.mem_cons_self).2
        obtain ⟨h, h1, h2, h3⟩ := ih k hks hkp fun g' hg' => hg g' (List.mem_cons_of_mem _ hg')
        refine ⟨h, ?_, h2, fun hb => h3 (hkb (Or.inl hb))⟩
        rw [List.foldl_cons]
        show fs.foldl _ (f.add g) = _
        rw [hk, h1]
    obtain ⟨h, h1, h2, h3⟩ := key fs f (h f List.mem_cons_self).1 (h f List.mem_cons_self).2
      fun g hg => h g (List.mem_cons_of_mem _ hg)
    exact ⟨h, h1, h2, fun hb => h3 (hb f List.mem_cons_self)⟩

mutual
/-- Operators without scaled parts. -/
def Op.Clean : Op X → Prop
  | .ident _ => True
  | .base _ _ _ _ => True
  | .scaled _ _ => False
  | .scaledDiff _ _ => False
  | .sum _ _ ops => allClean ops
  | .comp _ _ ops => allClean ops
def allClean : List (Op X) → Prop
  | [] => True
  | L :: Ls => L.Clean ∧ allClean Ls
end

mutual
/-- Operators in which no scaled operator is applied before another operator. -/
def Op.Runs : Op X → Prop
  | .ident _ => True
  | .base _ _ _ _ => True
  | .scaled L _ => L.Runs
  | .scaledDiff L _ => L.Runs
  | .sum _ _ ops => allRuns ops
  | .comp _ _ ops => headRuns ops
def allRuns : List (Op X) → Prop
  | [] => True
  | L :: Ls => L.Runs ∧ allRuns Ls
def headRuns : List (Op X) → Prop
  | [] => True
  | L :: Ls => L.Runs ∧ allClean Ls
end

lemma chain_tail {L : Op X} {Ls : List (Op X)} (h : chainOK (L :: Ls) = true) : chainOK Ls = true ∧
    ∀ M, Ls.head? = some M → L.inS = M.outS := by
  cases Ls with
  | nil => exact ⟨rfl, by simp⟩
  | cons M Ls =>
    rw [chainOK, Bool.and_eq_true, beq_iff_eq] at h
    exact ⟨h.2, by rintro _ ⟨⟩; exact h.1⟩

lemma last_tail {L : Op X} {Ls : List (Op X)} (h0 : Ls ≠ []) : (L :: Ls).getLast? = Ls.getLast? := by
  cases Ls with
  | nil => exact absurd rfl h0
  | cons M Ls => simp [List.getLast?_cons]

mutual
lemma clean_total (n : ℕ) : ∀ (L : Op X) (f : JFn X), L.WF → L.Clean → f.Plain → f.sh = L.inS →
    ∃ g, L.call (n + 2) f = .ok g ∧ g.Plain ∧ (f.Solid → g.Solid)
  | .ident s, f, _, _, hp, hs => ⟨f, by rw [Op.call, if_neg (by simpa [Op.inS] using hs)], hp, id⟩
  | .base i o T b, f, _, _, hp, hs => by rw [Op.call]; exact callBase_total i o T n f hp hs
  | .scaled _ _, _, _, hc, _, _ => by rw [Op.Clean] at hc; exact hc.elim
  | .scaledDiff _ _, _, _, hc, _, _ => by rw [Op.Clean] at hc; exact hc.elim
  | .sum i o ops, f, hw, hc, hp, hs => by
    rw [Op.WF] at hw
    rw [Op.Clean] at hc
    obtain ⟨h0, hsh, hw⟩ := hw
    obtain ⟨gs, h1, h2, h3⟩ := cleanAll_total n ops f hw hc hp (fun M hM => by rw [(hsh M hM).1]; exact hs)
    obtain ⟨hl, hso, -⟩ := callAll_sound (n + 2) ops f gs o hw (fun M hM => (hsh M hM).2) h1
    obtain ⟨g, g1, g2, g3⟩ := reduceAdd_plain o gs (by
      intro hh; rw [hh, List.length_nil] at hl
      exact h0 (List.length_eq_zero_iff.mp hl.symm)) fun g hg => ⟨hso g hg, h2 g hg⟩
    exact ⟨g, by rw [Op.call, h1]; exact g1, g2, fun hb => g3 (h3 hb)⟩
  | .comp i o ops, f, hw, hc, hp, hs => by
    rw [Op.WF] at hw
    rw [Op.Clean] at hc
    obtain ⟨hch, -, hlast, hw⟩ := hw
    obtain ⟨g, h1, h2, h3⟩ := cleanSeq_total n ops f hw hc hch hp (fun Ln hLn => by
      obtain ⟨Lm, hm, hi⟩ := hlast
      rw [hLn] at hm; cases hm; rw [hi]; exact hs)
    exact ⟨g, by rw [Op.call]; exact h1, h2, h3⟩
lemma cleanAll_total (n : ℕ) : ∀ (Ls : List (Op X)) (f : JFn X), allWF Ls → allClean Ls → f.Plain →
    (∀ M ∈ Ls, f.sh = M.inS) →
    ∃ gs, callAll (n + 2) Ls f = .ok gs ∧ (∀ g ∈ gs, g.Plain) ∧ (f.Solid → ∀ g ∈ gs, g.Solid)
  | [], f, _, _, _, _ => ⟨[], by rw [callAll], by simp, by simp⟩
  | L :: Ls, f, hw, hc, hp, hs => by
    rw [allWF] at hw
    rw [allClean] at hc
    obtain ⟨g, g1, g2, g3⟩ := clean_total n L f hw.1 hc.1 hp (hs L List.mem_cons_self)
    obtain ⟨gs, s1, s2, s3⟩ := cleanAll_total n Ls f hw.2 hc.2 hp fun M hM => hs M (List.mem_cons_of_mem _ hM)
    refine ⟨g :: gs, by rw [callAll, g1, s1]; rfl, ?_, ?_⟩
    · intro k hk
      rcases List.mem_cons.mp hk with rfl | hk
      · exact g2
      · exact s2 k hk
    · intro hb k hk
      rcases List.mem_cons.mp hk with rfl | hk
      · exact g3 hb
      · exact s3 hb k hk
lemma cleanSeq_total (n : ℕ) : ∀ (Ls : List (Op X)) (f : JFn X), allWF Ls → allClean Ls → chainOK Ls = true → f.Plain →
    (∀ Ln, Ls.getLast? = some Ln → f.sh = Ln.inS) →
    ∃ g, callSeq (n + 2) Ls f = .ok g ∧ g.Plain ∧ (f.Solid → g.Solid)
  | [], f, _, _, _, hp, _ => ⟨f, by rw [callSeq], hp, id⟩
  | L :: Ls, f, hw, hc, hch, hp, hs => by
    rw [allWF] at hw
    rw [allClean] at hc
    obtain ⟨ch1, ch2⟩ := chain_tail hch
    obtain ⟨g, g1, g2, g3⟩ := cleanSeq_total n Ls f hw.2 hc.2 ch1 hp (fun Ln hLn => by
      refine hs Ln ?_
      rw [last_tail (by rintro rfl; simp at hLn)]; exact hLn)
    have hsh : g.sh = L.inS := by
      cases hL : Ls with
      | nil =>
        subst hL
        rw [callSeq] at g1
        rw [← Except.ok.inj g1]
        exact hs L (by simp)
      | cons M Ms =>
        rw [ch2 M (by rw [hL]; rfl)]
        exact (callSeq_sound (n + 2) Ls f g hw.2 g1).1 M (by rw [hL]; rfl)
    obtain ⟨h, h1, h2, h3⟩ := clean_total n L g hw.1 hc.1 g2 hsh
    exact ⟨h, by rw [callSeq, g1]; exact h1, h2, fun hb => h3 (g3 hb)⟩
end

mutual
lemma runs_total (n : ℕ) : ∀ (L : Op X) (f : JFn X), L.WF → L.Runs → f.Plain → f.sh = L.inS →
    ∃ g, L.call (n + 2) f = .ok g
  | .ident s, f, _, _, _, hs => ⟨f, by rw [Op.call, if_neg (by simpa [Op.inS] using hs)]⟩
  | .base i o T b, f, _, _, hp, hs => by
    rw [Op.call]
    obtain ⟨g, hg, -⟩ := callBase_total i o T n f hp hs
    exact ⟨g, hg⟩
  | .scaled L c, f, hw, hr, hp, hs => by
    rw [Op.WF] at hw
    rw [Op.Runs] at hr
    obtain ⟨g, hg⟩ := runs_total n L f hw hr hp hs
    exact ⟨g.smul c, by rw [Op.call, hg]; rfl⟩
  | .scaledDiff L c, f, hw, hr, hp, hs => by
    rw [Op.WF] at hw
    rw [Op.Runs] at hr
    obtain ⟨g, hg⟩ := runs_total n L f hw hr hp hs
    exact ⟨g.smul c, by rw [Op.call, hg]; rfl⟩
  | .sum i o ops, f, hw, hr, hp, hs => by
    rw [Op.WF] at hw
    rw [Op.Runs] at hr
    obtain ⟨h0, hsh, hw⟩ := hw
    obtain ⟨gs, h1⟩ := runsAll_total n ops f hw hr hp (fun M hM => by rw [(hsh M hM).1]; exact hs)
    obtain ⟨hl, hso, -⟩ := callAll_sound (n + 2) ops f gs o hw (fun M hM => (hsh M hM).2) h1
    obtain ⟨g, g1, -⟩ := reduceAdd_spec o gs (by
      intro hh; rw [hh, List.length_nil] at hl
      exact h0 (List.length_eq_zero_iff.mp hl.symm)) hso
    exact ⟨g, by rw [Op.call, h1]; exact g1⟩
  | .comp i o ops, f, hw, hr, hp, hs => by
    rw [Op.WF] at hw
    rw [Op.Runs] at hr
    obtain ⟨hch, -, hlast, hw⟩ := hw
    rw [Op.call]
    have hs' : ∀ Ln, ops.getLast? = some Ln → f.sh = Ln.inS := fun Ln hLn => by
      obtain ⟨Lm, hm, hi⟩ := hlast
      rw [hLn] at hm; cases hm; rw [hi]; exact hs
    exact runsSeq_total n ops f hw hr hch hp hs'
lemma runsAll_total (n : ℕ) : ∀ (Ls : List (Op X)) (f : JFn X), allWF Ls → allRuns Ls → f.Plain →
    (∀ M ∈ Ls, f.sh = M.inS) → ∃ gs, callAll (n + 2) Ls f = .ok gs
  | [], f, _, _, _, _ => ⟨[], by rw [callAll]⟩
  | L :: Ls, f, hw, hc, hp, hs => by
    rw [allWF] at hw
    rw [allRuns] at hc
    obtain ⟨g, g1⟩ := runs_total n L f hw.1 hc.1 hp (hs L List.mem_cons_self)
    obtain ⟨gs, s1⟩ := runsAll_total n Ls f hw.2 hc.2 hp fun M hM => hs M (List.mem_cons_of_mem _ hM)
    exact ⟨g :: gs, by rw [callAll, g1, s1]; rfl⟩
lemma runsSeq_total (n : ℕ) : ∀ (Ls : List (Op X)) (f : JFn X), allWF Ls → headRuns Ls → chainOK Ls = true → f.Plain →
    (∀ Ln, Ls.getLast? = some Ln → f.sh = Ln.inS) → ∃ g, callSeq (n + 2) Ls f = .ok g
  | [], f, _, _, _, _, _ => ⟨f, by rw [callSeq]⟩
  | L :: Ls, f, hw, hr, hch, hp, hs' => by
    rw [allWF] at hw
    rw [headRuns] at hr
    obtain ⟨ch1, ch2⟩ := chain_tail hch
    obtain ⟨g, g1, g2, -⟩ := cleanSeq_total n Ls f hw.2 hr.2 ch1 hp (fun Ln hLn => by
      refine hs' Ln ?_
      rw [last_tail (by rintro rfl; simp at hLn)]; exact hLn)
    have hsh : g.sh = L.inS := by
      cases hL : Ls with
      | nil =>
        subst hL
        rw [callSeq] at g1
        rw [← Except.ok.inj g1]
        exact hs' L (by simp)
      | cons M Ms =>
        rw [ch2 M (by rw [hL]; rfl)]
        exact (callSeq_sound (n + 2) Ls f g hw.2 g1).1 M (by rw [hL]; rfl)
    obtain ⟨h, h1⟩ := runs_total n L g hw.1 hr.1 g2 hsh
    exact ⟨h, by rw [callSeq, g1]; exact h1⟩
end

mutual
/-- Functionals whose operators do not produce scaled functions. -/
def Fnl.Runs : Fnl X → Prop
  | .base _ _ _ => True
  | .scaled F _ => F.Runs
  | .sum _ _ fs => allFRuns fs
  | .comp _ F L => F.Runs ∧ ∀ M, L = some M → M.Clean
def allFRuns : List (Fnl X) → Prop
  | [] => True
  | F :: Fs => F.Runs ∧ allFRuns Fs
end

lemma leaf_fcall (i : Shapes) (o : Shp) (T : Val X →ₗ[ℝ] (ℕ → ℝ)) (n : ℕ) (f : JFn X) (hf : f.isLeaf) (hs : f.sh = i) :
    ∃ v, callFnlBase i o T (n + 1) f = .ok v ∧ (v.shape = o ∨ v.shape = []) ∧ (f.isBody → v.shape = o) := by
  cases f with
  | base sh ev =>
    refine ⟨⟨o, T (JFn.base sh ev).eval⟩, ?_, Or.inl rfl, fun _ => rfl⟩
    simp only [callFnlBase]; rw [if_neg (by simpa using hs)]
  | const i' o' v =>
    refine ⟨⟨o, T (JFn.const i' o' v).eval⟩, ?_, Or.inl rfl, fun _ => rfl⟩
    simp only [callFnlBase]; rw [if_neg (by simpa using hs)]
  | zero i' o' => exact ⟨⟨[], fun _ => 0⟩, rfl, Or.inr rfl, fun h => by simp [JFn.isBody] at h⟩
  | scaled f c => exact absurd hf (by simp [JFn.isLeaf])
  | sum sh fs => exact absurd hf (by simp [JFn.isLeaf])

lemma arr_add_shape {a b : Arr} {o : Shp} (ha : a.shape = o ∨ a.shape = []) (hb : b.shape = o ∨ b.shape = []) :
    ∃ c, a.add b = .ok c ∧ (c.shape = o ∨ c.shape = []) ∧ (a.shape = o ∨ b.shape = o → c.shape = o) := by
  unfold Arr.add
  by_cases h1 : a.shape = b.shape
  · rw [if_pos h1]
    exact ⟨_, rfl, ha, fun h => by rcases h with h | h <;> simp_all⟩
  · rw [if_neg h1]
    by_cases h2 : a.shape = []
    · rw [if_pos h2]
      refine ⟨_, rfl, hb, fun h => ?_⟩
      show b.shape = o
      rcases hb with hb | hb
      · exact hb
      · exact absurd (h2.trans hb.symm) h1
    · rw [if_neg h2]
      have hao := ha.resolve_right h2
      have hb0 : b.shape = [] := hb.resolve_left fun h => h1 (hao.trans h.symm)
      rw [if_pos hb0]
      exact ⟨_, rfl, ha, fun _ => hao⟩

lemma foldArr_shape (o : Shp) : ∀ (vs : List Arr) (v : Arr), (v.shape = o ∨ v.shape = []) →
    (∀ w ∈ vs, w.shape = o ∨ w.shape = []) →
    ∃ u, vs.foldl (fun acc w => acc >>= fun a => Arr.add a w) (.ok v) = .ok u ∧ (u.shape = o ∨ u.shape = []) ∧
      (v.shape = o ∨ (∃ w ∈ vs, w.shape = o) → u.shape = o)
  | [], v, hv, _ => ⟨v, rfl, hv, fun h => by simpa using h⟩
  | w :: vs, v, hv, hw => by
    obtain ⟨c, c1, c2, c3⟩ := arr_add_shape hv (hw w List.mem_cons_self)
    obtain ⟨u, u1, u2, u3⟩ := foldArr_shape o vs c c2 fun z hz => hw z (List.mem_cons_of_mem _ hz)
    refine ⟨u, ?_, u2, ?_⟩
    · rw [List.foldl_cons]
      show vs.foldl _ (v.add w) = _
      rw [c1, u1]
    · rintro (h | ⟨z, hz, h⟩)
      · exact u3 (Or.inl (c3 (Or.inl h)))
      · rcases List.mem_cons.mp hz with rfl | hz
        · exact u3 (Or.inl (c3 (Or.inr h)))
        · exact u3 (Or.inr ⟨z, hz, h⟩)

lemma callFnlBase_total (i : Shapes) (o : Shp) (T : Val X →ₗ[ℝ] (ℕ → ℝ)) (n : ℕ) (f : JFn X) (hf : f.Plain) (hb : f.Solid)
    (hs : f.sh = i) : ∃ v, callFnlBase i o T (n + 2) f = .ok v ∧ v.shape = o := by
  have leaf : f.isLeaf → ∃ v, callFnlBase i o T (n + 2) f = .ok v ∧ v.shape = o := by
    intro hl
    obtain ⟨v, h1, -, h3⟩ := leaf_fcall i o T (n + 1) f hl hs
    exact ⟨v, h1, h3 (by cases f <;> simp_all [JFn.Solid, JFn.isBody, JFn.isLeaf])⟩
  cases f with
  | base _ _ => exact leaf trivial
  | const _ _ _ => exact leaf trivial
  | zero _ _ => exact leaf trivial
  | scaled _ _ => exact absurd hf (by simp [JFn.Plain])
  | sum sh fs =>
    obtain ⟨h0, hall⟩ := hf
    have hs : sh = i := hs
    subst hs
    have key : ∀ fs : List (JFn X), (∀ g ∈ fs, g.isLeaf ∧ g.sh = sh) → ∃ vs, mapE (callFnlBase sh o T (n + 1)) fs = .ok vs ∧
        (∀ v ∈ vs, v.shape = o ∨ v.shape = []) ∧ ((∃ g ∈ fs, g.isBody) → ∃ v ∈ vs, v.shape = o) := by
      intro fs
      induction fs with
      | nil => intro _; exact ⟨[], rfl, by simp, by simp⟩
      | cons f fs ih =>
        intro hh
        obtain ⟨g, g1, g2, g3⟩ := leaf_fcall sh o T n f (hh f List.mem_cons_self).1 (hh f List.mem_cons_self).2
        obtain ⟨gs, s1, s2, s3⟩ := ih fun g hg => hh g (List.mem_cons_of_mem _ hg)
        refine ⟨g :: gs, by rw [mapE, g1, s1]; rfl, ?_, ?_⟩
        · intro k hk
          rcases List.mem_cons.mp hk with rfl | hk
          · exact g2
          · exact s2 k hk
        · rintro ⟨k, hk, hb⟩
          rcases List.mem_cons.mp hk with rfl | hk
          · exact ⟨g, List.mem_cons_self, g3 hb⟩
          · obtain ⟨k', hk', hb'⟩ := s3 ⟨k, hk, hb⟩
            exact ⟨k', List.mem_cons_of_mem _ hk', hb'⟩
    obtain ⟨vs, s1, s2, s3⟩ := key fs hall
    obtain ⟨u, u1, -, u3⟩ := foldArr_shape o vs ⟨[], fun _ => 0⟩ (Or.inr rfl) s2
    exact ⟨u, by rw [callFnlBase, s1]; exact u1, u3 (Or.inr (s3 hb))⟩

mutual
lemma fruns_total (n : ℕ) : ∀ (F : Fnl X) (f : JFn X), F.WF → F.Runs → f.Plain → f.Solid → f.sh = F.inS →
    ∃ v, F.call (n + 2) f = .ok v ∧ v.shape = F.outS
  | .base i o T, f, _, _, hp, hb, hs => by rw [Fnl.call]; exact callFnlBase_total i o T n f hp hb hs
  | .scaled F c, f, hw, hr, hp, hb, hs => by
    rw [Fnl.WF] at hw
    rw [Fnl.Runs] at hr
    obtain ⟨v, hv, hvs⟩ := fruns_total n F f hw hr hp hb hs
    exact ⟨v.smul c, by rw [Fnl.call, hv]; rfl, hvs⟩
  | .sum i o fs, f, hw, hr, hp, hb, hs => by
    rw [Fnl.WF] at hw
    rw [Fnl.Runs] at hr
    obtain ⟨h0, hsh, hw⟩ := hw
    obtain ⟨vs, h1, h2, h3⟩ := frunsAll_total n fs f hw hr hp hb (fun M hM => by rw [(hsh M hM).1]; exact hs) o
      fun M hM => (hsh M hM).2
    cases vs with
    | nil => exact absurd (List.length_eq_zero_iff.mp (by simpa using h3.symm)) h0
    | cons v vs =>
      obtain ⟨u, u1, -, u3⟩ := foldArr_shape o vs v (Or.inl (h2 v List.mem_cons_self))
        fun w hw => Or.inl (h2 w (List.mem_cons_of_mem _ hw))
      exact ⟨u, by rw [Fnl.call, h1]; exact u1, u3 (Or.inl (h2 v List.mem_cons_self))⟩
  | .comp A F L, f, hw, hr, hp, hb, hs => by
    rw [Fnl.WF] at hw
    rw [Fnl.Runs] at hr
    obtain ⟨hF, hA, hL⟩ := hw
    have : ∃ g, callOpt (n + 2) L f = .ok g ∧ g.Plain ∧ g.Solid ∧ g.sh = F.inS := by
      cases L with
      | none => exact ⟨f, rfl, hp, hb, hs⟩
      | some M =>
        obtain ⟨hMw, hMo⟩ := hL M rfl
        obtain ⟨g, g1, g2, g3⟩ := clean_total n M f hMw (hr.2 M rfl) hp hs
        exact ⟨g, g1, g2, g3 hb, by rw [(call_sound (n + 2) M f g hMw g1).1, hMo]⟩
    obtain ⟨g, g1, g2, g3, g4⟩ := this
    obtain ⟨v, v1, v2⟩ := fruns_total n F g hF hr.1 g2 g3 g4
    cases A with
    | none => exact ⟨v, by rw [Fnl.call, g1]; show (F.call (n + 2) g >>= _) = _; rw [v1]; rfl, v2⟩
    | some B =>
      refine ⟨⟨[B.m], B.mv v.get⟩, ?_, rfl⟩
      rw [Fnl.call, g1]
      show (F.call (n + 2) g >>= _) = _
      rw [v1]
      show B.call v = _
      rw [LinOp.call, if_pos (by rw [v2]; exact hA B rfl)]
lemma frunsAll_total (n : ℕ) : ∀ (Fs : List (Fnl X)) (f : JFn X), allFWF Fs → allFRuns Fs → f.Plain → f.Solid →
    (∀ M ∈ Fs, f.sh = M.inS) → ∀ o : Shp, (∀ M ∈ Fs, M.outS = o) →
    ∃ vs, fnlAll (n + 2) Fs f = .ok vs ∧ (∀ v ∈ vs, v.shape = o) ∧ vs.length = Fs.length
  | [], f, _, _, _, _, _, o, _ => ⟨[], by rw [fnlAll], by simp, rfl⟩
  | F :: Fs, f, hw, hr, hp, hb, hs, o, ho => by
    rw [allFWF] at hw
    rw [allFRuns] at hr
    obtain ⟨v, v1, v2⟩ := fruns_total n F f hw.1 hr.1 hp hb (hs F List.mem_cons_self)
    obtain ⟨vs, s1, s2, s3⟩ := frunsAll_total n Fs f hw.2 hr.2 hp hb (fun M hM => hs M (List.mem_cons_of_mem _ hM)) o
      fun M hM => ho M (List.mem_cons_of_mem _ hM)
    refine ⟨v :: vs, by rw [fnlAll, v1, s1]; rfl, ?_, by simp [s3]⟩
    intro k hk
    rcases List.mem_cons.mp hk with rfl | hk
    · rw [v2]; exact ho F List.mem_cons_self
    · exact s2 k hk
end

end LinPDE.Ops
