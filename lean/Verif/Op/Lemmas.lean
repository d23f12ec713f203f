import Verif.Op.Model
import Mathlib.Tactic.Module
import Mathlib.Tactic.Ring
import Mathlib.Tactic.Linarith
import Mathlib.Algebra.BigOperators.Group.List.Basic

/-! # Function, operator and functional arithmetic: helper lemmas -/

namespace LinPDE.Ops
open LinPDE.Nd

variable {X : Type}

lemma mapE_ok {α β ε : Type} (f : α → Except ε β) : ∀ (l : List α) (r : List β), mapE f l = .ok r →
    List.Forall₂ (fun a b => f a = .ok b) l r
  | [], r, h => by
    have : r = [] := (Except.ok.inj h).symm
    subst this; exact .nil
  | a :: as, r, h => by
    rw [mapE] at h
    cases hb : f a with
    | error e => rw [hb] at h; simp [bind, Except.bind] at h
    | ok b =>
      cases hbs : mapE f as with
      | error e => rw [hb, hbs] at h; simp [bind, Except.bind] at h
      | ok bs =>
        rw [hb, hbs] at h
        have : b :: bs = r := Except.ok.inj h
        subst this
        exact .cons hb (mapE_ok f as bs hbs)

lemma forall₂_mem_right {α β : Type} {R : α → β → Prop} {l : List α} {r : List β} (h : List.Forall₂ R l r) {b : β}
    (hb : b ∈ r) : ∃ a ∈ l, R a b := by
  induction h with
  | nil => simp at hb
  | cons hd _ ih =>
    rcases List.mem_cons.mp hb with rfl | hb
    · exact ⟨_, List.mem_cons_self, hd⟩
    · obtain ⟨a, ha, hr⟩ := ih hb
      exact ⟨a, List.mem_cons_of_mem _ ha, hr⟩

lemma mapE_of_forall {α β ε : Type} (f : α → Except ε β) : ∀ (l : List α), (∀ a ∈ l, ∃ b, f a = .ok b) →
    ∃ r, mapE f l = .ok r
  | [], _ => ⟨[], rfl⟩
  | a :: as, h => by
    obtain ⟨b, hb⟩ := h a List.mem_cons_self
    obtain ⟨bs, hbs⟩ := mapE_of_forall f as fun x hx => h x (List.mem_cons_of_mem _ hx)
    exact ⟨b :: bs, by rw [mapE, hb, hbs]; rfl⟩

/-! ### Evaluation of sums -/

lemma evalFrom_eq : ∀ (fs : List (JFn X)) (acc : Val X), evalFrom acc fs = acc + (fs.map JFn.eval).sum
  | [], acc => by simp [evalFrom]
  | f :: fs, acc => by
    rw [evalFrom, evalFrom_eq fs, List.map_cons, List.sum_cons, ← add_assoc]
    rfl

lemma eval_sum (sh : Shapes) (fs : List (JFn X)) : (JFn.sum sh fs).eval = (fs.map JFn.eval).sum := by
  cases fs with
  | nil => simp only [JFn.eval, List.map_nil, List.sum_nil]; rfl
  | cons f fs => rw [JFn.eval, evalFrom_eq, List.map_cons, List.sum_cons]

lemma expand_sum : ∀ fs : List (JFn X), ((expand fs).map JFn.eval).sum = (fs.map JFn.eval).sum
  | [] => rfl
  | f :: fs => by
    have ih := expand_sum fs
    cases f with
    | sum sh gs => rw [expand, List.map_append, List.sum_append, ih, List.map_cons, List.sum_cons, eval_sum]
    | base _ _ => simp only [expand, List.map_cons, List.sum_cons, ih]
    | const _ _ _ => simp only [expand, List.map_cons, List.sum_cons, ih]
    | zero _ _ => simp only [expand, List.map_cons, List.sum_cons, ih]
    | scaled _ _ => simp only [expand, List.map_cons, List.sum_cons, ih]

lemma mkSum_ok {fs : List (JFn X)} {g : JFn X} (h : mkSum fs = .ok g) :
    fs ≠ [] ∧ g = .sum g.sh (expand fs) ∧ (∀ f ∈ fs, f.sh = g.sh) ∧ g.eval = (fs.map JFn.eval).sum := by
  cases fs with
  | nil => simp [mkSum] at h
  | cons f fs =>
    rw [mkSum] at h
    split_ifs at h with hc
    have hg := (Except.ok.inj h).symm
    subst hg
    rw [List.all_eq_true] at hc
    refine ⟨by simp, rfl, fun f' hf' => ?_, ?_⟩
    · have := hc f' hf'; rw [beq_iff_eq] at this; exact this
    · rw [eval_sum, expand_sum]

lemma mkSum_of_forall {fs : List (JFn X)} (s : Shapes) (h0 : fs ≠ []) (h : ∀ f ∈ fs, f.sh = s) :
    mkSum fs = .ok (.sum s (expand fs)) := by
  cases fs with
  | nil => exact absurd rfl h0
  | cons f fs =>
    have hf := h f List.mem_cons_self
    rw [mkSum, if_pos, hf]
    rw [List.all_eq_true]
    intro g hg
    rw [beq_iff_eq, h g hg, hf]

lemma eval_zero (i o : Shp) : (JFn.zero i o : JFn X).eval = 0 := by simp only [JFn.eval]; rfl

lemma smul_eval (c : ℝ) (f : JFn X) : (f.smul c).eval = c • f.eval ∧ (f.smul c).sh = f.sh := by
  cases f with
  | base sh ev => exact ⟨by simp only [JFn.smul, JFn.eval]; rfl, rfl⟩
  | const i o v => exact ⟨by simp only [JFn.smul, JFn.eval]; rfl, rfl⟩
  | zero i o => exact ⟨by simp only [JFn.smul, eval_zero, smul_zero], rfl⟩
  | scaled f d =>
    refine ⟨?_, rfl⟩
    simp only [JFn.smul, JFn.eval]
    funext x p
    simp only [Pi.smul_apply, smul_eq_mul]; ring
  | sum sh fs =>
    refine ⟨?_, rfl⟩
    simp only [JFn.smul]
    conv_lhs => rw [JFn.eval]
    rfl

/-- Result of `+` on functions of equal shapes. -/
lemma add_spec (f g : JFn X) (s : Shapes) (hf : f.sh = s) (hg : g.sh = s) :
    ∃ h, f.add g = .ok h ∧ h.sh = s ∧ h.eval = f.eval + g.eval := by
  have gen : ∃ h, mkSum [f, g] = .ok h ∧ h.sh = s ∧ h.eval = f.eval + g.eval := by
    have := mkSum_of_forall (fs := [f, g]) s (by simp) (by simp [hf, hg])
    refine ⟨_, this, rfl, ?_⟩
    rw [(mkSum_ok this).2.2.2]; simp
  have zer : ∀ i o, g = .zero i o → ∃ h, addZero f i o = .ok h ∧ h.sh = s ∧ h.eval = f.eval + g.eval := by
    rintro i o rfl
    refine ⟨f, ?_, hf, ?_⟩
    · unfold addZero
      have : (i, o) = f.sh := by rw [hf, ← hg]; rfl
      rw [← this]; simp
    · rw [eval_zero, add_zero]
  have cst : ∀ i o v i' o' w, f.sh = (i, o) → f.eval = (fun _ => v) → g = .const i' o' w →
      ∃ h, (constAdd i o v i' o' w : Except Err (JFn X)) = .ok h ∧ h.sh = s ∧ h.eval = f.eval + g.eval := by
    rintro i o v i' o' w h1 h2 rfl
    have e : (i, o) = (i', o') := by rw [← h1, hf, ← hg]; rfl
    obtain ⟨rfl, rfl⟩ := Prod.mk.inj e
    refine ⟨.const i o fun p => v p + w p, ?_, ?_, ?_⟩
    · unfold constAdd; rw [if_neg (by simp), if_pos rfl]
    · rw [← hf, h1]; rfl
    · rw [h2]; simp only [JFn.eval]; rfl
  cases g with
  | zero i o => 
    have : f.add (.zero i o) = addZero f i o := by cases f <;> rfl
    rw [this]; exact zer i o rfl
  | const i' o' w =>
    cases f with
    | const i o v => exact cst i o v i' o' w rfl (by simp only [JFn.eval]) rfl
    | zero i o => exact cst i o (fun _ => 0) i' o' w rfl (by simp only [JFn.eval]) rfl
    | base _ _ => exact gen
    | scaled _ _ => exact gen
    | sum _ _ => exact gen
  | base _ _ => cases f <;> exact gen
  | scaled _ _ => cases f <;> exact gen
  | sum _ _ => cases f <;> exact gen

lemma reduceAdd_spec (s : Shapes) : ∀ (fs : List (JFn X)), fs ≠ [] → (∀ f ∈ fs, f.sh = s) →
    ∃ h, reduceAdd fs = .ok h ∧ h.sh = s ∧ h.eval = (fs.map JFn.eval).sum := by
  intro fs h0 h
  cases fs with
  | nil => exact absurd rfl h0
  | cons f fs =>
    have key : ∀ (fs : List (JFn X)) (f : JFn X), f.sh = s → (∀ g ∈ fs, g.sh = s) →
        ∃ h, fs.foldl (fun acc g => acc >>= fun a => JFn.add a g) (.ok f) = .ok h ∧ h.sh = s ∧
          h.eval = f.eval + (fs.map JFn.eval).sum := by
      intro fs
      induction fs with
      | nil => intro f hf _; exact ⟨f, rfl, hf, by simp⟩
      | cons g fs ih =>
        intro f hf hg
        obtain ⟨k, hk, hks, hke⟩ := add_spec f g s hf (hg g List.mem_cons_self)
        obtain ⟨h, h1, h2, h3⟩ := ih k hks fun g' hg' => hg g' (List.mem_cons_of_mem _ hg')
        refine ⟨h, ?_, h2, ?_⟩
        · rw [List.foldl_cons]
          show fs.foldl _ (f.add g) = _
          rw [hk, h1]
        · rw [h3, hke, List.map_cons, List.sum_cons, add_assoc]
    obtain ⟨k, h1, h2, h3⟩ := key fs f (h f List.mem_cons_self) fun g hg => h g (List.mem_cons_of_mem _ hg)
    exact ⟨k, h1, h2, by rw [h3, List.map_cons, List.sum_cons]⟩

/-! ### Valid operators -/

mutual
/-- The invariants established by the constructors. -/
def Op.WF : Op X → Prop
  | .ident _ => True
  | .base _ _ _ _ => True
  | .scaled L _ => L.WF
  | .scaledDiff L _ => L.WF
  | .sum i o ops => ops ≠ [] ∧ (∀ M ∈ ops, M.inS = i ∧ M.outS = o) ∧ allWF ops
  | .comp i o ops => chainOK ops = true ∧ (∃ L0, ops.head? = some L0 ∧ L0.outS = o) ∧
      (∃ Ln, ops.getLast? = some Ln ∧ Ln.inS = i) ∧ allWF ops
def allWF : List (Op X) → Prop
  | [] => True
  | L :: Ls => L.WF ∧ allWF Ls
end

mutual
/-- Meaning of an operator object. -/
noncomputable def Op.den : Op X → Module.End ℝ (Val X)
  | .ident _ => 1
  | .base _ _ T _ => T
  | .scaled L c => c • L.den
  | .scaledDiff L c => c • L.den
  | .sum _ _ ops => denSum ops
  | .comp _ _ ops => denProd ops
noncomputable def denSum : List (Op X) → Module.End ℝ (Val X)
  | [] => 0
  | L :: Ls => L.den + denSum Ls
noncomputable def denProd : List (Op X) → Module.End ℝ (Val X)
  | [] => 1
  | L :: Ls => L.den * denProd Ls
end

lemma callBase_spec (i o : Shapes) (T : Val X →ₗ[ℝ] Val X) : ∀ (n : ℕ) (f g : JFn X), callBase i o T n f = .ok g →
    g.sh = o ∧ g.eval = T f.eval
  | 0, f, g, h => by simp [callBase] at h
  | n + 1, f, g, h => by
    cases f with
    | sum sh fs =>
      rw [callBase] at h
      cases hm : mapE (callBase i o T n) fs with
      | error e => rw [hm] at h; simp [bind, Except.bind] at h
      | ok gs =>
        rw [hm] at h
        have h : mkSum gs = .ok g := h
        obtain ⟨h1, -, h3, h4⟩ := mkSum_ok h
        have hall := mapE_ok _ _ _ hm
        have hsh : ∀ k ∈ gs, k.sh = o := by
          intro k hk
          obtain ⟨a, -, ha⟩ := forall₂_mem_right hall hk
          exact (callBase_spec i o T n a k ha).1
        constructor
        · obtain ⟨k, hk⟩ := List.exists_mem_of_ne_nil gs h1
          rw [← h3 k hk]; exact hsh k hk
        · rw [h4, eval_sum, map_list_sum, List.map_map]
          have key : ∀ {fs gs : List (JFn X)}, List.Forall₂ (fun a b => callBase i o T n a = .ok b) fs gs →
              gs.map JFn.eval = fs.map (T ∘ JFn.eval) := by
            intro fs gs hh
            induction hh with
            | nil => rfl
            | cons hd _ ih => rw [List.map_cons, List.map_cons, ih, (callBase_spec i o T n _ _ hd).2]; rfl
          rw [key hall]
    | scaled f c =>
      rw [callBase] at h
      cases hm : callBase i o T n (.scaled f c) with
      | error e => rw [hm] at h; simp [bind, Except.bind] at h
      | ok g' =>
        exfalso
        have : ∀ n g', callBase i o T n (.scaled f c) ≠ .ok g' := by
          intro n
          induction n with
          | zero => intro g' hh; simp [callBase] at hh
          | succ n ih =>
            intro g' hh
            rw [callBase] at hh
            cases hq : callBase i o T n (.scaled f c) with
            | error e => rw [hq] at hh; simp [bind, Except.bind] at hh
            | ok q => exact ih q hq
        exact this n g' hm
    | zero i' o' =>
      rw [callBase] at h
      have := (Except.ok.inj h).symm
      subst this
      exact ⟨rfl, by rw [eval_zero, eval_zero, map_zero]⟩
    | base sh ev =>
      simp only [callBase] at h
      split_ifs at h
      have := (Except.ok.inj h).symm
      subst this
      exact ⟨rfl, by conv_lhs => rw [JFn.eval]⟩
    | const i' o' v =>
      simp only [callBase] at h
      split_ifs at h
      have := (Except.ok.inj h).symm
      subst this
      exact ⟨rfl, by conv_lhs => rw [JFn.eval]⟩

lemma bind_ok {α β ε : Type} {x : Except ε α} {f : α → Except ε β} {b : β} (h : (x >>= f) = .ok b) :
    ∃ a, x = .ok a ∧ f a = .ok b := by
  cases x with
  | error e => simp [bind, Except.bind] at h
  | ok a => exact ⟨a, rfl, h⟩

mutual
/-- A returned function has the output shapes and the value of the operator applied to the value. -/
lemma call_sound (n : ℕ) : ∀ (L : Op X) (f g : JFn X), L.WF → L.call n f = .ok g → g.sh = L.outS ∧ g.eval = L.den f.eval
  | .ident s, f, g, _, h => by
    rw [Op.call] at h
    split_ifs at h with hs
    have := Except.ok.inj h
    subst this
    push Not at hs
    exact ⟨hs, by rw [Op.den]; rfl⟩
  | .base i o T b, f, g, _, h => by
    rw [Op.call] at h
    rw [Op.den]
    exact callBase_spec i o T n f g h
  | .scaled L c, f, g, hw, h => by
    rw [Op.call] at h
    obtain ⟨k, hk, h⟩ := bind_ok h
    have := Except.ok.inj h
    subst this
    rw [Op.WF] at hw
    obtain ⟨h1, h2⟩ := call_sound n L f k hw hk
    obtain ⟨h3, h4⟩ := smul_eval c k
    exact ⟨by rw [h4, h1]; rfl, by rw [h3, h2, Op.den]; rfl⟩
  | .scaledDiff L c, f, g, hw, h => by
    rw [Op.call] at h
    obtain ⟨k, hk, h⟩ := bind_ok h
    have := Except.ok.inj h
    subst this
    rw [Op.WF] at hw
    obtain ⟨h1, h2⟩ := call_sound n L f k hw hk
    obtain ⟨h3, h4⟩ := smul_eval c k
    exact ⟨by rw [h4, h1]; rfl, by rw [h3, h2, Op.den]; rfl⟩
  | .sum i o ops, f, g, hw, h => by
    rw [Op.call] at h
    obtain ⟨gs, hgs, h⟩ := bind_ok h
    rw [Op.WF] at hw
    obtain ⟨h0, hsh, hw⟩ := hw
    obtain ⟨hl, h1, h2⟩ := callAll_sound n ops f gs o hw (fun M hM => (hsh M hM).2) hgs
    obtain ⟨k, hk, hk1, hk2⟩ := reduceAdd_spec o gs (by
      intro hh; rw [hh, List.length_nil] at hl
      exact h0 (List.length_eq_zero_iff.mp hl.symm)) h1
    rw [hk] at h
    have := Except.ok.inj h
    subst this
    exact ⟨hk1, by rw [hk2, h2, Op.den]⟩
  | .comp i o ops, f, g, hw, h => by
    rw [Op.call] at h
    rw [Op.WF] at hw
    obtain ⟨h1, h2⟩ := callSeq_sound n ops f g hw.2.2.2 h
    refine ⟨?_, by rw [h2, Op.den]⟩
    obtain ⟨L0, hL0, ho⟩ := hw.2.1
    rw [h1 L0 hL0, ho]; rfl
lemma callAll_sound (n : ℕ) : ∀ (Ls : List (Op X)) (f : JFn X) (gs : List (JFn X)) (o : Shapes), allWF Ls →
    (∀ M ∈ Ls, M.outS = o) → callAll n Ls f = .ok gs →
    gs.length = Ls.length ∧ (∀ g ∈ gs, g.sh = o) ∧ (gs.map JFn.eval).sum = denSum Ls f.eval
  | [], f, gs, o, _, _, h => by
    rw [callAll] at h
    have := Except.ok.inj h
    subst this
    exact ⟨rfl, by simp, by simp [denSum]⟩
  | L :: Ls, f, gs, o, hw, ho, h => by
    rw [callAll] at h
    obtain ⟨g, hg, h⟩ := bind_ok h
    obtain ⟨gs', hgs, h⟩ := bind_ok h
    have := Except.ok.inj h
    subst this
    rw [allWF] at hw
    obtain ⟨a1, a2⟩ := call_sound n L f g hw.1 hg
    obtain ⟨b1, b2, b3⟩ := callAll_sound n Ls f gs' o hw.2 (fun M hM => ho M (List.mem_cons_of_mem _ hM)) hgs
    refine ⟨by simp [b1], ?_, ?_⟩
    · intro k hk
      rcases List.mem_cons.mp hk with rfl | hk
      · rw [a1]; exact ho L List.mem_cons_self
      · exact b2 k hk
    · rw [List.map_cons, List.sum_cons, a2, b3, denSum]; rfl
lemma callSeq_sound (n : ℕ) : ∀ (Ls : List (Op X)) (f g : JFn X), allWF Ls → callSeq n Ls f = .ok g →
    (∀ L0, Ls.head? = some L0 → g.sh = L0.outS) ∧ g.eval = denProd Ls f.eval
  | [], f, g, _, h => by
    rw [callSeq] at h
    have := Except.ok.inj h
    subst this
    exact ⟨by simp, by rw [denProd]; rfl⟩
  | L :: Ls, f, g, hw, h => by
    rw [callSeq] at h
    obtain ⟨k, hk, h⟩ := bind_ok h
    rw [allWF] at hw
    obtain ⟨-, b2⟩ := callSeq_sound n Ls f k hw.2 hk
    obtain ⟨a1, a2⟩ := call_sound n L k g hw.1 h
    refine ⟨?_, by rw [a2, b2, denProd]; rfl⟩
    intro L0 hL0
    have : L = L0 := by simpa using hL0
    rw [← this]; exact a1
end

/-! ### Construction of operators -/

lemma opMkSum_spec (i o : Shapes) (Ls : List (Op X)) (h0 : Ls ≠ []) (h : ∀ M ∈ Ls, M.inS = i ∧ M.outS = o)
    (hw : allWF Ls) : ∃ N, Op.mkSum Ls = .ok N ∧ N.WF ∧ N.inS = i ∧ N.outS = o ∧ N.den = denSum Ls := by
  cases Ls with
  | nil => exact absurd rfl h0
  | cons L Ls =>
    obtain ⟨h1, h2⟩ := h L List.mem_cons_self
    refine ⟨.sum i o (L :: Ls), ?_, ?_, rfl, rfl, by rw [Op.den]⟩
    · rw [Op.mkSum, if_pos, h1, h2]
      rw [List.all_eq_true]
      intro M hM
      rw [Bool.and_eq_true, beq_iff_eq, beq_iff_eq, (h M hM).1, (h M hM).2]
      exact ⟨h1.symm, h2.symm⟩
    · rw [Op.WF]; exact ⟨h0, h, hw⟩

lemma opMkSum_ok {Ls : List (Op X)} {N : Op X} (h : Op.mkSum Ls = .ok N) :
    Ls ≠ [] ∧ (∀ M ∈ Ls, M.inS = N.inS ∧ M.outS = N.outS) ∧ N = .sum N.inS N.outS Ls := by
  cases Ls with
  | nil => simp [Op.mkSum] at h
  | cons L Ls =>
    rw [Op.mkSum] at h
    split_ifs at h with hc
    have := (Except.ok.inj h).symm
    subst this
    refine ⟨by simp, fun M hM => ?_, rfl⟩
    rw [List.all_eq_true] at hc
    have := hc M hM
    rw [Bool.and_eq_true, beq_iff_eq, beq_iff_eq] at this
    exact this

lemma mkComp_two_spec (L M : Op X) (hL : L.WF) (hM : M.WF) :
    (M.outS = L.inS → ∃ N, Op.mkComp [L, M] = .ok N ∧ N.WF ∧ N.inS = M.inS ∧ N.outS = L.outS ∧ N.den = L.den * M.den) ∧
      (M.outS ≠ L.inS → Op.mkComp [L, M] = .error .assertionError) := by
  constructor
  · intro h
    have hc : chainOK [L, M] = true := by simp [chainOK, h]
    refine ⟨.comp M.inS L.outS [L, M], ?_, ?_, rfl, rfl, ?_⟩
    · simp [Op.mkComp, hc]
    · rw [Op.WF]
      exact ⟨hc, ⟨L, rfl, rfl⟩, ⟨M, rfl, rfl⟩, hL, hM, trivial⟩
    · rw [Op.den, denProd, denProd, denProd, mul_one]
  · intro h
    have hc : chainOK [L, M] = false := by simp [chainOK, Ne.symm h]
    simp [Op.mkComp, hc]

lemma denSum_mul (A : Module.End ℝ (Val X)) (B : Module.End ℝ (Val X)) (C : Module.End ℝ (Val X)) :
    A * B + A * C = A * (B + C) := (mul_add A B C).symm

mutual
lemma matmul_spec (L : Op X) (hL : L.WF) : ∀ M : Op X, M.WF →
    (M.outS = L.inS → ∃ N, L.matmul M = .ok N ∧ N.WF ∧ N.inS = M.inS ∧ N.outS = L.outS ∧ N.den = L.den * M.den) ∧
      (M.outS ≠ L.inS → L.matmul M = .error .assertionError)
  | .sum i o ops, hM => by
    rw [Op.WF] at hM
    obtain ⟨h0, hsh, hw⟩ := hM
    obtain ⟨p1, p2⟩ := matmulAll_spec L hL ops i o hw hsh
    constructor
    · intro h
      obtain ⟨Ns, e1, e2, e3, e4, e5⟩ := p1 h
      obtain ⟨N, n1, n2, n3, n4, n5⟩ := opMkSum_spec i L.outS Ns (by
        intro hh; rw [hh, List.length_nil] at e2
        exact h0 (List.length_eq_zero_iff.mp e2.symm)) e4 e3
      refine ⟨N, ?_, n2, n3, n4, by rw [n5, e5, Op.den]⟩
      rw [Op.matmul, e1]
      exact n1
    · intro h
      rw [Op.matmul, p2 h0 h]
      rfl
  | .ident s, hM => by rw [Op.matmul]; exact mkComp_two_spec L _ hL hM
  | .base i o T b, hM => by rw [Op.matmul]; exact mkComp_two_spec L _ hL hM
  | .scaled M c, hM => by rw [Op.matmul]; exact mkComp_two_spec L _ hL hM
  | .scaledDiff M c, hM => by rw [Op.matmul]; exact mkComp_two_spec L _ hL hM
  | .comp i o ops, hM => by rw [Op.matmul]; exact mkComp_two_spec L _ hL hM
lemma matmulAll_spec (L : Op X) (hL : L.WF) : ∀ (Ms : List (Op X)) (i o : Shapes), allWF Ms →
    (∀ M ∈ Ms, M.inS = i ∧ M.outS = o) →
    (o = L.inS → ∃ Ns, matmulAll L Ms = .ok Ns ∧ Ns.length = Ms.length ∧ allWF Ns ∧
      (∀ N ∈ Ns, N.inS = i ∧ N.outS = L.outS) ∧ denSum Ns = L.den * denSum Ms) ∧
    (Ms ≠ [] → o ≠ L.inS → matmulAll L Ms = .error .assertionError)
  | [], i, o, _, _ => ⟨fun _ => ⟨[], by rw [matmulAll], rfl, trivial, by simp, by simp [denSum]⟩, fun h => absurd rfl h⟩
  | M :: Ms, i, o, hw, hsh => by
    rw [allWF] at hw
    obtain ⟨m1, m2⟩ := hsh M List.mem_cons_self
    obtain ⟨p1, p2⟩ := matmul_spec L hL M hw.1
    obtain ⟨q1, -⟩ := matmulAll_spec L hL Ms i o hw.2 fun M' hM' => hsh M' (List.mem_cons_of_mem _ hM')
    constructor
    · intro h
      obtain ⟨N, a1, a2, a3, a4, a5⟩ := p1 (by rw [m2, h])
      obtain ⟨Ns, b1, b2, b3, b4, b5⟩ := q1 h
      refine ⟨N :: Ns, ?_, by simp [b2], ⟨a2, b3⟩, ?_, ?_⟩
      · rw [matmulAll, a1, b1]; rfl
      · intro K hK
        rcases List.mem_cons.mp hK with rfl | hK
        · exact ⟨by rw [a3, m1], a4⟩
        · exact b4 K hK
      · rw [denSum, a5, b5, denSum, denSum_mul]
    · intro _ h
      rw [matmulAll, p2 (by rw [m2]; exact h)]
      rfl
end

lemma opSmul_spec (c : ℝ) (L : Op X) (hL : L.WF) :
    (∃ M d, L = .scaledDiff M d ∧ L.smul c = .error .typeError) ∨
      (∃ N, L.smul c = .ok N ∧ N.WF ∧ N.inS = L.inS ∧ N.outS = L.outS ∧ N.den = c • L.den ∧
        ∀ M d, L ≠ .scaledDiff M d) := by
  cases L with
  | scaledDiff M d => exact Or.inl ⟨M, d, rfl, rfl⟩
  | scaled M d =>
    refine Or.inr ⟨.scaled M (c * d), rfl, ?_, rfl, rfl, ?_, by intro _ _ h; cases h⟩
    · rw [Op.WF] at hL ⊢; exact hL
    · rw [Op.den, Op.den, mul_smul]
  | ident s => exact Or.inr ⟨.scaled (.ident s) c, rfl, by rw [Op.WF]; exact hL, rfl, rfl, by conv_lhs => rw [Op.den], by intro _ _ h; cases h⟩
  | base i o T b =>
    cases b with
    | true => exact Or.inr ⟨.scaledDiff (.base i o T true) c, rfl, by rw [Op.WF]; exact hL, rfl, rfl, by conv_lhs => rw [Op.den], by intro _ _ h; cases h⟩
    | false => exact Or.inr ⟨.scaled (.base i o T false) c, rfl, by rw [Op.WF]; exact hL, rfl, rfl, by conv_lhs => rw [Op.den], by intro _ _ h; cases h⟩
  | sum i o ops => exact Or.inr ⟨.scaled (.sum i o ops) c, rfl, by rw [Op.WF]; exact hL, rfl, rfl, by conv_lhs => rw [Op.den], by intro _ _ h; cases h⟩
  | comp i o ops => exact Or.inr ⟨.scaled (.comp i o ops) c, rfl, by rw [Op.WF]; exact hL, rfl, rfl, by conv_lhs => rw [Op.den], by intro _ _ h; cases h⟩

lemma opAdd_spec (L M : Op X) (hL : L.WF) (hM : M.WF) :
    (M.inS = L.inS ∧ M.outS = L.outS → ∃ N, L.add M = .ok N ∧ N.WF ∧ N.inS = L.inS ∧ N.outS = L.outS ∧ N.den = L.den + M.den) ∧
      (¬(M.inS = L.inS ∧ M.outS = L.outS) → L.add M = .error .assertionError) := by
  constructor
  · intro h
    obtain ⟨N, n1, n2, n3, n4, n5⟩ := opMkSum_spec L.inS L.outS [L, M] (by simp) (by
      intro K hK
      rcases List.mem_cons.mp hK with rfl | hK
      · exact ⟨rfl, rfl⟩
      · rw [List.mem_singleton] at hK; subst hK; exact h) ⟨hL, hM, trivial⟩
    exact ⟨N, n1, n2, n3, n4, by rw [n5, denSum, denSum, denSum, add_zero]⟩
  · intro h
    unfold Op.add
    rw [Op.mkSum, if_neg]
    rw [List.all_eq_true]
    intro hh
    have := hh M (by simp)
    rw [Bool.and_eq_true, beq_iff_eq, beq_iff_eq] at this
    exact h this

end LinPDE.Ops
