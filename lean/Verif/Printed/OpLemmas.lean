import Verif.Printed.Lemmas

/-! Helper lemmas about nested lists, polynomials with floating point coefficients and operators. -/

namespace LinPDE.Printed
open LinPDE.Polys LinPDE.Coeff LinPDE.Ops LinPDE.Nd

/-! ### Nested lists -/

/-- The text does not go on with a digit. -/
def Delim (r : Str) : Prop := ∀ c ∈ r.head?, c ∉ Digits

lemma digits_append_inj : ∀ {a b r s : Str}, (∀ c ∈ a, c ∈ Digits) → (∀ c ∈ b, c ∈ Digits) → Delim r → Delim s → a ++ r = b ++ s → a = b ∧ r = s
  | [], [], _, _, _, _, _, _, h => ⟨rfl, h⟩
  | [], c :: b, r, s, _, hb, hr, _, h => by
    rw [List.nil_append, List.cons_append] at h
    exact absurd (hb c List.mem_cons_self) (hr c (by rw [h]; rfl))
  | c :: a, [], r, s, ha, _, _, hs, h => by
    rw [List.nil_append, List.cons_append] at h
    exact absurd (ha c List.mem_cons_self) (hs c (by rw [← h]; rfl))
  | c :: a, d :: b, r, s, ha, hb, hr, hs, h => by
    rw [List.cons_append, List.cons_append, List.cons.injEq] at h
    obtain ⟨h1, h2⟩ := digits_append_inj (fun c hc => ha c (List.mem_cons_of_mem _ hc)) (fun c hc => hb c (List.mem_cons_of_mem _ hc)) hr hs h.2
    exact ⟨by rw [h.1, h1], h2⟩

lemma delim_rest (xs : List Nested) (r : Str) : Delim (restStr xs ++ r) := by
  intro c hc
  cases xs with
  | nil => rw [restStr] at hc; simp at hc; rw [← hc]; decide
  | cons x xs => rw [restStr] at hc; simp at hc; rw [← hc]; decide

lemma natStr_head_digit (n : ℕ) : ∃ c l, natStr n = c :: l ∧ c ∈ Digits := by
  cases h : natStr n with
  | nil => exact absurd h (natStr_ne n)
  | cons c l => exact ⟨c, l, rfl, mem_natStr (by rw [h]; exact List.mem_cons_self)⟩

lemma str_head (x : Nested) : ∃ c l, x.str = c :: l ∧ c ∈ '[' :: Digits := by
  cases x with
  | num n =>
    obtain ⟨c, l, h, hc⟩ := natStr_head_digit n
    exact ⟨c, l, by rw [Nested.str, h], List.mem_cons_of_mem _ hc⟩
  | arr l =>
    cases l with
    | nil => exact ⟨'[', [']'], by rw [Nested.str], List.mem_cons_self⟩
    | cons x xs => exact ⟨'[', x.str ++ restStr xs, by rw [Nested.str], List.mem_cons_self⟩

mutual
lemma str_inj : ∀ (x y : Nested) {r s : Str}, Delim r → Delim s → x.str ++ r = y.str ++ s → x = y ∧ r = s
  | .num m, .num n, r, s, hr, hs, h => by
    rw [Nested.str, Nested.str] at h
    obtain ⟨h1, h2⟩ := digits_append_inj (fun c => mem_natStr) (fun c => mem_natStr) hr hs h
    exact ⟨by rw [natStr_inj h1], h2⟩
  | .num m, .arr l, r, s, hr, hs, h => by
    obtain ⟨c, t, h1, h2⟩ := natStr_head_digit m
    rw [Nested.str, h1] at h
    have hc : c = '[' := by
      cases l with
      | nil => rw [Nested.str] at h; exact (List.cons.inj h).1
      | cons y ys => rw [Nested.str] at h; exact (List.cons.inj h).1
    rw [hc] at h2
    exact absurd h2 (by decide)
  | .arr l, .num m, r, s, hr, hs, h => by
    obtain ⟨c, t, h1, h2⟩ := natStr_head_digit m
    rw [Nested.str.eq_def (.num m)] at h
    dsimp only at h
    rw [h1] at h
    have hc : c = '[' := by
      cases l with
      | nil => rw [Nested.str] at h; exact (List.cons.inj h).1.symm
      | cons y ys => rw [Nested.str] at h; exact (List.cons.inj h).1.symm
    rw [hc] at h2
    exact absurd h2 (by decide)
  | .arr [], .arr [], r, s, _, _, h => by
    rw [Nested.str] at h
    exact ⟨rfl, by simpa using h⟩
  | .arr [], .arr (y :: ys), r, s, _, _, h => by
    rw [Nested.str, Nested.str] at h
    obtain ⟨c, t, h1, h2⟩ := str_head y
    rw [h1] at h
    simp only [List.cons_append, List.cons.injEq, true_and] at h
    rw [← h.1] at h2
    exact absurd h2 (by decide)
  | .arr (x :: xs), .arr [], r, s, _, _, h => by
    rw [Nested.str, Nested.str] at h
    obtain ⟨c, t, h1, h2⟩ := str_head x
    rw [h1] at h
    simp only [List.cons_append, List.cons.injEq, true_and] at h
    rw [h.1] at h2
    exact absurd h2 (by decide)
  | .arr (x :: xs), .arr (y :: ys), r, s, _, _, h => by
    rw [Nested.str, Nested.str] at h
    simp only [List.cons_append, List.cons.injEq, true_and, List.append_assoc] at h
    obtain ⟨h1, h2⟩ := str_inj x y (delim_rest xs r) (delim_rest ys s) h
    obtain ⟨h3, h4⟩ := restStr_inj xs ys h2
    exact ⟨by rw [h1, h3], h4⟩
lemma restStr_inj : ∀ (xs ys : List Nested) {r s : Str}, restStr xs ++ r = restStr ys ++ s → xs = ys ∧ r = s
  | [], [], r, s, h => by
    rw [restStr] at h
    exact ⟨rfl, by simpa using h⟩
  | [], y :: ys, r, s, h => by
    rw [restStr, restStr] at h
    simp at h
  | x :: xs, [], r, s, h => by
    rw [restStr, restStr] at h
    simp at h
  | x :: xs, y :: ys, r, s, h => by
    rw [restStr, restStr] at h
    simp only [List.cons_append, List.cons.injEq, true_and, List.append_assoc] at h
    obtain ⟨h1, h2⟩ := str_inj x y (delim_rest xs r) (delim_rest ys s) h
    obtain ⟨h3, h4⟩ := restStr_inj xs ys h2
    exact ⟨by rw [h1, h3], h4⟩
end

lemma tolist_inj : ∀ {s t : Shp} {g h : ℕ → ℕ}, s.prod ≠ 0 → t.prod ≠ 0 → tolist s g = tolist t h → s = t ∧ ∀ i < s.prod, g i = h i
  | [], [], g, h, _, _, e => by
    rw [tolist, tolist, Nested.num.injEq] at e
    exact ⟨rfl, fun i hi => by rw [List.prod_nil, Nat.lt_one_iff] at hi; rw [hi, e]⟩
  | [], m :: ms, g, h, _, _, e => by rw [tolist, tolist] at e; simp at e
  | n :: ns, [], g, h, _, _, e => by rw [tolist, tolist] at e; simp at e
  | n :: ns, m :: ms, g, h, hs, ht, e => by
    rw [List.prod_cons, mul_ne_zero_iff] at hs ht
    rw [tolist, tolist, Nested.arr.injEq] at e
    have hnm : n = m := by simpa using congrArg List.length e
    subst hnm
    have hi : ∀ i < n, ns = ms ∧ ∀ j < ns.prod, g (i * ns.prod + j) = h (i * ms.prod + j) := by
      intro i hi
      have := List.map_inj_left.mp e i (List.mem_range.mpr hi)
      exact tolist_inj hs.2 ht.2 this
    obtain ⟨h0, -⟩ := hi 0 (Nat.pos_of_ne_zero hs.1)
    refine ⟨by rw [h0], fun p hp => ?_⟩
    rw [List.prod_cons] at hp
    have hP := Nat.pos_of_ne_zero hs.2
    have := (hi (p / ns.prod) (Nat.div_lt_of_lt_mul (by rwa [mul_comm] at hp))).2 (p % ns.prod) (Nat.mod_lt _ hP)
    rw [← h0, Nat.div_add_mod'] at this
    exact this

/-! ### Polynomials with floating point coefficients -/

lemma spl_inj {a b : Str} (h : spl ' ' a = spl ' ' b) : a = b := by
  have key : ∀ a : Str, join [' '] (spl ' ' a) = a := by
    intro a
    induction a with
    | nil => rfl
    | cons c cs ih =>
      have hne := spl_ne ' ' cs
      rw [spl]
      cases hs : spl ' ' cs with
      | nil => exact absurd hs hne
      | cons w ws =>
        rw [hs] at ih
        split_ifs with h
        · have : join [' '] ([] :: w :: ws) = ' ' :: join [' '] (w :: ws) := by simp [join]
          rw [this, ih, h]
        · cases ws with
          | nil => rw [join] at ih; simp [join, ih]
          | cons v ws =>
            rw [join] at ih
            · simp [join]
              simpa [join] using ih
            · simp
  rw [← key a, h, key b]

lemma spl_sep (c : Char) (hc : c ≠ ' ') (a b : Str) : spl ' ' (a ++ ' ' :: c :: ' ' :: b) = spl ' ' a ++ [c] :: spl ' ' b := by
  rw [spl_append]
  congr 1
  have : c :: ' ' :: b = [c] ++ ' ' :: b := rfl
  rw [this, spl_word (by simpa using hc.symm)]

lemma poly_inj {K : Type} {fs : K → Str} (hf : Function.Injective fs) (hs : ∀ c, ' ' ∉ fs c) : ∀ (cs ds : List K) (n : ℕ), cs ≠ [] → ds ≠ [] →
    join [' ', '+', ' '] ((cs.zipIdx n).map fun t => fs t.1 ++ [' ', '*', ' ', 'x', '^'] ++ natStr t.2) =
      join [' ', '+', ' '] ((ds.zipIdx n).map fun t => fs t.1 ++ [' ', '*', ' ', 'x', '^'] ++ natStr t.2) → cs = ds := by
  have hw : ∀ (c : K) (n : ℕ), spl ' ' (fs c ++ [' ', '*', ' ', 'x', '^'] ++ natStr n) = [fs c, ['*'], 'x' :: '^' :: natStr n] := by
    intro c n
    have e : fs c ++ [' ', '*', ' ', 'x', '^'] ++ natStr n = fs c ++ ' ' :: '*' :: ' ' :: ('x' :: '^' :: natStr n) := by simp
    rw [e, spl_sep _ (by decide), spl_of_notMem (hs c), spl_of_notMem (by simpa using space_natStr n)]
    rfl
  have hj : ∀ (c d : K) (cs : List K) (n : ℕ), spl ' ' (join [' ', '+', ' '] (((c :: d :: cs).zipIdx n).map fun t => fs t.1 ++ [' ', '*', ' ', 'x', '^'] ++ natStr t.2)) =
      [fs c, ['*'], 'x' :: '^' :: natStr n] ++ ['+'] :: spl ' ' (join [' ', '+', ' '] (((d :: cs).zipIdx (n + 1)).map fun t => fs t.1 ++ [' ', '*', ' ', 'x', '^'] ++ natStr t.2)) := by
    intro c d cs n
    have e : join [' ', '+', ' '] (((c :: d :: cs).zipIdx n).map fun t => fs t.1 ++ [' ', '*', ' ', 'x', '^'] ++ natStr t.2) =
        (fs c ++ [' ', '*', ' ', 'x', '^'] ++ natStr n) ++ ' ' :: '+' :: ' ' ::
          join [' ', '+', ' '] (((d :: cs).zipIdx (n + 1)).map fun t => fs t.1 ++ [' ', '*', ' ', 'x', '^'] ++ natStr t.2) := by
      simp [join, List.zipIdx_cons]
    rw [e, spl_sep _ (by decide), hw]
  have h1 : ∀ (c : K) (n : ℕ), spl ' ' (join [' ', '+', ' '] ((([c] : List K).zipIdx n).map fun t => fs t.1 ++ [' ', '*', ' ', 'x', '^'] ++ natStr t.2)) =
      [fs c, ['*'], 'x' :: '^' :: natStr n] := fun c n => hw c n
  intro cs
  induction cs with
  | nil => intro _ _ h; exact absurd rfl h
  | cons c cs ih =>
    intro ds n _ hd h
    cases ds with
    | nil => exact absurd rfl hd
    | cons d ds =>
      have h' := congrArg (spl ' ') h
      cases cs with
      | nil =>
        cases ds with
        | nil =>
          rw [h1, h1] at h'
          rw [hf (List.cons.inj h').1]
        | cons d' ds =>
          rw [h1, hj] at h'
          simp at h'
      | cons c' cs =>
        cases ds with
        | nil =>
          rw [h1, hj] at h'
          simp at h'
        | cons d' ds =>
          rw [hj, hj] at h'
          simp only [List.cons_append, List.nil_append, List.cons.injEq, true_and] at h'
          rw [hf h'.1, ih (d' :: ds) (n + 1) (by simp) (by simp) (spl_inj h'.2)]

/-! ### Operators -/

variable {X : Type}

section
variable (F : Set ℝ) (A : Set (Op X))

mutual
/-- No sum inside; the scalars are from `F` and the other operators from `A`. -/
def SumFree : Op X → Prop
  | .ident s => .ident s ∈ A
  | .base i o T d => .base i o T d ∈ A
  | .scaled L c => c ∈ F ∧ SumFree L
  | .scaledDiff L c => c ∈ F ∧ SumFree L
  | .sum _ _ _ => False
  | .comp _ _ ops => ops ≠ [] ∧ allSumFree ops
def allSumFree : List (Op X) → Prop
  | [] => True
  | L :: Ls => SumFree L ∧ allSumFree Ls
end

mutual
/-- Sums occur only as summands: not inside a scaled operator and not inside a composition. -/
def SumsOutside : Op X → Prop
  | .ident s => SumFree F A (.ident s : Op X)
  | .base i o T d => SumFree F A (.base i o T d)
  | .scaled L c => SumFree F A (.scaled L c)
  | .scaledDiff L c => SumFree F A (.scaledDiff L c)
  | .sum _ _ ops => ops ≠ [] ∧ allOutside ops
  | .comp i o ops => SumFree F A (.comp i o ops)
def allOutside : List (Op X) → Prop
  | [] => True
  | L :: Ls => SumsOutside L ∧ allOutside Ls
end

end

/-- The symbols of the printed form. -/
abbrev Symbols : List Str := [['+'], ['*'], ['@']]

/-- Contract of the printed forms of the numbers in `F` and of the operators in `A` (of classes without sums, products and multiples): they
determine the number and the operator, and none of their words is one of the symbols. -/
structure Names (F : Set ℝ) (A : Set (Op X)) (fs : ℝ → Str) (nm : Op X → Str) : Prop where
  num : Set.InjOn fs F
  numW : ∀ c ∈ F, ∀ w ∈ spl ' ' (fs c), w ∉ Symbols
  atom : ∀ L ∈ A, ∀ M ∈ A, nm L = nm M → L.den = M.den
  atomW : ∀ L ∈ A, ∀ w ∈ spl ' ' (nm L), w ∉ Symbols

section
variable (F : Set ℝ) (A : Set (Op X)) (fs : ℝ → Str) (nm : Op X → Str)

open Classical in
/-- Reading a number. -/
noncomputable def readNum (ws : List Str) : ℝ := if h : ∃ c ∈ F, spl ' ' (fs c) = ws then h.choose else 0

open Classical in
/-- Reading the name of an operator. -/
noncomputable def readAtom (ws : List Str) : Module.End ℝ (Val X) := if h : ∃ L ∈ A, spl ' ' (nm L) = ws then h.choose.den else 0

/-- Reading `c * d * L`. -/
noncomputable def readFactor (ws : List Str) : Module.End ℝ (Val X) :=
  ((spl ['*'] ws).dropLast.map (readNum F fs)).prod • readAtom A nm ((spl ['*'] ws).getLast (spl_ne _ _))

/-- Reading a composition. -/
noncomputable def readProd (ws : List Str) : Module.End ℝ (Val X) := ((spl ['@'] ws).map (readFactor F A fs nm)).prod

/-- Reading a sum. -/
noncomputable def readSum (ws : List Str) : Module.End ℝ (Val X) := ((spl ['+'] ws).map (readProd F A fs nm)).sum

variable {F A fs nm} (H : Names F A fs nm)
include H

lemma readNum_eq {c : ℝ} (hc : c ∈ F) : readNum F fs (spl ' ' (fs c)) = c := by
  have h : ∃ d ∈ F, spl ' ' (fs d) = spl ' ' (fs c) := ⟨c, hc, rfl⟩
  rw [readNum, dif_pos h]
  exact H.num h.choose_spec.1 hc (spl_inj h.choose_spec.2)

lemma readAtom_eq {L : Op X} (hL : L ∈ A) : readAtom A nm (spl ' ' (nm L)) = L.den := by
  have h : ∃ M ∈ A, spl ' ' (nm M) = spl ' ' (nm L) := ⟨L, hL, rfl⟩
  rw [readAtom, dif_pos h]
  exact H.atom _ h.choose_spec.1 _ hL (spl_inj h.choose_spec.2)

lemma num_sym {c : ℝ} (hc : c ∈ F) {s : Str} (hs : s ∈ Symbols) : s ∉ spl ' ' (fs c) := fun h => H.numW c hc s h hs
lemma atom_sym {L : Op X} (hL : L ∈ A) {s : Str} (hs : s ∈ Symbols) : s ∉ spl ' ' (nm L) := fun h => H.atomW L hL s h hs

lemma atom_words {L : Op X} (hL : L ∈ A) : ['+'] ∉ spl ' ' (nm L) ∧ readProd F A fs nm (spl ' ' (nm L)) = L.den := by
  refine ⟨atom_sym H hL (by simp), ?_⟩
  have h1 : spl ['*'] (spl ' ' (nm L)) = [spl ' ' (nm L)] := spl_of_notMem (atom_sym H hL (by simp))
  rw [readProd, spl_of_notMem (atom_sym H hL (by simp)), List.map_singleton, List.prod_singleton, readFactor]
  simp only [h1, List.dropLast_singleton, List.map_nil, List.prod_nil, one_smul, List.getLast_singleton]
  exact readAtom_eq H hL

lemma readFactor_scaled {c : ℝ} (hc : c ∈ F) (ws : List Str) : readFactor F A fs nm (spl ' ' (fs c) ++ ['*'] :: ws) = c • readFactor F A fs nm ws := by
  have h1 : spl ['*'] (spl ' ' (fs c) ++ ['*'] :: ws) = spl ' ' (fs c) :: spl ['*'] ws := spl_word (num_sym H hc (by simp)) ws
  have hne := spl_ne ['*'] ws
  simp only [readFactor, h1, List.dropLast_cons_of_ne_nil hne, List.map_cons, List.prod_cons, readNum_eq H hc, List.getLast_cons hne, smul_smul]

omit H in
lemma spl_prefix {α : Type} [DecidableEq α] {s : α} : ∀ {a b : List α}, s ∉ a → spl s (a ++ b) = (a ++ (spl s b).head (spl_ne s b)) :: (spl s b).tail
  | [], b, _ => by
    rw [List.nil_append, List.nil_append, List.cons_head_tail]
  | c :: a, b, h => by
    rw [List.mem_cons, not_or] at h
    rw [List.cons_append, spl, if_neg (Ne.symm h.1), spl_prefix h.2]
    simp

lemma scaled_words {c : ℝ} (hc : c ∈ F) {ws : List Str} {T : Module.End ℝ (Val X)} (h : ['+'] ∉ ws ∧ readProd F A fs nm ws = T) :
    ['+'] ∉ spl ' ' (fs c) ++ ['*'] :: ws ∧ readProd F A fs nm (spl ' ' (fs c) ++ ['*'] :: ws) = c • T := by
  constructor
  · simp only [List.mem_append, List.mem_cons, not_or]
    exact ⟨num_sym H hc (by simp), by decide, h.1⟩
  · have e : spl ' ' (fs c) ++ ['*'] :: ws = (spl ' ' (fs c) ++ [['*']]) ++ ws := by simp
    have hn : ['@'] ∉ spl ' ' (fs c) ++ [['*']] := by
      simp only [List.mem_append, List.mem_singleton, not_or]
      exact ⟨num_sym H hc (by simp), by decide⟩
    rw [e, readProd, spl_prefix hn, List.map_cons, List.prod_cons, List.append_assoc, List.singleton_append, readFactor_scaled H hc, smul_mul_assoc, ← List.prod_cons,
      ← List.map_cons, List.cons_head_tail, ← readProd, h.2]

mutual
lemma sumFree_words : ∀ L : Op X, SumFree F A L → ['+'] ∉ spl ' ' (opStr fs nm L) ∧ readProd F A fs nm (spl ' ' (opStr fs nm L)) = L.den
  | .ident s, h => by rw [SumFree] at h; rw [opStr]; exact atom_words H h
  | .base i o T d, h => by rw [SumFree] at h; rw [opStr]; exact atom_words H h
  | .scaled L c, h => by
    rw [SumFree] at h
    have e : opStr fs nm (.scaled L c) = fs c ++ ' ' :: '*' :: ' ' :: opStr fs nm L := by rw [opStr]; simp
    rw [e, spl_sep _ (by decide), Op.den]
    exact scaled_words H h.1 (sumFree_words L h.2)
  | .scaledDiff L c, h => by
    rw [SumFree] at h
    have e : opStr fs nm (.scaledDiff L c) = fs c ++ ' ' :: '*' :: ' ' :: opStr fs nm L := by rw [opStr]; simp
    rw [e, spl_sep _ (by decide), Op.den]
    exact scaled_words H h.1 (sumFree_words L h.2)
  | .sum _ _ _, h => by rw [SumFree] at h; exact h.elim
  | .comp _ _ ops, h => by
    rw [SumFree] at h
    rw [opStr, Op.den]
    exact prod_words ops h.1 h.2
lemma prod_words : ∀ ops : List (Op X), ops ≠ [] → allSumFree F A ops → ['+'] ∉ spl ' ' (join [' ', '@', ' '] (opStrs fs nm ops)) ∧
    readProd F A fs nm (spl ' ' (join [' ', '@', ' '] (opStrs fs nm ops))) = denProd ops
  | [], h, _ => absurd rfl h
  | [L], _, h => by
    rw [allSumFree] at h
    have := sumFree_words L h.1
    rw [opStrs, opStrs, join, denProd, denProd, mul_one]
    exact this
  | L :: M :: Ls, _, h => by
    rw [allSumFree] at h
    have h1 := sumFree_words L h.1
    have h2 := prod_words (M :: Ls) (by simp) h.2
    have e : join [' ', '@', ' '] (opStrs fs nm (L :: M :: Ls)) = opStr fs nm L ++ ' ' :: '@' :: ' ' :: join [' ', '@', ' '] (opStrs fs nm (M :: Ls)) := by
      simp [opStrs, join]
    rw [e, spl_sep _ (by decide), denProd, ← h1.2, ← h2.2]
    constructor
    · simp only [List.mem_append, List.mem_cons, not_or]
      exact ⟨h1.1, by decide, h2.1⟩
    · rw [readProd, spl_append, List.map_append, List.prod_append]
      rfl
end

omit H in
lemma one_words {ws : List Str} {T : Module.End ℝ (Val X)} (h : ['+'] ∉ ws ∧ readProd F A fs nm ws = T) : readSum F A fs nm ws = T := by
  rw [readSum, spl_of_notMem h.1, List.map_singleton, List.sum_singleton, h.2]

mutual
lemma outside_words : ∀ L : Op X, SumsOutside F A L → readSum F A fs nm (spl ' ' (opStr fs nm L)) = L.den
  | .ident s, h => by rw [SumsOutside] at h; exact one_words (sumFree_words H _ h)
  | .base i o T d, h => by rw [SumsOutside] at h; exact one_words (sumFree_words H _ h)
  | .scaled L c, h => by rw [SumsOutside] at h; exact one_words (sumFree_words H _ h)
  | .scaledDiff L c, h => by rw [SumsOutside] at h; exact one_words (sumFree_words H _ h)
  | .comp i o ops, h => by rw [SumsOutside] at h; exact one_words (sumFree_words H _ h)
  | .sum _ _ ops, h => by
    rw [SumsOutside] at h
    rw [opStr, Op.den]
    exact sum_words ops h.1 h.2
lemma sum_words : ∀ ops : List (Op X), ops ≠ [] → allOutside F A ops → readSum F A fs nm (spl ' ' (join [' ', '+', ' '] (opStrs fs nm ops))) = denSum ops
  | [], h, _ => absurd rfl h
  | [L], _, h => by
    rw [allOutside] at h
    rw [opStrs, opStrs, join, denSum, denSum, add_zero]
    exact outside_words L h.1
  | L :: M :: Ls, _, h => by
    rw [allOutside] at h
    have e : join [' ', '+', ' '] (opStrs fs nm (L :: M :: Ls)) = opStr fs nm L ++ ' ' :: '+' :: ' ' :: join [' ', '+', ' '] (opStrs fs nm (M :: Ls)) := by
      simp [opStrs, join]
    rw [e, spl_sep _ (by decide), denSum, ← outside_words L h.1, ← sum_words (M :: Ls) (by simp) h.2, readSum, spl_append, List.map_append, List.sum_append]
    rfl
end

end

end LinPDE.Printed
