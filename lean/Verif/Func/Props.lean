import Verif.Func.Lemmas
import Mathlib.Tactic.NormNum

/-!
# Functions on arrays: every entry of the result is the function at a point of the batch
-/

namespace LinPDE.Func
open LinPDE.Nd
variable {K : Type} [Ring K]

omit [Ring K] in
lemma zipB_same {f : K → K → K} {a b : Arr K} {s : Shp} (ha : a.shape = s) (hb : b.shape = s) :
    ∃ c, zipB f a b = .ok c ∧ c.shape = s ∧ ∀ i, Fits s i → c.get i = f (a.get i) (b.get i) := by
  subst ha
  refine ⟨⟨a.shape, fun i => f (a.get (bidx a.shape i)) (b.get (bidx a.shape i))⟩, by
    rw [zipB, hb, show Coeff.bcast a.shape a.shape = some a.shape by simpa using bcast_append [] a.shape], rfl, ?_⟩
  intro i hi
  dsimp only
  rw [bidx_self hi]

lemma reduce_same {s : Shp} : ∀ (as : List (Arr K)) (acc : Arr K), acc.shape = s → (∀ a ∈ as, a.shape = s) →
    ∃ c, as.foldlM (fun acc b => zipB (· + ·) acc b) acc = Except.ok c ∧ c.shape = s ∧
      ∀ i, Fits s i → c.get i = acc.get i + (as.map fun a => a.get i).sum
  | [], acc, h, _ => ⟨acc, rfl, h, fun i _ => by simp⟩
  | a :: as, acc, h, hs => by
    obtain ⟨c, h1, h2, h3⟩ := zipB_same (f := (· + ·)) h (hs a (by simp))
    obtain ⟨d, h4, h5, h6⟩ := reduce_same as c h2 fun b hb => hs b (by simp [hb])
    refine ⟨d, ?_, h5, fun i hi => ?_⟩
    · rw [List.foldlM_cons]; simp only [h1, bind, Except.bind]; exact h4
    · rw [h6 i hi, h3 i hi, List.map_cons, List.sum_cons, add_assoc]

lemma callAll_ok {jx : Bool} {b : Shp} {x : Arr K} : ∀ (fs : List (FE K)),
    (∀ f ∈ fs, ∃ a, f.call jx x = .ok a ∧ IsVal b f x a) →
    ∃ as, FE.callAll jx fs x = .ok as ∧ List.Forall₂ (fun f a => IsVal b f x a) fs as
  | [], _ => ⟨[], by simp [FE.callAll], .nil⟩
  | f :: fs, h => by
    obtain ⟨a, h1, h2⟩ := h f (by simp)
    obtain ⟨as, h3, h4⟩ := callAll_ok fs fun g hg => h g (by simp [hg])
    exact ⟨a :: as, by rw [FE.callAll]; simp only [h1, h3, bind, Except.bind], .cons h2 h4⟩

lemma affine_eval {b : Shp} {A c x : Arr K} (hA : A.shape.length ≤ 2) (hb : c.shape = (FE.affine A c).outS)
    (hB : b = [] ∨ A.shape.length ≠ 1) (hx : x.shape = b ++ (FE.affine A c).inS) :
    ∃ a, affineEval A c x = .ok a ∧ IsVal b (.affine A c) x a := by
  obtain ⟨s, hs⟩ : ∃ s, A.shape = s := ⟨_, rfl⟩
  rcases s with _ | ⟨m, _ | ⟨n, _ | ⟨k, s⟩⟩⟩
  · have ho : (FE.affine A c).outS = [] := by simp [FE.outS, hs]
    have hi : (FE.affine A c).inS = [] := by simp [FE.inS, hs]
    rw [ho] at hb; rw [hi, List.append_nil] at hx
    refine ⟨_, by
      simp only [affineEval, hs, zipB, bcast_nil_left, hb, bind, Except.bind, bcast_nil_right]; rfl, ?_, ?_⟩
    · simp [ho, hx]
    · intro i o hi' ho'
      rw [ho] at ho'
      have : o = [] := by cases o with
        | nil => rfl
        | cons => exact ho'.elim
      subst this
      have hfi : Fits x.shape i := by rw [hx]; exact hi'
      simp [FE.den, hs, bidx_nil, bidx_self hfi]
  · have ho : (FE.affine A c).outS = [m] := by simp [FE.outS, hs]
    have hi : (FE.affine A c).inS = [] := by simp [FE.inS, hs]
    have hB' : b = [] := by simpa [hs] using hB
    subst hB'
    rw [ho] at hb; rw [hi, List.append_nil] at hx
    have hbc : Coeff.bcast [m] [m] = some [m] := by simpa using bcast_append [] [m]
    refine ⟨_, by
      simp only [affineEval, hs, zipB, hx, bcast_nil_right, hb, bind, Except.bind, hbc]; rfl, ?_, ?_⟩
    · simp [ho]
    · intro i o hi' ho'
      rw [ho] at ho'
      have : i = [] := by cases i with
        | nil => rfl
        | cons => exact hi'.elim
      subst this
      simp only [List.nil_append, FE.den, hs, bidx_self ho', bidx_nil]
  · have ho : (FE.affine A c).outS = [m] := by simp [FE.outS, hs]
    have hi : (FE.affine A c).inS = [n] := by simp [FE.inS, hs]
    rw [ho] at hb; rw [hi] at hx
    have hrev : (newAxis x).shape.reverse = 1 :: n :: b.reverse := by simp [newAxis, hx]
    obtain ⟨y, hy1, hy2, hy3⟩ : ∃ y, matmul A m n (newAxis x) = .ok y ∧ y.shape = b ++ [m, 1] ∧
        ∀ i k, i.length = b.length → y.get (i ++ [k, 0]) = ∑ j ∈ Finset.range n, A.get [k, j] * x.get (i ++ [j]) := by
      refine ⟨⟨b ++ [m, 1], fun i => ∑ j ∈ Finset.range n, A.get [i.getD b.length 0, j] *
        (newAxis x).get (i.take b.length ++ [j, i.getD (b.length + 1) 0])⟩, by
          rw [matmul, hrev]; simp only [if_true, List.reverse_reverse, List.length_reverse], rfl, ?_⟩
      intro i k hk
      dsimp only
      refine Finset.sum_congr rfl fun j _ => ?_
      have e1 : (i ++ [k, 0]).getD b.length 0 = k := by
        have := getD_append i [k, 0] 0
        rw [hk] at this; simpa using this
      have e2 : (i ++ [k, 0]).getD (b.length + 1) 0 = 0 := by
        have := getD_append i [k, 0] 1
        rw [hk] at this; simpa using this
      rw [e1, e2, ← hk, List.take_left, newAxis]
      dsimp only
      rw [show i ++ [j, 0] = (i ++ [j]) ++ [0] by simp, List.dropLast_concat]
    obtain ⟨z, hz1, hz2, hz3⟩ : ∃ z, firstLast y = .ok z ∧ z.shape = b ++ [m] ∧ ∀ i, z.get i = y.get (i ++ [0]) := by
      have hl : y.shape.getLast? = some 1 := by rw [hy2]; simp
      refine ⟨⟨y.shape.dropLast, fun i => y.get (i ++ [0])⟩, by rw [firstLast, hl]; rfl, ?_, fun i => rfl⟩
      rw [hy2, show b ++ [m, 1] = (b ++ [m]) ++ [1] by simp]; exact List.dropLast_concat
    refine ⟨_, by
      simp only [affineEval, hs, hy1, hz1, zipB, hz2, hb, bcast_append, bind, Except.bind]; rfl, ?_, ?_⟩
    · simp [ho]
    · intro i o hi' ho'
      rw [ho] at ho'
      obtain ⟨k, rfl⟩ : ∃ k, o = [k] := by
        have := ho'.length
        exact List.length_eq_one_iff.mp this
      have hf : Fits (b ++ [m]) (i ++ [k]) := (fits_append hi'.length).mpr ⟨hi', ho'⟩
      simp only [bidx_append i ho', bidx_self hf, hz3, FE.den, hs]
      rw [show i ++ [k] ++ [0] = i ++ [k, 0] by simp, hy3 i k hi'.length]
      simp
  · simp [hs] at hA

lemma forall₂_get {α β : Type} {R : α → β → Prop} {fs : List α} {as : List β} (h : List.Forall₂ R fs as) {n : ℕ}
    (hn : n < fs.length) : ∃ hn' : n < as.length, R fs[n] as[n] := by
  have := (List.forall₂_iff_get.mp h)
  exact ⟨this.1 ▸ hn, this.2 n hn (this.1 ▸ hn)⟩

lemma getD_lt {α : Type} {l : List α} {n : ℕ} (h : n < l.length) {d : α} : l.getD n d = l[n] := by
  rw [List.getD_eq_getElem?_getD, List.getElem?_eq_getElem h, Option.getD_some]

lemma stack_eval {b s : Shp} {k : ℕ} {axis : ℤ} {fs : List (FE K)} {as : List (Arr K)} {x : Arr K} {i₀ : Shp} (hne : fs ≠ [])
    (hs : ∀ f ∈ fs, f.outS = s) (hk : normAxis axis (s.length + 1) = .ok k) (hB : b = [] ∨ axis < 0)
    (h : List.Forall₂ (fun f a => IsVal b f x a) fs as) :
    ∃ a, npStack as axis = .ok a ∧ IsVal b (.stack i₀ (s.insertIdx k fs.length) fs axis) x a := by
  obtain ⟨a₀, rest, rfl⟩ : ∃ a₀ rest, as = a₀ :: rest := by
    cases h with
    | nil => exact absurd rfl hne
    | cons _ _ => exact ⟨_, _, rfl⟩
  have hkl : k ≤ s.length := by have := normAxis_lt hk; omega
  have hsh : ∀ a ∈ a₀ :: rest, a.shape = b ++ s := by
    intro a ha
    obtain ⟨n, hn, rfl⟩ := List.getElem_of_mem ha
    obtain ⟨_, h2⟩ := forall₂_get h (n := n) (h.length_eq ▸ hn)
    rw [h2.1, hs _ (List.getElem_mem _)]
  have hall : ((a₀ :: rest).all fun c => decide (c.shape = a₀.shape)) = true := by
    rw [List.all_eq_true]
    intro c hc
    rw [decide_eq_true_eq, hsh c hc, hsh a₀ (by simp)]
  have hn : normAxis axis (a₀.shape.length + 1) = .ok (b.length + k) := by
    rw [hsh a₀ (by simp), List.length_append, Nat.add_assoc]
    refine normAxis_shift _ ?_ hk
    rcases hB with rfl | h
    · exact Or.inl rfl
    · exact Or.inr h
  refine ⟨_, by rw [npStack]; simp only [hall, if_true, hn]; rfl, ?_, ?_⟩
  · dsimp only
    rw [hsh a₀ (by simp), insertIdx_append, ← h.length_eq]; rfl
  · intro i o hi ho
    simp only [FE.outS] at ho
    obtain ⟨h1, h2⟩ := fits_insertIdx hkl ho
    obtain ⟨hn', hv⟩ := forall₂_get h h1
    dsimp only
    rw [← hi.length, getD_append, eraseIdx_append, getD_lt hn',
      hv.2 i _ hi (by rw [hs _ (List.getElem_mem _)]; exact h2)]
    rw [FE.den, length_insert hkl]
    simp only [hk]
    rw [denAll_eq, getD_lt (l := fs.map FE.den) (n := o.getD k 0) (by rw [List.length_map]; exact h1), List.getElem_map]

lemma sum_eval {b : Shp} {fs : List (FE K)} {as : List (Arr K)} {x : Arr K} {i₀ o : Shp} (hne : fs ≠ [])
    (ho : ∀ f ∈ fs, f.outS = o) (h : List.Forall₂ (fun f a => IsVal b f x a) fs as) :
    ∃ a, reduceAdd as = .ok a ∧ IsVal b (.sum i₀ o fs) x a := by
  cases h with
  | nil => exact absurd rfl hne
  | @cons f a₀ fs rest h0 h =>
    have hsh : ∀ a ∈ rest, a.shape = b ++ o := by
      intro a ha
      obtain ⟨n, hn, rfl⟩ := List.getElem_of_mem ha
      obtain ⟨_, h2⟩ := forall₂_get h (n := n) (h.length_eq ▸ hn)
      rw [h2.1, ho _ (List.mem_cons_of_mem _ (List.getElem_mem _))]
    obtain ⟨c, h1, h2, h3⟩ := reduce_same rest a₀ (by rw [h0.1, ho f (by simp)]) hsh
    refine ⟨c, h1, h2, fun i p hi hp => ?_⟩
    simp only [FE.outS] at hp
    rw [h3 _ ((fits_append hi.length).mpr ⟨hi, hp⟩), h0.2 i p hi (by rw [ho f (by simp)]; exact hp), FE.den, denAll,
      List.map_cons, List.sum_cons]
    congr 1
    rw [denAll_eq, List.map_map]
    congr 1
    clear h1 h3 hne
    induction h with
    | nil => rfl
    | @cons g a gs as hg _ ih =>
      rw [List.map_cons, List.map_cons, hg.2 i p hi (by rw [ho g (by simp)]; exact hp)]
      congr 1
      refine ih ?_ ?_
      · intro q hq
        exact ho q (by simp only [List.mem_cons] at hq ⊢; rcases hq with h | h; exacts [Or.inl h, Or.inr (Or.inr h)])
      · intro q hq; exact hsh q (by simp [hq])

/-- C59.  A function at a batch of points (NumPy, `jx = false`, and JAX, `jx = true`): the result has the shape
`batch + output_shape` and contains the function's value at every point, for every function the constructors return, except
that a batch (other than a single point) excludes `Affine` with a vector `A` and stacks along an axis counted from the
front. -/
theorem call_correct (jx : Bool) {b : Shp} {f : FE K} (hf : WF f) (hB : Bat b f) {x : Arr K} (hx : x.shape = b ++ f.inS) :
    ∃ a, f.call jx x = .ok a ∧ IsVal b f x a := by
  induction hf with
  | @affine A c hA hb =>
    cases hB with
    | affine hB =>
      obtain ⟨a, h1, h2⟩ := affine_eval hA hb hB hx
      refine ⟨a, ?_, h2⟩
      rw [FE.call, hx, checkIn_append, if_pos rfl, FE.eval, h1]
      simp only
      rw [headTo_append, checkOut, if_pos h2.1]
  | @const i v =>
    have hx' : x.shape = b ++ i := hx
    refine ⟨⟨b ++ v.shape, fun j => v.get (bidx v.shape j)⟩, ?_, rfl, ?_⟩
    · rw [FE.call, FE.eval]
      simp only [FE.inS, hx', checkIn_append, if_true, headTo_append, broadcastTo, castsTo_append, checkOut, FE.outS]
    · intro j o _ ho
      have ho' : Fits v.shape o := ho
      simp only [bidx_append j ho', FE.den]
  | @zero i o =>
    have hx' : x.shape = b ++ i := hx
    refine ⟨⟨b ++ o, fun _ => 0⟩, ?_, rfl, ?_⟩
    · rw [FE.call, FE.eval]
      simp only [FE.inS, hx', checkIn_append, if_true, headTo_append, broadcastTo, castsTo_append, checkOut, FE.outS]
    · intro j o _ ho
      simp only [FE.den]
  | @lam i o osh val h =>
    have hx' : x.shape = b ++ i := hx
    have hl : (b ++ i).length - i.length = b.length := by simp
    have hev : lamEval i.length o.length osh val x = .ok ⟨b ++ o, fun j => val ⟨i, fun p => x.get (j.take b.length ++ p)⟩
        (j.drop b.length)⟩ := by
      rw [lamEval, hx', hl, List.drop_left, List.take_left, h, if_neg (by simp), if_neg (by simp)]
    refine ⟨⟨b ++ o, fun j => val ⟨i, fun p => x.get (j.take b.length ++ p)⟩ (j.drop b.length)⟩, ?_, rfl, ?_⟩
    · rw [FE.call, FE.eval, hev]
      simp only [FE.inS, hx', checkIn_append, if_true, headTo_append, checkOut, FE.outS]
    · intro j p hj hp
      simp only [FE.den]
      rw [← hj.length, List.take_left, List.drop_left]
  | @stack i s o k fs axis hne hi hs hk ho h ih =>
    cases hB with
    | stack hax hB =>
      have hx' : x.shape = b ++ i := hx
      obtain ⟨as, h1, h2⟩ := callAll_ok (jx := jx) fs fun f hf => ih f hf (hB f hf) (by rw [hi f hf]; exact hx)
      subst ho
      obtain ⟨a, h3, h4⟩ := stack_eval (i₀ := i) hne hs hk hax h2
      refine ⟨a, ?_, h4⟩
      rw [FE.call, FE.eval]
      simp only [FE.inS, hx', checkIn_append, if_true, h1, h3, bind, Except.bind, headTo_append, checkOut]
      rw [if_pos h4.1]
  | @scaled f c h ih =>
    cases hB with
    | scaled hB =>
      obtain ⟨a, h1, h2⟩ := ih hB hx
      have hx' : x.shape = b ++ f.inS := hx
      refine ⟨⟨a.shape, fun i => c * a.get i⟩, ?_, h2.1, ?_⟩
      · rw [FE.call, FE.eval]
        simp only [FE.inS, hx', checkIn_append, if_true, h1, bind, Except.bind, headTo_append, checkOut]
        rw [if_pos]
        exact h2.1
      · intro i o hi ho
        simp only [FE.den]
        rw [h2.2 i o hi ho]
  | @sum i o fs hne hi ho h ih =>
    cases hB with
    | sum hB =>
      have hx' : x.shape = b ++ i := hx
      obtain ⟨as, h1, h2⟩ := callAll_ok (jx := jx) fs fun f hf => ih f hf (hB f hf) (by rw [hi f hf]; exact hx)
      obtain ⟨a, h3, h4⟩ := sum_eval (i₀ := i) hne ho h2
      refine ⟨a, ?_, h4⟩
      rw [FE.call, FE.eval]
      simp only [FE.inS, hx', checkIn_append, if_true, h1, h3, bind, Except.bind, headTo_append, checkOut]
      rw [if_pos h4.1]

/-- The constructors return functions that can be evaluated. -/
theorem mk_wf : (∀ (A b : Arr K) f, mkAffine A b = .ok f → WF f) ∧
    (∀ (fs : List (FE K)) axis f, (∀ g ∈ fs, WF g) → mkStack fs axis = .ok f → WF f) ∧
    (∀ (fs : List (FE K)) f, (∀ g ∈ fs, WF g) → mkSum fs = .ok f → WF f) := by
  refine ⟨fun A b f h => ?_, fun fs axis f hw h => ?_, fun fs f hw h => ?_⟩
  · unfold mkAffine at h
    split_ifs at h with h1 h2
    injection h with h
    subst h
    exact .affine (by omega) (not_not.mp h2)
  · cases fs with
    | nil => simp [mkStack] at h
    | cons g rest =>
      unfold mkStack at h
      simp only at h
      split_ifs at h with h1
      have hin : ∀ f ∈ g :: rest, f.inS = g.inS := by
        intro f hf
        exact of_decide_eq_true (List.all_eq_true.mp h1 f hf)
      simp only [List.map_cons, npStack] at h
      split_ifs at h with h2
      have hout : ∀ f ∈ g :: rest, f.outS = g.outS := by
        intro f hf
        have := List.all_eq_true.mp h2 ⟨f.outS, fun _ => 0⟩ (by
          rw [← List.map_cons (f := fun g : FE K => (⟨g.outS, fun _ => (0 : K)⟩ : Arr K))]
          exact List.mem_map_of_mem hf)
        exact of_decide_eq_true this
      obtain ⟨k, hk⟩ | ⟨e, he⟩ : (∃ k, normAxis axis (g.outS.length + 1) = .ok k) ∨
          ∃ e, normAxis axis (g.outS.length + 1) = .error e := by
        cases normAxis axis (g.outS.length + 1) with
        | ok k => exact Or.inl ⟨k, rfl⟩
        | error e => exact Or.inr ⟨e, rfl⟩
      · simp only [hk] at h
        injection h with h
        subst h
        exact .stack (by simp) hin hout hk (by simp) hw
      · simp only [he] at h
        cases h
  · cases fs with
    | nil => simp [mkSum] at h
    | cons g rest =>
      unfold mkSum at h
      simp only at h
      split_ifs at h with h1 h2
      injection h with h
      subst h
      have hin : ∀ f ∈ g :: rest, f.inS = g.inS := fun f hf => of_decide_eq_true (List.all_eq_true.mp h1 f hf)
      have hout : ∀ f ∈ g :: rest, f.outS = g.outS := fun f hf => of_decide_eq_true (List.all_eq_true.mp h2 f hf)
      have key : ∀ q ∈ (g :: rest).flatMap (fun g => match g with
          | .sum _ _ hs => hs
          | g => [g]), q.inS = g.inS ∧ q.outS = g.outS ∧ WF q := by
        intro q hq
        obtain ⟨p, hp, hq⟩ := List.mem_flatMap.mp hq
        have hwp := hw p hp
        rw [← hin p hp, ← hout p hp]
        cases hwp with
        | sum _ hi ho h => exact ⟨hi q hq, ho q hq, h q hq⟩
        | affine h1 h2 => simp only [List.mem_singleton] at hq; subst hq; exact ⟨rfl, rfl, .affine h1 h2⟩
        | const => simp only [List.mem_singleton] at hq; subst hq; exact ⟨rfl, rfl, .const⟩
        | zero => simp only [List.mem_singleton] at hq; subst hq; exact ⟨rfl, rfl, .zero⟩
        | lam h => simp only [List.mem_singleton] at hq; subst hq; exact ⟨rfl, rfl, .lam h⟩
        | stack h1 h2 h3 h4 h5 h6 =>
          simp only [List.mem_singleton] at hq; subst hq; exact ⟨rfl, rfl, .stack h1 h2 h3 h4 h5 h6⟩
        | scaled h => simp only [List.mem_singleton] at hq; subst hq; exact ⟨rfl, rfl, .scaled h⟩
      refine .sum ?_ (fun q hq => (key q hq).1) (fun q hq => (key q hq).2.1) (fun q hq => (key q hq).2.2)
      have hwg := hw g (by simp)
      rw [List.flatMap_cons]
      cases hwg with
      | sum hne _ _ _ => simp [hne]
      | affine h1 h2 => simp
      | const => simp
      | zero => simp
      | lam h => simp
      | stack h1 h2 h3 h4 h5 h6 => simp
      | scaled h => simp

end LinPDE.Func
