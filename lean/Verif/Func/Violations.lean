import Verif.Func.More
import Mathlib.Algebra.Ring.Rat
import Mathlib.Tactic.NormNum

/-!
# Stacks along an axis counted from the front, arguments JAX accepts, point evaluation, selecting an output
-/

namespace LinPDE.Func
open LinPDE.Nd
variable {K : Type} [Ring K]

lemma stack_front {jx : Bool} {b s i₀ : Shp} {k : ℕ} {fs : List (FE K)} {x : Arr K} (hne : fs ≠ []) (hi : ∀ f ∈ fs, f.inS = i₀)
    (hs : ∀ f ∈ fs, f.outS = s) (hk : k ≤ s.length) (hw : ∀ f ∈ fs, WF f) (hB : ∀ f ∈ fs, Bat b f) (hx : x.shape = b ++ i₀) :
    ∃ a, FE.eval jx (.stack i₀ (s.insertIdx k fs.length) fs k) x = .ok a ∧ a.shape = (b ++ s).insertIdx k fs.length ∧
      ∀ (j : ℕ) (hj : j < fs.length) (i o : List ℕ), Fits b i → Fits s o →
        a.get ((i ++ o).insertIdx k j) = fs[j].den (fun p => x.get (i ++ p)) o := by
  obtain ⟨as, h1, h⟩ := callAll_ok (jx := jx) (b := b) (x := x) fs fun f hf =>
    call_correct jx (hw f hf) (hB f hf) (by rw [hi f hf]; exact hx)
  obtain ⟨a₀, rest, rfl⟩ : ∃ a₀ rest, as = a₀ :: rest := by
    cases h with
    | nil => exact absurd rfl hne
    | cons _ _ => exact ⟨_, _, rfl⟩
  have hsh : ∀ a ∈ a₀ :: rest, a.shape = b ++ s := by
    intro a ha
    obtain ⟨n, hn, rfl⟩ := List.getElem_of_mem ha
    obtain ⟨_, h2⟩ := forall₂_get h (n := n) (h.length_eq ▸ hn)
    rw [h2.1, hs _ (List.getElem_mem _)]
  have hall : ((a₀ :: rest).all fun c => decide (c.shape = a₀.shape)) = true := by
    rw [List.all_eq_true]
    intro c hc
    rw [decide_eq_true_eq, hsh c hc, hsh a₀ (by simp)]
  have hn : normAxis (k : ℤ) (a₀.shape.length + 1) = .ok k := by
    rw [hsh a₀ (by simp), List.length_append, normAxis, if_pos (by push_cast; omega)]; simp
  refine ⟨⟨a₀.shape.insertIdx k (a₀ :: rest).length, fun i => ((a₀ :: rest).getD (i.getD k 0) a₀).get (i.eraseIdx k)⟩, ?_, ?_, ?_⟩
  · rw [FE.eval]
    simp only [h1, bind, Except.bind, npStack, hall, if_true, hn]
  · dsimp only
    rw [hsh a₀ (by simp), h.length_eq]
  · intro j hj i o hi' ho
    obtain ⟨hj', hv⟩ := forall₂_get h hj
    have hl : k ≤ (i ++ o).length := by rw [List.length_append, ho.length]; omega
    have hg : ((i ++ o).insertIdx k j).getD k 0 = j := by
      rw [List.getD_eq_getElem?_getD, List.getElem?_insertIdx_self, if_pos (by omega)]; rfl
    dsimp only
    rw [hg, List.eraseIdx_insertIdx_self, getD_lt hj', hv.2 i o hi' (by rw [hs _ (List.getElem_mem _)]; exact ho)]

/-- A stack along an axis `k ≥ 0` evaluated on a batch: the new axis is put in front of axis `k` of the batch, so an array
is returned exactly if that happens to give the right shape. -/
theorem stack_front_isOk (jx : Bool) {b s i₀ : Shp} {k : ℕ} {fs : List (FE K)} {x : Arr K} (hne : fs ≠ [])
    (hi : ∀ f ∈ fs, f.inS = i₀) (hs : ∀ f ∈ fs, f.outS = s) (hk : k ≤ s.length) (hw : ∀ f ∈ fs, WF f)
    (hB : ∀ f ∈ fs, Bat b f) (hx : x.shape = b ++ i₀) :
    if (b ++ s).insertIdx k fs.length = b ++ s.insertIdx k fs.length then
      ∃ a, (FE.stack i₀ (s.insertIdx k fs.length) fs k).call jx x = .ok a ∧
        ∀ (j : ℕ) (hj : j < fs.length) (i o : List ℕ), Fits b i → Fits s o →
          a.get ((i ++ o).insertIdx k j) = fs[j].den (fun p => x.get (i ++ p)) o
    else (FE.stack i₀ (s.insertIdx k fs.length) fs k).call jx x = .error .assertionError := by
  obtain ⟨a, h1, h2, h3⟩ := stack_front (jx := jx) hne hi hs hk hw hB hx
  have hc : (FE.stack i₀ (s.insertIdx k fs.length) fs k).call jx x =
      checkOut (b ++ s.insertIdx k fs.length) a := by
    rw [FE.call]
    simp only [FE.inS, FE.outS, hx, checkIn_append, if_true, h1, headTo_append]
  split_ifs with h
  · exact ⟨a, by rw [hc, checkOut, if_pos (h2.trans h)], h3⟩
  · rw [hc, checkOut, if_neg (fun he => h (h2.symm.trans he))]

/-- The identity on numbers as a `JaxLambdaFunction`. -/
def idFn : FE ℚ := .lam [] [] (fun _ => []) fun x _ => x.get []

/-- The function `x ↦ (x, 5)` as a stack along axis 0. -/
def pairFn : FE ℚ := .stack [] [2] [idFn, .const [] ⟨[], fun _ => 5⟩] 0

/-- The numbers 7, 8, … as an array of shape `s`. -/
def nums (s : Shp) : Arr ℚ := ⟨s, fun i => 7 + ravel s i⟩

lemma pairFn_wf : WF pairFn := by
  refine .stack (s := []) (k := 0) (by simp) ?_ ?_ (by decide) (by simp) ?_
  · intro f hf; fin_cases hf <;> rfl
  · intro f hf; fin_cases hf <;> rfl
  · intro f hf; fin_cases hf
    · exact .lam rfl
    · exact .const

/-- Stacks along axis 0 on a batch: three points raise `AssertionError`; at two points, where the function is `x ↦ (x, 5)`,
the array returned is the transpose: its entry `(0, 1)` is 8, not 5. -/
theorem stack_batch_violated : WF pairFn ∧ (∀ jx, pairFn.call jx (nums [3]) = .error .assertionError) ∧
    ∀ jx, ∃ a, pairFn.call jx (nums [2]) = .ok a ∧ a.get [0, 1] = 8 ∧
      pairFn.den (fun p => (nums [2]).get ([0] ++ p)) [1] = 5 := by
  have hi : ∀ f ∈ [idFn, .const [] ⟨[], fun _ => 5⟩], f.inS = [] := by intro f hf; fin_cases hf <;> rfl
  have hs : ∀ f ∈ [idFn, .const [] ⟨[], fun _ => 5⟩], f.outS = [] := by intro f hf; fin_cases hf <;> rfl
  have hw : ∀ f ∈ [idFn, .const [] ⟨[], fun _ => 5⟩], WF f := by
    intro f hf; fin_cases hf
    · exact .lam rfl
    · exact .const
  have hB : ∀ b, ∀ f ∈ [idFn, .const [] ⟨[], fun _ => 5⟩], Bat b f := by
    intro b f hf; fin_cases hf
    · exact .lam
    · exact .const
  refine ⟨pairFn_wf, fun jx => ?_, fun jx => ?_⟩
  · have := stack_front_isOk jx (b := [3]) (k := 0) (x := nums [3]) (by simp) hi hs (by simp) hw (hB _) rfl
    simpa [pairFn] using this
  · have := stack_front_isOk jx (b := [2]) (k := 0) (x := nums [2]) (by simp) hi hs (by simp) hw (hB _) rfl
    simp only [List.length_cons, List.length_nil] at this
    rw [if_pos (by rfl)] at this
    obtain ⟨a, h1, h2⟩ := this
    refine ⟨a, h1, ?_, ?_⟩
    · have := h2 0 (by simp) [1] [] ⟨by norm_num, trivial⟩ trivial
      rw [show ([0, 1] : List ℕ) = ([1] ++ []).insertIdx 0 0 from rfl, this]
      simp only [List.getElem_cons_zero, idFn, FE.den, nums, List.append_nil]
      norm_num [ravel]
    · simp [pairFn, FE.den, normAxis, denAll]

/-- JAX accepts arguments that NumPy refuses: a constant function of three coordinates at an array of shape `(1,)`, and a
linear map with matrix `[[2], [3]]` at a number `x`, where the result is `(2x, 2x)` instead of an exception. -/
theorem jax_shapes_violated : (∀ v : Arr ℚ, (FE.const [3] v).call false (nums [1]) = .error .valueError ∧
      ∃ a, (FE.const [3] v).call true (nums [1]) = .ok a) ∧
    ∃ (A b : Arr ℚ) (a : Arr ℚ), mkAffine A b = .ok (.affine A b) ∧ A.get [1, 0] = 3 ∧ b.get [1] = 0 ∧
      (FE.affine A b).call false (nums []) = .error .valueError ∧ (FE.affine A b).call true (nums []) = .ok a ∧
      a.shape = [2] ∧ a.get [1] = 2 * (nums []).get [] := by
  refine ⟨fun v => ⟨?_, ?_⟩, ⟨[2, 1], fun i => 2 + (i.getD 0 0 : ℕ)⟩, ⟨[2], fun _ => 0⟩, ?_⟩
  · exact (call_shapes (FE.const [3] v) (nums [1])).1 (by
      rintro ⟨b, hb⟩
      simp only [nums, FE.inS] at hb
      have := congrArg List.getLast? hb
      simp at this)
  · refine ⟨⟨v.shape, fun i => v.get (bidx v.shape i)⟩, ?_⟩
    rw [FE.call, FE.eval]
    have h1 : checkIn true [3] (nums [1]).shape = true := by decide
    have h2 : headTo (nums [1]).shape 1 = [] := by decide
    simp only [FE.inS, h1, if_true, FE.outS, List.length_singleton, h2, List.nil_append, broadcastTo,
      show castsTo v.shape v.shape = true from castsTo_append [] _, checkOut]
  · have hA : (FE.affine (⟨[2, 1], fun i => 2 + (i.getD 0 0 : ℕ)⟩ : Arr ℚ) ⟨[2], fun _ => 0⟩).inS = [1] := rfl
    refine ⟨⟨[2], fun i => (∑ j ∈ Finset.range 1, (2 + (([([] ++ [0] : List ℕ).getD 0 0, j] : List ℕ).getD 0 0 : ℕ)) *
      (newAxis (nums [])).get [j]) + 0⟩, by rfl, by norm_num, rfl, ?_, ?_, rfl, ?_⟩
    · exact (call_shapes _ _).1 (by
        rintro ⟨b, hb⟩
        rw [hA] at hb
        simp [nums] at hb)
    · rw [FE.call, FE.eval]
      rfl
    · norm_num [newAxis]

/-! ### Point evaluation -/

omit [Ring K] in
/-- The constructor of a point evaluation accepts exactly the arrays that end with the declared domain shape. -/
theorem mkPointF_isOk (d : Bool) (dom cod : Shp) (X : Arr K) :
    (∃ L, mkPointF d dom cod X = .ok L) ↔ ∃ b, X.shape = b ++ dom := by
  rw [mkPointF]
  constructor
  · rintro ⟨L, h⟩
    split_ifs at h with h1
    exact ⟨_, h1⟩
  · rintro ⟨b, hb⟩
    rw [if_pos (by rw [hb, headTo_append])]
    exact ⟨_, rfl⟩

/-- Evaluating at a batch of points: `DiracFunctional` returns `batch + output` axes, `_EvaluationFunctional` returns
`output + batch` axes, and both contain the function's values at the points.  The shape is the declared one exactly if the
function's output shape is the declared codomain shape. -/
theorem point_eval {d : Bool} {dom cod : Shp} {X : Arr K} {L : PointF K} (hL : mkPointF d dom cod X = .ok L) {f : FE K} (hf : WF f)
    (hi : f.inS = dom) (hB : Bat L.batch f) : ∃ a, L.call f = .ok a ∧ (f.outS = cod → a.shape = L.outS) ∧
      a.shape = (if d then L.batch ++ f.outS else f.outS ++ L.batch) ∧
      ∀ i o, Fits L.batch i → Fits f.outS o →
        a.get (if d then i ++ o else o ++ i) = f.den (fun p => X.get (i ++ p)) o := by
  rw [mkPointF] at hL
  split_ifs at hL with h1
  injection hL with hL
  subst hL
  have hx : X.shape = (⟨d, dom, cod, X⟩ : PointF K).batch ++ f.inS := by rw [hi]; exact h1
  obtain ⟨a, h2, h3, h4⟩ := call_correct false hf hB hx
  cases d with
  | true =>
    refine ⟨a, by rw [PointF.call]; simp only [h2]; rfl, fun h => ?_, by simpa using h3, by simpa using h4⟩
    rw [h3, h]; rfl
  | false =>
    by_cases hz : f.outS.length > 0
    · have hsh : (a.lastToFront f.outS.length).shape = f.outS ++ (⟨false, dom, cod, X⟩ : PointF K).batch := by
        rw [Arr.lastToFront]; simp [h3]
      refine ⟨a.lastToFront f.outS.length, by
        rw [PointF.call]; simp only [h2]; rw [if_neg (by simp), if_pos h3, if_pos hz], fun h => by rw [hsh, h]; rfl,
        by simpa using hsh, ?_⟩
      intro i o hi' ho
      rw [if_neg (by simp), Arr.lastToFront]
      dsimp only
      rw [← ho.length, List.drop_left, List.take_left, h4 i o hi' ho]
    · have hz' : f.outS = [] := List.length_eq_zero_iff.mp (by omega)
      refine ⟨a, by rw [PointF.call]; simp only [h2]; rw [if_neg (by simp), if_pos h3, if_neg hz], fun h => ?_, ?_, ?_⟩
      · subst h; rw [h3, PointF.outS]; simp [hz']
      · rw [h3, hz']; simp
      · intro i o hi' ho
        have : o = [] := by
          have := ho.length
          rw [hz'] at this
          exact List.length_eq_zero_iff.mp this
        subst this
        have := h4 i [] hi' ho
        simpa using this

/-- The declared codomain shape is not checked: a point evaluation for scalar functions can be applied to a function with two
outputs and returns an array that does not have the declared output shape. -/
theorem point_codomain_violated : ∃ (L : PointF ℚ) (a : Arr ℚ), mkPointF true [] [] (nums [4]) = .ok L ∧
    L.call (.const [] (nums [2])) = .ok a ∧ a.shape ≠ L.outS := by
  obtain ⟨L, hL⟩ := (mkPointF_isOk true [] [] (nums [4])).mpr ⟨[4], rfl⟩
  obtain ⟨a, h1, _, h3, _⟩ := point_eval hL (f := .const [] (nums [2])) .const rfl .const
  refine ⟨L, a, hL, h1, ?_⟩
  rw [mkPointF] at hL
  split_ifs at hL with h
  injection hL with hL
  subst hL
  rw [h3]
  decide

/-! ### Selecting an output of a stack -/

/-- `SelectOutput(i)` of a stack of scalar functions is the function whose value is entry `i` of the stack's value (counted
from the back for negative `i`). -/
theorem select_stack_correct {f g : FE K} (hf : WF f) {i : ℤ} (h : selectStack (some i) f = .ok g) :
    ∃ n j : ℕ, f.outS = [n] ∧ j < n ∧ (j : ℤ) = (if 0 ≤ i then i else i + n) ∧ g.inS = f.inS ∧ g.outS = [] ∧
      ∀ p, g.den p [] = f.den p [j] := by
  cases hf with
  | @stack i₀ s o k fs axis hne hi hs hk ho hw =>
    rw [selectStack] at h
    split_ifs at h with h1
    simp only [FE.outS] at h1
    have hkl : k ≤ s.length := by have := normAxis_lt hk; omega
    have hs0 : s = [] := by
      rw [ho, length_insert hkl] at h1
      exact List.length_eq_zero_iff.mp (by omega)
    subst hs0
    have hk0 : k = 0 := by simpa using hkl
    subst hk0
    have ho' : o = [fs.length] := by rw [ho]; rfl
    have key : ∀ j : ℕ, fs[j]? = some g → ∀ p, g.inS = i₀ ∧ g.outS = [] ∧ j < fs.length ∧
        g.den p [] = (FE.stack i₀ o fs axis).den p [j] := by
      intro j hj p
      obtain ⟨hlt, hg⟩ := List.getElem?_eq_some_iff.mp hj
      have hm : g ∈ fs := hg ▸ List.getElem_mem hlt
      refine ⟨hi g hm, hs g hm, hlt, ?_⟩
      rw [FE.den, ho']
      have : normAxis axis [fs.length].length = .ok 0 := hk
      rw [this]
      simp only [List.getD_cons_zero, List.eraseIdx_cons_zero]
      rw [denAll_eq, getD_lt (by simpa using hlt), List.getElem_map, hg]
    rw [pyGet] at h
    split_ifs at h with h2 h3
    · cases hc : fs[i.toNat]? with
      | none => simp [hc] at h
      | some q =>
        simp only [hc] at h
        injection h with h
        subst h
        obtain ⟨a1, a2, a3, _⟩ := key _ hc (fun _ => 0)
        exact ⟨fs.length, i.toNat, ho', a3, by rw [if_pos h2]; omega, a1, a2, fun p => (key _ hc p).2.2.2⟩
    · cases hc : fs[(i + fs.length).toNat]? with
      | none => simp [hc] at h
      | some q =>
        simp only [hc] at h
        injection h with h
        subst h
        obtain ⟨a1, a2, a3, _⟩ := key _ hc (fun _ => 0)
        exact ⟨fs.length, _, ho', a3, by rw [if_neg h2]; omega, a1, a2, fun p => (key _ hc p).2.2.2⟩
  | _ => simp [selectStack] at h

omit [Ring K] in
/-- Exactly the integer indices in range, on stacks with one output axis, are accepted. -/
theorem select_stack_isOk (i₀ o : Shp) (fs : List (FE K)) (axis : ℤ) (idx : Option ℤ) :
    (∃ g, selectStack idx (.stack i₀ o fs axis) = .ok g) ↔
      ∃ i, idx = some i ∧ o.length = 1 ∧ -(fs.length : ℤ) ≤ i ∧ i < fs.length := by
  cases idx with
  | none => simp [selectStack]
  | some i =>
    have hsel : selectStack (some i) (.stack i₀ o fs axis) = if o.length = 1 then pyGet fs i else .error .assertionError := rfl
    rw [hsel]
    simp only [Option.some.injEq, exists_eq_left']
    by_cases ho : o.length = 1
    · rw [if_pos ho, pyGet]
      simp only [ho, true_and]
      split_ifs with h2 h3
      · by_cases hl : i.toNat < fs.length
        · rw [List.getElem?_eq_getElem hl]; simp; omega
        · rw [List.getElem?_eq_none (by omega)]; simp; omega
      · have hl : (i + fs.length).toNat < fs.length := by omega
        rw [List.getElem?_eq_getElem hl]; simp; omega
      · simp; omega
    · rw [if_neg ho]; simp [ho]

/-! ### Concrete cases -/

/-- The function `(x₀, x₁) ↦ 2 (2x₀ + 3x₁ + 1, 4)`, as `(stack of an affine function and a constant) + zero`. -/
def exA : FE ℚ := .sum [2] [1, 2] [.scaled (.stack [2] [1, 2]
  [.affine ⟨[1, 2], fun i => 2 + (i.getD 1 0 : ℕ)⟩ ⟨[1], fun _ => 1⟩, .const [2] ⟨[1], fun _ => 4⟩] (-1)) 2, .zero [2] [1, 2]]

example : WF exA ∧ Bat [5, 3] exA ∧ (∃ x : Arr ℚ, x.shape = [5, 3] ++ exA.inS) ∧ exA.den (fun p => (p.getD 0 0 : ℕ)) [0, 0] = 8 := by
  have hA : WF (.affine ⟨[1, 2], fun i => 2 + ((i.getD 1 0 : ℕ) : ℚ)⟩ ⟨[1], fun _ => 1⟩) := .affine (by simp) rfl
  refine ⟨.sum (by simp) ?_ ?_ ?_, .sum ?_, ⟨nums [5, 3, 2], rfl⟩, ?_⟩
  · intro f hf; fin_cases hf <;> rfl
  · intro f hf; fin_cases hf <;> rfl
  · intro f hf; fin_cases hf
    · refine .scaled (.stack (s := [1]) (k := 1) (by simp) ?_ ?_ (by decide) (by simp) ?_)
      · intro f hf; fin_cases hf <;> rfl
      · intro f hf; fin_cases hf <;> rfl
      · intro f hf; fin_cases hf
        · exact hA
        · exact .const
    · exact .zero
  · intro f hf; fin_cases hf
    · refine .scaled (.stack (Or.inr (by norm_num)) ?_)
      intro f hf; fin_cases hf
      · exact .affine (Or.inr (by simp))
      · exact .const
    · exact .zero
  · simp [exA, FE.den, denAll, normAxis, Finset.sum_range_succ]; norm_num

example : ∃ g, selectStack (some (-1)) pairFn = .ok g := (select_stack_isOk _ _ _ _ _).mpr ⟨-1, rfl, rfl, by decide, by decide⟩

example : ∃ L, mkPointF false [2] [3] (nums [4, 2]) = .ok L := (mkPointF_isOk _ _ _ _).mpr ⟨[4], rfl⟩

end LinPDE.Func
