import Verif.PostView.Model

/-!
# Posterior mean and covariance on arrays: lemmas
-/

namespace LinPDE.PostView
open LinPDE.Nd LinPDE.XCov
open LinPDE.CovAlg hiding Err
variable {X : Type}

/-- The covariance between entry `p` of the process at `x` and observation `j`, the observations of all parts being numbered
one part after the other, each in C order. -/
noncomputable def predDen : List (PV X) → X → ℕ → ℕ → ℝ
  | [], _, _, _ => 0
  | c :: cs, x, p, j => if j < c.rv.prod then c.den x p j else predDen cs x p (j - c.rv.prod)

/-- What `__init__` requires. -/
def Pred.OK (q : Pred X) : Prop := q.parts ≠ [] ∧ ∀ c ∈ q.parts, c.inS = q.inS ∧ c.outS = q.outS ∧ c.rev = false

lemma mkPred_iff (cs : List (PV X)) (q : Pred X) : mkPred cs = .ok q ↔ q.parts = cs ∧ q.OK := by
  cases cs with
  | nil => exact ⟨fun h => (by cases h), fun h => (h.2.1 h.1).elim⟩
  | cons c cs =>
    show (if _ then _ else _) = _ ↔ _
    constructor
    · intro h
      split_ifs at h with hc
      obtain rfl := Except.ok.inj h
      refine ⟨rfl, by simp, fun d hd => ?_⟩
      have := List.all_eq_true.mp hc d hd
      simp only [Bool.and_eq_true, beq_iff_eq, Bool.not_eq_true'] at this
      exact ⟨this.1.1, this.1.2, this.2⟩
    · rintro ⟨h1, h2, h3⟩
      obtain ⟨ps⟩ := q
      obtain rfl : ps = c :: cs := h1
      rw [if_pos]
      refine List.all_eq_true.mpr fun d hd => ?_
      obtain ⟨e1, e2, e3⟩ := h3 d hd
      simp only [Bool.and_eq_true, beq_iff_eq, Bool.not_eq_true']
      exact ⟨⟨e1, e2⟩, e3⟩

lemma reshapeLast_holds {rv out : Shp} {x : Pts X} {d : X → ℕ → ℕ → ℝ} {v : Arr ℝ} (h : Holds false rv out x d v)
    (hne : (x.batch ++ out).prod ≠ 0) : ∃ w, reshapeLast v (x.batch ++ out) = .ok w ∧ Holds false [rv.prod] out x d w := by
  obtain ⟨h1, h2⟩ := h
  replace h1 : v.shape = x.batch ++ out ++ rv := h1
  have hp : v.shape.prod = (x.batch ++ out).prod * rv.prod := by rw [h1, List.prod_append]
  have hd : v.shape.prod / (x.batch ++ out).prod = rv.prod := by
    rw [hp]; exact Nat.mul_div_cancel_left _ (Nat.pos_of_ne_zero hne)
  have hr : v.reshape ((x.batch ++ out) ++ [rv.prod]) =
      some ⟨(x.batch ++ out) ++ [rv.prod], fun idx => v.get (unravel v.shape (ravel ((x.batch ++ out) ++ [rv.prod]) idx))⟩ := by
    unfold Arr.reshape
    rw [if_pos]
    rw [hp, List.prod_append, List.prod_singleton]
  refine ⟨⟨(x.batch ++ out) ++ [rv.prod], fun idx => v.get (unravel v.shape (ravel ((x.batch ++ out) ++ [rv.prod]) idx))⟩, ?_, rfl, ?_⟩
  · unfold reshapeLast
    rw [if_neg, hd, hr]
    rw [hp]
    simp [hne, -List.prod_append]
  · intro r n p hr hn hp
    obtain ⟨j, rfl, hj⟩ := fits_one hr
    show v.get (unravel v.shape (ravel ((x.batch ++ out) ++ [rv.prod]) (n ++ p ++ [j]))) = _
    have hf : Fits (x.batch ++ out) (n ++ p) := (fits_append hn.length).mpr ⟨hn, hp⟩
    have hu : Fits rv (unravel rv j) := fits_unravel hj
    have e : ravel ((x.batch ++ out) ++ [rv.prod]) (n ++ p ++ [j]) = ravel ((x.batch ++ out) ++ rv) (n ++ p ++ unravel rv j) := by
      rw [ravel_append hf.length, ravel_append hf.length, ravel_one, List.prod_singleton, ravel_unravel hj]
    rw [e, h1, unravel_ravel ((fits_append hf.length).mpr ⟨hf, hu⟩), ravel_one]
    exact (h2 (unravel rv j) n p hu hn hp).trans (by rw [ravel_unravel hj])

lemma concatLast_holds {out : Shp} {x : Pts X} : ∀ {cs : List (PV X)} {ws : List (Arr ℝ)},
    List.Forall₂ (fun c w => Holds false [c.rv.prod] out x c.den w) cs ws → cs ≠ [] →
    ∃ v, concatLast ws = .ok v ∧ Holds false [(cs.map fun c => c.rv.prod).sum] out x (predDen cs) v
  | [], _, _, h => (h rfl).elim
  | [c], _, .cons (b := w) h .nil, _ => by
    refine ⟨w, rfl, ?_, ?_⟩
    · simpa using h.1
    · intro r n p hr hn hp
      obtain ⟨j, rfl, hj⟩ := fits_one hr
      have hj' : j < c.rv.prod := by simpa using hj
      refine (h.2 [j] n p ⟨hj', trivial⟩ hn hp).trans ?_
      rw [ravel_one, ravel_one, predDen, if_pos hj']
  | c :: c' :: cs, _, .cons (b := w) h (.cons (b := w') (l₂ := ws) h' hs), _ => by
    obtain ⟨v, h1, h2, h3⟩ := concatLast_holds (.cons h' hs) (by simp)
    have e1 : w.shape = x.batch ++ out ++ [c.rv.prod] := h.1
    have e2 : v.shape = x.batch ++ out ++ [((c' :: cs).map fun c => c.rv.prod).sum] := h2
    have l1 : lastAx w = c.rv.prod := by simp [lastAx, e1]
    have l2 : lastAx v = ((c' :: cs).map fun c => c.rv.prod).sum := by simp [lastAx, e2]
    refine ⟨⟨w.shape.dropLast ++ [lastAx w + lastAx v], fun i =>
      if i.getLastD 0 < lastAx w then w.get i else v.get (i.dropLast ++ [i.getLastD 0 - lastAx w])⟩, ?_, ?_, ?_⟩
    · show (concatLast (w' :: ws) >>= _) = _
      rw [h1]
      show (if w.shape.dropLast ≠ v.shape.dropLast then _ else _) = _
      rw [if_neg]
      rw [e1, e2, List.dropLast_concat, List.dropLast_concat]
      simp
    · show w.shape.dropLast ++ [lastAx w + lastAx v] = _
      rw [e1, List.dropLast_concat, l1, l2]
      simp [layout]
    · intro r n p hr hn hp
      obtain ⟨j, rfl, hj⟩ := fits_one hr
      rw [ravel_one, predDen]
      show (if List.getLastD (n ++ p ++ [j]) 0 < lastAx w then w.get (n ++ p ++ [j])
        else v.get ((n ++ p ++ [j]).dropLast ++ [(n ++ p ++ [j]).getLastD 0 - lastAx w])) = _
      have eg : List.getLastD (n ++ p ++ [j]) 0 = j := by simp
      rw [eg, l1, List.dropLast_concat]
      by_cases hlt : j < c.rv.prod
      · rw [if_pos hlt, if_pos hlt]
        exact (h.2 [j] n p ⟨hlt, trivial⟩ hn hp).trans (by rw [ravel_one])
      · rw [if_neg hlt, if_neg hlt]
        have hj' : j - c.rv.prod < ((c' :: cs).map fun c => c.rv.prod).sum := by
          rw [List.map_cons, List.sum_cons] at hj
          omega
        exact (h3 [j - c.rv.prod] n p ⟨hj', trivial⟩ hn hp).trans (by rw [ravel_one])

lemma reshapedAll_holds {out : Shp} {x : Pts X} {call : PV X → Except Err (Arr ℝ)} (hne : (x.batch ++ out).prod ≠ 0) :
    ∀ {cs : List (PV X)}, (∀ c ∈ cs, ∃ v, call c = .ok v ∧ Holds false c.rv out x c.den v) →
    ∃ ws, reshapedAll call (x.batch ++ out) cs = .ok ws ∧ List.Forall₂ (fun c w => Holds false [c.rv.prod] out x c.den w) cs ws
  | [], _ => ⟨[], rfl, .nil⟩
  | c :: cs, h => by
    obtain ⟨v, h1, h2⟩ := h c List.mem_cons_self
    obtain ⟨w, h3, h4⟩ := reshapeLast_holds h2 hne
    obtain ⟨ws, h5, h6⟩ := reshapedAll_holds hne fun d hd => h d (List.mem_cons_of_mem _ hd)
    exact ⟨w :: ws, by simp only [reshapedAll, h1, h3, h5, bind, Except.bind], .cons h4 h6⟩

/-- All observations at once. -/
lemma evalWith_holds {q : Pred X} (hq : q.OK) {x : Pts X} {call : PV X → Except Err (Arr ℝ)} (hne : (x.batch ++ q.outS).prod ≠ 0)
    (h : ∀ c ∈ q.parts, ∃ v, call c = .ok v ∧ Holds false c.rv q.outS x c.den v) :
    ∃ v, q.evalWith call x = .ok v ∧ Holds false [q.size] q.outS x (predDen q.parts) v := by
  obtain ⟨ws, h1, h2⟩ := reshapedAll_holds hne h
  obtain ⟨v, h3, h4⟩ := concatLast_holds h2 hq.1
  exact ⟨v, by simp only [Pred.evalWith, h1, bind, Except.bind]; exact h3, h4⟩

lemma checked_ok {q : Pred X} {x : Pts X} (hx : x.inS = q.inS) {e : Except Err (Arr ℝ)} {d : X → ℕ → ℕ → ℝ}
    (h : ∃ v, e = .ok v ∧ Holds false [q.size] q.outS x d v) : ∃ v, q.checked x e = .ok v ∧ Holds false [q.size] q.outS x d v := by
  obtain ⟨v, rfl, h1, h2⟩ := h
  refine ⟨v, ?_, h1, h2⟩
  unfold Pred.checked
  rw [if_neg (by simpa using hx)]
  show (if v.shape = _ then _ else _) = _
  rw [if_pos]
  exact h1

/-- The parts, each seen through its array view. -/
lemma parts_holds {q : Pred X} (hq : q.OK) (hw : ∀ c ∈ q.parts, c.WF) (hs : ∀ c ∈ q.parts, c.Sym) {x : Pts X} (hx : x.inS = q.inS) :
    ∀ c ∈ q.parts, ∃ v, npV c ⟨false, x⟩ = .ok v ∧ Holds false c.rv q.outS x c.den v := by
  intro c hc
  obtain ⟨e1, e2, e3⟩ := hq.2 c hc
  obtain ⟨v, h1, h2⟩ := call_holds_partial x c (hw c hc) (hs c hc) (hx.trans e1.symm)
  rw [e2, e3] at h2
  exact ⟨v, h1, h2⟩

/-! ### Broadcasting -/

lemma fits_forall₂ : ∀ {s : Shp} {i : List ℕ}, Fits s i ↔ List.Forall₂ (fun n j => j < n) s i
  | [], [] => by simp [Fits]
  | [], _ :: _ => by simp [Fits]
  | _ :: _, [] => by simp [Fits]
  | n :: s, j :: i => by simp [Fits, fits_forall₂ (s := s) (i := i)]

lemma bcastRev_fits : ∀ {s t r : Shp} {i : List ℕ}, Coeff.bcastRev s t = some r → List.Forall₂ (fun n j => j < n) r i →
    List.Forall₂ (fun n j => j < n) s (List.zipWith (fun n j => if n = 1 then 0 else j) s i)
  | [], _, _, _, _, _ => by simp
  | n :: s, [], r, i, h, hi => by
    obtain rfl : n :: s = r := by simpa [Coeff.bcastRev] using h
    have e : List.zipWith (fun n j => if n = 1 then 0 else j) (n :: s) i = i := Func.bidx_fits (fits_forall₂.2 hi)
    rw [e]
    exact hi
  | n :: s, m :: t, r, i, h, hi => by
    simp only [Coeff.bcastRev, Option.bind_eq_some_iff, Option.map_eq_some_iff] at h
    obtain ⟨c, hc, r', hr', rfl⟩ := h
    cases hi with
    | cons h1 h2 =>
      refine .cons ?_ (bcastRev_fits hr' h2)
      by_cases hn : n = 1
      · simp [hn]
      · simp only [hn, if_false]
        have : c = n := by
          split_ifs at hc <;> simp_all
        omega

lemma bcastRev_comm : ∀ s t : Shp, Coeff.bcastRev s t = Coeff.bcastRev t s
  | [], [] => rfl
  | [], _ :: _ => rfl
  | _ :: _, [] => rfl
  | n :: s, m :: t => by
    simp only [Coeff.bcastRev, bcastRev_comm s t]
    congr 1
    split_ifs <;> simp_all

lemma bcast_comm (s t : Shp) : Coeff.bcast s t = Coeff.bcast t s := by simp only [Coeff.bcast, bcastRev_comm]

lemma bcast_fits {s t r : Shp} (h : Coeff.bcast s t = some r) {i : List ℕ} (hi : Fits r i) : Fits s (Func.bidx s i) := by
  obtain ⟨r', h1, rfl⟩ := Option.map_eq_some_iff.1 h
  have hl := (fits_forall₂.1 hi).length_eq
  have h2 := bcastRev_fits h1 (i := i.reverse) (by rw [← List.forall₂_reverse_iff, List.reverse_reverse]; exact fits_forall₂.1 hi)
  rw [fits_forall₂, ← List.forall₂_reverse_iff]
  have h3 : s.length ≤ i.length := by
    have := h2.length_eq
    rw [List.length_zipWith, List.length_reverse, List.length_reverse] at this
    omega
  convert h2 using 1
  rw [Func.bidx, List.reverse_zipWith (by rw [List.length_drop]; omega)]
  refine List.ext_getElem? fun n => ?_
  simp only [List.getElem?_zipWith, List.reverse_drop, List.getElem?_take]
  by_cases hn : n < s.length
  · rw [if_pos (by omega)]
  · rw [List.getElem?_eq_none (l := s.reverse) (by simpa using hn)]

end LinPDE.PostView
