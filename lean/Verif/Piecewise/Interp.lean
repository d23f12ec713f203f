import Verif.Piecewise.IntegralProps
import Verif.Pde.PiecewiseProps

/-! # Piecewise linear interpolants: multiples, shifts and integrals in terms of the points -/

namespace LinPDE.Piecewise
open MeasureTheory Set
open LinPDE.Pde (val)

/-- The line through two points. -/
noncomputable def line (p q : ℝ × ℝ) (x : ℝ) : ℝ := p.2 + (q.2 - p.2) / (q.1 - p.1) * (x - p.1)

/-- The area below the polygon through the points. -/
noncomputable def area : List (ℝ × ℝ) → ℝ
  | p :: q :: rest => (p.2 + q.2) / 2 * (q.1 - p.1) + area (q :: rest)
  | _ => 0

/-- A piecewise linear function whose pieces are the lines through neighbouring points. -/
structure Interp (f : PW) (pts : List (ℝ × ℝ)) : Prop where
  ok : f.Ok
  kind : f.kind = .linear
  xs : f.xs = pts.map Prod.fst
  poly : ∀ p ∈ f.fns, ∃ q, p = .poly q
  ev : ∀ i (hi : i < f.fns.length) (x : ℝ), f.fns[i].ev x = line (pts.getD i 0) (pts.getD (i + 1) 0) x

lemma getD_map_fst (pts : List (ℝ × ℝ)) (i : ℕ) : (pts.map Prod.fst).getD i 0 = (pts.getD i 0).1 := by
  simp only [List.getD_eq_getElem?_getD, List.getElem?_map]
  cases pts[i]? <;> rfl

lemma getD_map_snd (pts : List (ℝ × ℝ)) (i : ℕ) : (pts.map Prod.snd).getD i 0 = (pts.getD i 0).2 := by
  simp only [List.getD_eq_getElem?_getD, List.getElem?_map]
  cases pts[i]? <;> rfl

lemma Interp.length {f : PW} {pts : List (ℝ × ℝ)} (h : Interp f pts) : f.fns.length + 1 = pts.length := by
  rw [h.ok.len, h.xs, List.length_map]

lemma Interp.X {f : PW} {pts : List (ℝ × ℝ)} (h : Interp f pts) (i : ℕ) : f.X i = (pts.getD i 0).1 := by
  rw [PW.X, h.xs, getD_map_fst]

lemma interp_fromPoints {pts : List (ℝ × ℝ)} (h2 : 2 ≤ pts.length) (hs : (pts.map Prod.fst).Pairwise (· < ·)) :
    ∃ f, fromPoints (pts.map Prod.fst) (pts.map Prod.snd) = .ok f ∧ Interp f pts := by
  obtain ⟨f, hf, hk, hx, ok, hev⟩ := fromPoints_spec (xs := pts.map Prod.fst) (ys := pts.map Prod.snd) (by simp)
    (by simpa using h2) hs
  refine ⟨f, hf, ok, hk, hx, ?_, fun i hi x => ?_⟩
  · unfold fromPoints mkPW at hf
    split_ifs at hf
    obtain rfl := Except.ok.inj hf
    intro p hp
    obtain ⟨a, -, rfl⟩ := List.mem_map.mp hp
    exact ⟨_, rfl⟩
  · rw [hev i hi x]
    simp only [getD_map_fst, getD_map_snd, line]

lemma Interp.mapped {f : PW} {pts : List (ℝ × ℝ)} (h : Interp f pts) (T : Piece → Piece) (F : ℝ → ℝ)
    (hT : ∀ p x, (T p).ev x = F (p.ev x)) (hp : ∀ q, ∃ q', T (.poly q) = .poly q')
    (hF : ∀ (p q : ℝ × ℝ) x, F (line p q x) = line (p.1, F p.2) (q.1, F q.2) x) :
    ∃ g, mkPW .linear f.xs (f.fns.map T) = .ok g ∧ Interp g (pts.map fun p => (p.1, F p.2)) := by
  have hlen := h.ok.len
  refine ⟨⟨.linear, f.xs, f.fns.map T⟩, ?_, ⟨by simpa using hlen, by simpa using h.ok.pos, h.ok.inc⟩, rfl, ?_, ?_, ?_⟩
  · unfold mkPW
    rw [if_neg (by simpa using hlen)]
  · simp [h.xs, Function.comp_def]
  · intro p hp'
    obtain ⟨a, ha, rfl⟩ := List.mem_map.mp hp'
    obtain ⟨q, rfl⟩ := h.poly a ha
    exact hp q
  · intro i hi x
    have hi' : i < f.fns.length := by simpa using hi
    have hl := h.length
    simp only [List.getElem_map]
    rw [hT, h.ev i hi' x, hF]
    simp only [List.getD_eq_getElem?_getD, List.getElem?_map, show i < pts.length by omega,
      show i + 1 < pts.length by omega, List.getElem?_eq_getElem, Option.getD_some, Option.map_some]

lemma Interp.smul {f : PW} {pts : List (ℝ × ℝ)} (h : Interp f pts) (c : ℝ) :
    ∃ g, f.smul c = .ok g ∧ Interp g (pts.map fun p => (p.1, c * p.2)) := by
  unfold PW.smul
  rw [if_pos h.kind]
  exact h.mapped _ (fun y => c * y) (fun p x => ev_smul c p x) (fun q => ⟨_, rfl⟩) fun p q x => by
    simp only [line]; ring

lemma Interp.addConst {f : PW} {pts : List (ℝ × ℝ)} (h : Interp f pts) (v : ℝ) :
    ∃ g, f.addConst v = .ok g ∧ Interp g (pts.map fun p => (p.1, p.2 + v)) := by
  unfold PW.addConst
  exact h.mapped _ (fun y => y + v) (fun p x => ev_addConst v p x) (fun q => ⟨_, rfl⟩) fun p q x => by
    simp only [line]; ring

lemma Interp.evaluate {f : PW} {pts : List (ℝ × ℝ)} (h : Interp f pts) (x : ℝ) : f.evaluate x = .ok (val f x) := by
  have h2 : 2 ≤ f.xs.length := by have := h.ok.len; have := h.ok.pos; omega
  unfold val
  rw [evaluate_general (by rw [h.kind]; simp) h2]

lemma Interp.val_at {f : PW} {pts : List (ℝ × ℝ)} (h : Interp f pts) {i : ℕ} (hi : i + 1 < pts.length) {x : ℝ}
    (hl : (pts.getD i 0).1 ≤ x) (hr : x ≤ (pts.getD (i + 1) 0).1) : val f x = line (pts.getD i 0) (pts.getD (i + 1) 0) x := by
  have hlen := h.length
  have hk : f.kind ≠ .constant := by rw [h.kind]; simp
  apply Except.ok.inj (ε := Err)
  rw [← h.evaluate]
  by_cases hin : f.In i x
  · rw [piecewise_eval hk h.ok (by omega) hin, h.ev]
  · have hi0 : i ≠ 0 := by
      rintro rfl
      exact hin ⟨by simpa [h.X] using hl, by simpa [h.X] using hr⟩
    have hxe : x = (pts.getD i 0).1 := by
      by_contra hne
      refine hin ⟨?_, by simpa [h.X] using hr⟩
      rw [if_neg hi0]
      simpa [h.X] using lt_of_le_of_ne hl (Ne.symm hne)
    obtain ⟨j, rfl⟩ : ∃ j, i = j + 1 := ⟨i - 1, by omega⟩
    have hlt : (pts.getD j 0).1 < (pts.getD (j + 1) 0).1 := by
      rw [← h.X, ← h.X]
      exact h.ok.lt (by omega) (by omega)
    have hin' : f.In j x := by
      refine ⟨?_, by simp [h.X, hxe]⟩
      split_ifs with h0
      · subst h0; simpa [h.X, hxe] using hlt.le
      · simpa [h.X, hxe] using hlt
    rw [piecewise_eval hk h.ok (by omega) hin', h.ev, hxe]
    congr 1
    have : (pts.getD (j + 1) 0).1 - (pts.getD j 0).1 ≠ 0 := by linarith
    unfold line
    rw [div_mul_cancel₀ _ this]
    ring

/-- The value between two neighbouring points. -/
lemma Interp.val_between {f : PW} {pts A B : List (ℝ × ℝ)} {p q : ℝ × ℝ} (h : Interp f pts) (hp : pts = A ++ p :: q :: B)
    {x : ℝ} (hl : p.1 ≤ x) (hr : x ≤ q.1) : val f x = line p q x := by
  have e0 : pts.getD A.length 0 = p := by rw [hp]; simp
  have e1 : pts.getD (A.length + 1) 0 = q := by rw [hp]; simp
  have := h.val_at (i := A.length) (by rw [hp]; simp) (x := x) (by rwa [e0]) (by rwa [e1])
  rwa [e0, e1] at this

lemma integral_line (p q : ℝ × ℝ) (h : p.1 < q.1) :
    ∫ x in p.1..q.1, line p q x = (p.2 + q.2) / 2 * (q.1 - p.1) := by
  have hne : q.1 - p.1 ≠ 0 := by linarith
  have : ∀ x ∈ uIcc p.1 q.1, HasDerivAt (fun x => p.2 * x + (q.2 - p.2) / (q.1 - p.1) * ((x - p.1) ^ 2 / 2)) (line p q x) x := by
    intro x _
    have h1 : HasDerivAt (fun x : ℝ => p.2 * x) p.2 x := by simpa using (hasDerivAt_id x).const_mul p.2
    have h2 : HasDerivAt (fun x : ℝ => (x - p.1) ^ 2 / 2) (x - p.1) x := by
      have := (((hasDerivAt_id x).sub_const p.1).pow 2).div_const 2
      convert! this using 1
      simp
    exact h1.add (h2.const_mul _)
  rw [intervalIntegral.integral_eq_sub_of_hasDerivAt this
    ((show Continuous (line p q) by unfold line; fun_prop).intervalIntegrable _ _)]
  field_simp
  ring

/-- The integral of a function which runs along the lines through the points. -/
lemma integral_lines (F : ℝ → ℝ) (p : ℝ × ℝ) (pts : List (ℝ × ℝ)) (hs : ((p :: pts).map Prod.fst).Pairwise (· < ·))
    (hF : ∀ i, i + 1 < (p :: pts).length → ∀ x, ((p :: pts).getD i 0).1 ≤ x → x ≤ ((p :: pts).getD (i + 1) 0).1 →
      F x = line ((p :: pts).getD i 0) ((p :: pts).getD (i + 1) 0) x) :
    IntervalIntegrable F volume p.1 (((p :: pts).getLastD 0).1) ∧
      ∫ x in p.1..((p :: pts).getLastD 0).1, F x = area (p :: pts) := by
  induction pts generalizing p with
  | nil => simp [area]
  | cons q pts ih =>
    have hpq : p.1 < q.1 := by
      rw [List.map_cons, List.pairwise_cons] at hs
      exact hs.1 _ (by simp)
    obtain ⟨i1, e1⟩ := ih q (by rw [List.map_cons, List.pairwise_cons] at hs; exact hs.2) fun i hi x h0 h1 =>
      hF (i + 1) (by simpa using hi) x (by simpa using h0) (by simpa using h1)
    have h0 : ∀ x ∈ uIcc p.1 q.1, F x = line p q x := fun x hx => by
      rw [uIcc_of_le hpq.le] at hx
      exact hF 0 (by simp) x (by simpa using hx.1) (by simpa using hx.2)
    have i0 : IntervalIntegrable F volume p.1 q.1 :=
      ((show Continuous (line p q) by unfold line; fun_prop).intervalIntegrable _ _).congr
        fun x hx => (h0 x (uIoc_subset_uIcc hx)).symm
    have hl : ((p :: q :: pts).getLastD 0) = (q :: pts).getLastD 0 := rfl
    rw [hl]
    refine ⟨i0.trans i1, ?_⟩
    rw [← intervalIntegral.integral_add_adjacent_intervals i0 i1, e1, intervalIntegral.integral_congr h0, integral_line p q hpq]
    rfl

lemma Interp.area {f : PW} {p : ℝ × ℝ} {pts : List (ℝ × ℝ)} (h : Interp f (p :: pts)) :
    IntervalIntegrable (val f) volume p.1 (((p :: pts).getLastD 0).1) ∧
      ∫ x in p.1..((p :: pts).getLastD 0).1, val f x = Piecewise.area (p :: pts) :=
  integral_lines _ _ _ (h.xs ▸ h.ok.inc) fun _ hi _ h0 h1 => h.val_at hi h0 h1

lemma Interp.integral {f : PW} {p : ℝ × ℝ} {pts : List (ℝ × ℝ)} (h : Interp f (p :: pts)) :
    f.integral p.1 ((p :: pts).getLastD 0).1 = .ok (Piecewise.area (p :: pts)) := by
  have hl := h.length
  have e : ((p :: pts).getLastD 0).1 = f.X f.fns.length := by
    rw [h.X, List.getLastD_eq_getLast?, List.getLast?_eq_getElem?, List.getD_eq_getElem?_getD,
      show (p :: pts).length - 1 = f.fns.length by omega]
  rw [← h.area.2, e]
  refine integral_partial h.ok (integrable_of_poly fun p hp g => ?_) h.evaluate ?_ le_rfl ?_
  · obtain ⟨q, rfl⟩ := h.poly p hp
    simp
  · rw [h.X]; simp
  · have := h.ok.le (Nat.zero_le f.fns.length) le_rfl
    rw [h.X] at this
    simpa using this

/-- A function which runs along the lines through the points is continuous. -/
lemma continuousOn_lines (F : ℝ → ℝ) (p : ℝ × ℝ) (pts : List (ℝ × ℝ)) (hs : ((p :: pts).map Prod.fst).Pairwise (· < ·))
    (hF : ∀ i, i + 1 < (p :: pts).length → ∀ x, ((p :: pts).getD i 0).1 ≤ x → x ≤ ((p :: pts).getD (i + 1) 0).1 →
      F x = line ((p :: pts).getD i 0) ((p :: pts).getD (i + 1) 0) x) :
    p.1 ≤ ((p :: pts).getLastD 0).1 ∧ ContinuousOn F (Icc p.1 (((p :: pts).getLastD 0).1)) := by
  induction pts generalizing p with
  | nil => exact ⟨le_rfl, by simp⟩
  | cons q pts ih =>
    have hpq : p.1 < q.1 := by
      rw [List.map_cons, List.pairwise_cons] at hs
      exact hs.1 _ (by simp)
    obtain ⟨l1, c1⟩ := ih q (by rw [List.map_cons, List.pairwise_cons] at hs; exact hs.2) fun i hi x h0 h1 =>
      hF (i + 1) (by simpa using hi) x (by simpa using h0) (by simpa using h1)
    have c0 : ContinuousOn F (Icc p.1 q.1) :=
      ((show Continuous (line p q) by unfold line; fun_prop).continuousOn).congr fun x hx =>
        hF 0 (by simp) x (by simpa using hx.1) (by simpa using hx.2)
    have hl : ((p :: q :: pts).getLastD 0) = (q :: pts).getLastD 0 := rfl
    rw [hl, ← Icc_union_Icc_eq_Icc hpq.le l1]
    exact ⟨hpq.le.trans l1, c0.union_of_isClosed c1 isClosed_Icc isClosed_Icc⟩

lemma Interp.last {f : PW} {pts : List (ℝ × ℝ)} (h : Interp f pts) : (pts.getLastD 0).1 = f.X f.fns.length := by
  have hl := h.length
  rw [h.X, List.getLastD_eq_getLast?, List.getLast?_eq_getElem?, List.getD_eq_getElem?_getD,
    show pts.length - 1 = f.fns.length by omega]

lemma Interp.continuousOn {f : PW} {pts : List (ℝ × ℝ)} (h : Interp f pts) :
    ContinuousOn (val f) (Icc (f.X 0) (f.X f.fns.length)) := by
  have hl := h.length
  cases pts with
  | nil => simp at hl
  | cons p pts =>
    rw [← h.last, h.X]
    exact (continuousOn_lines _ _ _ (h.xs ▸ h.ok.inc) fun _ hi _ h0 h1 => h.val_at hi h0 h1).2

end LinPDE.Piecewise
