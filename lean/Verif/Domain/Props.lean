import Verif.Domain.Lemmas

/-! # Properties of domains (C39, C40) -/

namespace LinPDE.Domains
open MeasureTheory

/-! ### Construction -/

/-- C39: an interval is refused exactly when its bounds are reversed. -/
theorem mkInterval_spec (l u : ℝ) :
    (l ≤ u → mkInterval l u = .ok (.interval l u) ∧ (Dom.interval l u).Valid) ∧
    (u < l → mkInterval l u = .error .valueError) := by
  unfold mkInterval
  exact ⟨fun h => ⟨if_neg (not_lt.mpr h), h⟩, fun h => if_pos h⟩

/-- C39: a box is refused exactly when some pair of bounds is reversed. -/
theorem mkBox_spec (bs : List (ℝ × ℝ)) :
    ((∀ b ∈ bs, b.1 ≤ b.2) → mkBox bs = .ok (.box bs) ∧ (Dom.box bs).Valid) ∧
    ((∃ b ∈ bs, b.2 < b.1) → mkBox bs = .error .valueError) := by
  unfold mkBox
  constructor
  · intro h
    exact ⟨if_pos (by simpa using h), h⟩
  · rintro ⟨b, hb, hlt⟩
    refine if_neg ?_
    simp only [List.all_eq_true, decide_eq_true_eq, not_forall]
    exact ⟨b, hb, not_le.mpr hlt⟩

/-- C39: `asdomain` turns pairs into the interval or box with these bounds. -/
theorem asdomain_spec :
    (∀ a b D, asdomain (.scalars a b) = .ok D → ∀ v, v ∈ D.den ↔ ∃ x, v = [x] ∧ a ≤ x ∧ x ≤ b) ∧
    (∀ xs ys D, asdomain (.arrays xs ys) = .ok D → ∀ v, v ∈ D.den ↔
      List.Forall₂ (fun x z => x ≤ z) xs v ∧ List.Forall₂ (fun y z => z ≤ y) ys v) := by
  constructor
  · intro a b D h v
    simp only [asdomain, mkInterval] at h
    split_ifs at h
    cases h
    rfl
  · intro xs ys D h v
    simp only [asdomain, mkBox] at h
    split_ifs at h with h1 h2
    cases h
    have key : ∀ (xs ys : List ℝ), xs.length = ys.length → ∀ v : List ℝ,
        (List.Forall₂ (fun (b : ℝ × ℝ) x => b.1 ≤ x ∧ x ≤ b.2) (xs.zip ys) v ↔
          List.Forall₂ (fun x z => x ≤ z) xs v ∧ List.Forall₂ (fun y z => z ≤ y) ys v) := by
      intro xs
      induction xs with
      | nil =>
        intro ys hl v
        obtain rfl := List.length_eq_zero_iff.mp hl.symm
        simp
      | cons x xs ih =>
        intro ys hl v
        cases ys with
        | nil => simp at hl
        | cons y ys =>
          cases v with
          | nil => simp
          | cons z v =>
            simp only [List.zip_cons_cons, List.forall₂_cons, ih ys (by simpa using hl) v]
            tauto
    exact key xs ys h1 v

/-! ### Membership -/

/-- C39: `x in D` is true exactly for values with the right number of axes whose coordinates lie in
the set; it never fails for intervals, points and boxes. -/
theorem contains_spec (D : Dom) (hD : ∀ fs, D ≠ .prod fs) (v : Item) :
    ∃ b, D.contains v = .ok b ∧
      (b = true ↔ (match v with | .scalar _ => D.ndims = 0 | .vec _ => D.ndims = 1) ∧ v.coords ∈ D.den) := by
  cases D with
  | prod fs => exact absurd rfl (hD fs)
  | interval l u =>
    cases v with
    | scalar x => exact ⟨_, rfl, by simp [Dom.ndims, Dom.den, Item.coords]⟩
    | vec xs => exact ⟨_, rfl, by simp [Dom.ndims]⟩
  | point0 p =>
    cases v with
    | scalar x => exact ⟨_, rfl, by simp [Dom.ndims, Dom.den, Item.coords, eq_comm]⟩
    | vec xs => exact ⟨_, rfl, by simp [Dom.ndims]⟩
  | point1 ps =>
    cases v with
    | scalar x => exact ⟨_, rfl, by simp [Dom.ndims]⟩
    | vec xs =>
      by_cases h : xs.length ≠ ps.length
      · refine ⟨false, if_pos h, ?_⟩
        simp only [Dom.ndims, Dom.den, Item.coords, Set.mem_singleton_iff, true_and]
        constructor
        · simp
        · rintro rfl; exact absurd rfl h
      · exact ⟨decide (ps = xs), if_neg h, by simp [Dom.ndims, Dom.den, Item.coords, eq_comm]⟩
  | box bs =>
    cases v with
    | scalar x => exact ⟨_, rfl, by simp [Dom.ndims]⟩
    | vec xs =>
      by_cases h : xs.length ≠ bs.length
      · refine ⟨false, if_pos h, ?_⟩
        simp only [Dom.ndims, Item.coords, true_and]
        constructor
        · simp
        · intro hm
          exact absurd (inBox_length ((den_iff _ _).mp hm)) h
      · refine ⟨_, if_neg h, ?_⟩
        rw [not_not] at h
        simp only [Dom.ndims, Item.coords, Dom.den, true_and, List.forall₂_iff_zip, List.all_eq_true, Bool.and_eq_true,
          decide_eq_true_eq, Set.mem_ofPred_eq]
        constructor
        · intro hh; exact ⟨h.symm, fun {a b} hab => hh (a, b) hab⟩
        · rintro ⟨-, hh⟩ ⟨a, b⟩ hab; exact hh hab

/-- C40, negation: membership in a Cartesian product (that is not a box) is not implemented. -/
theorem prod_contains_violated (fs : List Dom) (v : Item) : (Dom.prod fs).contains v = .error .notImplemented := by
  cases v <;> rfl

/-- C40: a product consists exactly of the concatenations of members of its factors. -/
theorem prod_den (fs : List Dom) (v : List ℝ) :
    v ∈ (Dom.prod fs).den ↔ ∃ parts : List (List ℝ), List.Forall₂ (fun f p => p ∈ f.den) fs parts ∧ v = parts.flatten := by
  simp only [Dom.den]
  induction fs generalizing v with
  | nil => simp [denL]
  | cons f fs ih =>
    simp only [denL, Set.mem_ofPred_eq]
    constructor
    · rintro ⟨a, ha, b, hb, rfl⟩
      obtain ⟨parts, hp, rfl⟩ := (ih b).mp hb
      exact ⟨a :: parts, List.Forall₂.cons ha hp, rfl⟩
    · rintro ⟨parts, hp, rfl⟩
      cases hp with
      | cons ha hp => exact ⟨_, ha, _, (ih _).mpr ⟨_, hp, rfl⟩, rfl⟩

/-- C39/C40: the size is the number of coordinates of every member; products add sizes. -/
theorem size_spec (D : Dom) (v : List ℝ) (h : v ∈ D.den) : v.length = D.size := by
  rw [← bounds_length, inBox_length ((den_iff D v).mp h)]

/-- C40: size of a product. -/
theorem prod_size (fs : List Dom) : (Dom.prod fs).size = (fs.map Dom.size).sum := by
  simp only [Dom.size]
  induction fs with
  | nil => rfl
  | cons f fs ih => simp [sizeL, ih]

/-- C39: a box denotes the same set as the product of its factors (collapsed dimensions are points). -/
theorem box_factors (bs : List (ℝ × ℝ)) : (Dom.prod (bs.map boxFactor)).den = (Dom.box bs).den := by
  ext v
  rw [den_iff, den_iff]
  simp only [Dom.bounds, boxFactors_bounds]

/-- C39/C40: domains built by the constructors are not empty. -/
theorem den_nonempty (D : Dom) (h : D.Valid) : ∃ v, v ∈ D.den := by
  refine ⟨D.bounds.map Prod.fst, (den_iff _ _).mpr ?_⟩
  have hb := valid_bounds D h
  generalize D.bounds = bs at hb
  induction bs with
  | nil => exact inBox_nil.mpr rfl
  | cons b bs ih =>
    exact inBox_cons.mpr ⟨b.1, bs.map Prod.fst, rfl, ⟨le_refl _, hb b List.mem_cons_self⟩,
      ih fun c hc => hb c (List.mem_cons_of_mem _ hc)⟩

/-! ### The set in coordinate space -/

/-- The set denoted by a domain, in `ℝ^size`. -/
def Dom.toSet (D : Dom) : Set (Fin D.size → ℝ) := {x | List.ofFn x ∈ D.den}

/-- Lower corner. -/
def Dom.lo (D : Dom) (i : Fin D.size) : ℝ := (D.bounds[i.1]'(by rw [bounds_length]; exact i.2)).1
/-- Upper corner. -/
def Dom.hi (D : Dom) (i : Fin D.size) : ℝ := (D.bounds[i.1]'(by rw [bounds_length]; exact i.2)).2

lemma toSet_eq (D : Dom) : D.toSet = Set.Icc D.lo D.hi := by
  ext x
  show List.ofFn x ∈ D.den ↔ _
  rw [den_iff, inBox_ofFn _ (bounds_length D), Set.mem_Icc, Pi.le_def, Pi.le_def, ← forall_and]
  rfl

lemma lo_le_hi (D : Dom) (h : D.Valid) : D.lo ≤ D.hi := fun i =>
  valid_bounds D h _ (List.getElem_mem _)

/-- C39/C40: the code's volume is the Lebesgue measure of the set. -/
theorem volume_measure (D : Dom) (h : D.Valid) (hne : D.NonEmptyProds) :
    ∃ r, D.volume = .ok r ∧ (volume D.toSet).toReal = r := by
  refine ⟨_, volume_vol D hne, ?_⟩
  rw [toSet_eq, Real.volume_Icc_pi_toReal (lo_le_hi D h)]
  unfold vol
  rw [← List.prod_ofFn]
  congr 1
  apply List.ext_getElem
  · simp [bounds_length]
  · intro i h1 h2
    simp [Dom.lo, Dom.hi]

/-- C40: the volume of a product is the product of the volumes. -/
theorem prod_volume (fs : List Dom) (hne : (Dom.prod fs).NonEmptyProds) :
    ∃ vs : List ℝ, List.Forall₂ (fun f v => f.volume = .ok v) fs vs ∧ (Dom.prod fs).volume = .ok vs.prod := by
  have key : ∀ fs : List Dom, nonEmptyL fs → List.Forall₂ (fun f v => f.volume = .ok v) fs (fs.map fun f => vol f.bounds) := by
    intro fs
    induction fs with
    | nil => intro _; exact List.Forall₂.nil
    | cons f fs ih => intro h; exact List.Forall₂.cons (volume_vol f h.1) (ih h.2)
  refine ⟨_, key fs hne.2, ?_⟩
  rw [volume_vol _ hne]
  congr 1
  simp only [Dom.bounds]
  clear hne key
  induction fs with
  | nil => simp [boundsL, vol]
  | cons f fs ih => simp [boundsL, vol_append, ih]

/-- C40, negation for the empty product and the zero-dimensional box: their volume raises. -/
theorem volume_empty : (Dom.prod []).volume = .error .typeError ∧ (Dom.box []).volume = .error .typeError :=
  ⟨rfl, rfl⟩

/-- C39/C40: the boundary parts together are the topological boundary of the set. -/
theorem boundary_frontier (D : Dom) (h : D.Valid) (x : Fin D.size → ℝ) :
    x ∈ frontier D.toSet ↔ ∃ P ∈ D.boundary, List.ofFn x ∈ P.den := by
  rw [boundary_iff D h, onFace_iff_get _ _ (valid_bounds D h), toSet_eq, isClosed_Icc.frontier_eq, Set.mem_sdiff,
    ← Set.pi_univ_Icc, interior_pi_set Set.finite_univ]
  simp only [interior_Icc]
  have hbox : InBox D.bounds (List.ofFn x) ↔ x ∈ Set.univ.pi fun i => Set.Icc (D.lo i) (D.hi i) := by
    rw [Set.pi_univ_Icc, ← toSet_eq]
    exact (den_iff D _).symm
  rw [hbox]
  refine and_congr_right fun hin => ?_
  simp only [Set.mem_pi, Set.mem_univ, true_implies, Set.mem_Ioo, not_forall, Set.mem_Icc] at hin ⊢
  constructor
  · rintro ⟨i, hi⟩
    refine ⟨i.1, by rw [bounds_length]; exact i.2, by simp, ?_⟩
    simp only [List.getElem_ofFn]
    have h1 := hin i
    by_contra hcon
    push Not at hcon
    exact hi ⟨lt_of_le_of_ne h1.1 (Ne.symm hcon.1), lt_of_le_of_ne h1.2 hcon.2⟩
  · rintro ⟨i, h1, h2, h3⟩
    have hs : i < D.size := by rw [← bounds_length]; exact h1
    refine ⟨⟨i, hs⟩, ?_⟩
    simp only [List.getElem_ofFn] at h3
    rintro ⟨h4, h5⟩
    rcases h3 with h3 | h3
    · exact h4.ne' h3
    · exact h5.ne h3

/-- C40: a product has exactly the faces `F₀ × ... × ∂Fᵢ × ... × Fₙ`. -/
theorem prod_boundary (fs : List Dom) (P : Dom) :
    P ∈ (Dom.prod fs).boundary ↔
      ∃ (i : ℕ) (h : i < fs.length), ∃ Q ∈ fs[i].boundary, P = .prod (fs.set i Q) := by
  simp only [Dom.boundary, List.mem_map]
  have key : ∀ q, q ∈ boundaryL fs ↔ ∃ (i : ℕ) (h : i < fs.length), ∃ Q ∈ fs[i].boundary, q = fs.set i Q := by
    induction fs with
    | nil => intro q; simp [boundaryL]
    | cons f fs ih =>
      intro q
      simp only [boundaryL, List.mem_append, List.mem_map]
      constructor
      · rintro (⟨p, hp, rfl⟩ | ⟨q', hq, rfl⟩)
        · exact ⟨0, by simp, p, hp, rfl⟩
        · obtain ⟨i, hi, Q, hQ, rfl⟩ := (ih q').mp hq
          exact ⟨i + 1, by simpa using hi, Q, hQ, rfl⟩
      · rintro ⟨i, hi, Q, hQ, rfl⟩
        cases i with
        | zero => exact Or.inl ⟨Q, hQ, rfl⟩
        | succ i => exact Or.inr ⟨_, (ih _).mpr ⟨i, by simpa using hi, Q, hQ, rfl⟩, rfl⟩
  constructor
  · rintro ⟨q, hq, rfl⟩
    obtain ⟨i, hi, Q, hQ, rfl⟩ := (key q).mp hq
    exact ⟨i, hi, Q, hQ, rfl⟩
  · rintro ⟨i, hi, Q, hQ, rfl⟩
    exact ⟨_, (key _).mpr ⟨i, hi, Q, hQ, rfl⟩, rfl⟩

/-! ### Equality -/

mutual
/-- Two domains have the same numbers of factors and coordinates throughout. -/
def SameLayout : Dom → Dom → Prop
  | .point0 _, .point1 ys => ys.length = 1
  | .point1 xs, .point0 _ => xs.length = 1
  | .point1 xs, .point1 ys => xs.length = ys.length
  | .box bs, .box cs => bs.length = cs.length
  | .prod fs, .prod gs => sameLayoutL fs gs
  | _, _ => True
/-- Componentwise. -/
def sameLayoutL : List Dom → List Dom → Prop
  | [], [] => True
  | f :: fs, g :: gs => SameLayout f g ∧ sameLayoutL fs gs
  | _, _ => False
end

lemma all_eq_one {x : ℝ} {ys : List ℝ} (hl : ys.length = 1) (h : (ys.all fun y => decide (x = y)) = true) : ys = [x] := by
  obtain ⟨y, rfl⟩ := List.length_eq_one_iff.mp hl
  simp at h; rw [h]

mutual
lemma eq_sound : ∀ D E : Dom, SameLayout D E → D.eq E = .ok true → D.den = E.den
  | .interval l u, .interval l' u', _, h => by
    simp only [Dom.eq, Except.ok.injEq, decide_eq_true_eq] at h
    rw [h.1, h.2]
  | .point0 x, .point0 y, _, h => by
    simp only [Dom.eq, Except.ok.injEq, decide_eq_true_eq] at h
    rw [h]
  | .point0 x, .point1 ys, hs, h => by
    simp only [Dom.eq, Except.ok.injEq] at h
    rw [all_eq_one hs h]
    simp [Dom.den]
  | .point1 xs, .point0 y, hs, h => by
    simp only [Dom.eq, Except.ok.injEq] at h
    have : (xs.all fun x => decide (y = x)) = true := by
      rw [← h]; congr 1; funext x; simp [eq_comm]
    rw [all_eq_one hs this]
    simp [Dom.den]
  | .point1 xs, .point1 ys, hs, h => by
    simp only [Dom.eq, allEq] at h
    rw [if_pos (by simpa only [SameLayout] using hs)] at h
    simp only [Except.ok.injEq, decide_eq_true_eq] at h
    rw [h]
  | .box bs, .box cs, hs, h => by
    simp only [Dom.eq, allEq] at h
    rw [if_pos (by simpa only [SameLayout] using hs)] at h
    simp only [Except.ok.injEq, decide_eq_true_eq] at h
    rw [h]
  | .prod fs, .prod gs, hs, h => by
    simp only [Dom.den]
    simp only [Dom.eq] at h
    exact eqL_sound fs gs hs h
  | .interval _ _, .point0 _, _, h => by simp [Dom.eq] at h
  | .interval _ _, .point1 _, _, h => by simp [Dom.eq] at h
  | .interval _ _, .box _, _, h => by simp [Dom.eq] at h
  | .interval _ _, .prod _, _, h => by simp [Dom.eq] at h
  | .point0 _, .interval _ _, _, h => by simp [Dom.eq] at h
  | .point0 _, .box _, _, h => by simp [Dom.eq] at h
  | .point0 _, .prod _, _, h => by simp [Dom.eq] at h
  | .point1 _, .interval _ _, _, h => by simp [Dom.eq] at h
  | .point1 _, .box _, _, h => by simp [Dom.eq] at h
  | .point1 _, .prod _, _, h => by simp [Dom.eq] at h
  | .box _, .interval _ _, _, h => by simp [Dom.eq] at h
  | .box _, .point0 _, _, h => by simp [Dom.eq] at h
  | .box _, .point1 _, _, h => by simp [Dom.eq] at h
  | .box _, .prod _, _, h => by simp [Dom.eq] at h
  | .prod _, .interval _ _, _, h => by simp [Dom.eq] at h
  | .prod _, .point0 _, _, h => by simp [Dom.eq] at h
  | .prod _, .point1 _, _, h => by simp [Dom.eq] at h
  | .prod _, .box _, _, h => by simp [Dom.eq] at h
lemma eqL_sound : ∀ fs gs : List Dom, sameLayoutL fs gs → eqL fs gs = .ok true → denL fs = denL gs
  | [], [], _, _ => rfl
  | f :: fs, g :: gs, hs, h => by
    have h1 : (f.eq g >>= fun b => if b then eqL fs gs else .ok false : Except Err Bool) = .ok true := by
      simpa only [eqL] using h
    cases hfg : f.eq g with
    | error e => rw [hfg] at h1; cases h1
    | ok b =>
      rw [hfg] at h1
      cases b with
      | false => cases h1
      | true =>
        have h2 : eqL fs gs = .ok true := h1
        have e1 := eq_sound f g hs.1 hfg
        have e2 := eqL_sound fs gs hs.2 h2
        ext v
        simp only [denL, Set.mem_ofPred_eq, e1, e2]
  | [], _ :: _, hs, _ => hs.elim
  | _ :: _, [], hs, _ => hs.elim
end

/-- C39/C40, partial: domains that compare equal denote the same set *if* the numbers of factors and
coordinates agree (the code does not check this, see `eq_violated`). -/
theorem eq_sound_partial (D E : Dom) (hs : SameLayout D E) (h : D.eq E = .ok true) : D.den = E.den := eq_sound D E hs h

mutual
lemma eq_refl' : ∀ D : Dom, D.eq D = .ok true
  | .interval _ _ => by simp [Dom.eq]
  | .point0 _ => by simp [Dom.eq]
  | .point1 _ => by simp [Dom.eq, allEq]
  | .box _ => by simp [Dom.eq, allEq]
  | .prod fs => by simp only [Dom.eq]; exact eqL_refl fs
lemma eqL_refl : ∀ fs : List Dom, eqL fs fs = .ok true
  | [] => by simp [eqL]
  | f :: fs => by
    simp only [eqL]; rw [eq_refl' f]
    exact eqL_refl fs
end

/-- C39/C40: every domain equals itself. -/
theorem eq_refl (D : Dom) : D.eq D = .ok true := eq_refl' D

/-- C39/C40, negation: a one-dimensional box equals a two-dimensional one, a product equals a longer
product, a point on the line equals a point in the plane — although the sets differ. -/
theorem eq_violated :
    ((Dom.box [(0, 1)]).eq (.box [(0, 1), (0, 1)]) = .ok true ∧ (Dom.box [(0, 1)]).den ≠ (Dom.box [(0, 1), (0, 1)]).den) ∧
    ((Dom.prod [.interval 0 1]).eq (.prod [.interval 0 1, .interval 2 3]) = .ok true ∧
      (Dom.prod [.interval 0 1]).den ≠ (Dom.prod [.interval 0 1, .interval 2 3]).den) ∧
    ((Dom.point0 1).eq (.point1 [1, 1]) = .ok true ∧ (Dom.point0 1).den ≠ (Dom.point1 [1, 1]).den) ∧
    (∀ fs, (Dom.prod []).eq (.prod fs) = .ok true) := by
  have hne : ∀ D E : Dom, D.Valid → D.size ≠ E.size → D.den ≠ E.den := by
    intro D E hD hs hden
    obtain ⟨v, hv⟩ := den_nonempty D hD
    exact hs ((size_spec D v hv).symm.trans (size_spec E v (hden ▸ hv)))
  refine ⟨⟨?_, hne _ _ ?_ ?_⟩, ⟨?_, hne _ _ ?_ ?_⟩, ⟨?_, hne _ _ trivial ?_⟩, ?_⟩
  · simp [Dom.eq, allEq]
  · simp [Dom.Valid]
  · simp [Dom.size]
  · simp only [Dom.eq, eqL]
    show (Except.ok _ >>= _ : Except Err Bool) = _
    simp [bind, Except.bind]
  · simp [Dom.Valid, validL]
  · simp [Dom.size, sizeL]
  · simp [Dom.eq]
  · simp [Dom.size]
  · intro fs; simp [Dom.eq, eqL]

lemma allEq_spec {α : Type} [DecidableEq α] (xs ys : List α) :
    (allEq xs ys = .ok true ↔
      xs = ys ∨ (∃ x, xs = [x] ∧ ∀ y ∈ ys, y = x) ∨ ∃ y, ys = [y] ∧ ∀ x ∈ xs, x = y) ∧
    (allEq xs ys = .error .valueError ↔ xs.length ≠ ys.length ∧ xs.length ≠ 1 ∧ ys.length ≠ 1) := by
  unfold allEq
  by_cases hl : xs.length = ys.length
  · rw [if_pos hl]
    refine ⟨⟨fun h => .inl (by simpa using h), fun h => ?_⟩, by simp [hl]⟩
    rcases h with h | ⟨x, rfl, h⟩ | ⟨y, rfl, h⟩
    · simp [h]
    · obtain ⟨y, rfl⟩ := List.length_eq_one_iff.mp hl.symm
      simp [h y (by simp)]
    · obtain ⟨x, rfl⟩ := List.length_eq_one_iff.mp hl
      simp [h x (by simp)]
  · rw [if_neg hl]
    have hne : xs ≠ ys := fun h => hl (by rw [h])
    rcases xs with _ | ⟨x, _ | ⟨x', xs⟩⟩
    · rcases ys with _ | ⟨y, _ | ⟨y', ys⟩⟩
      · exact absurd rfl hl
      · simp
      · simp
    · have h2 : ys.length ≠ 1 := fun h => hl (by simp [h])
      refine ⟨⟨fun h => .inr (.inl ⟨x, rfl, fun y hy => ?_⟩), fun h => ?_⟩, by simp⟩
      · simp only [Except.ok.injEq, List.all_eq_true, decide_eq_true_eq] at h
        exact (h y hy).symm
      · rcases h with h | ⟨x', hx, h⟩ | ⟨y, rfl, h⟩
        · exact absurd h hne
        · cases hx
          simpa [List.all_eq_true] using fun y hy => (h y hy).symm
        · exact absurd rfl h2
    · rcases ys with _ | ⟨y, _ | ⟨y', ys⟩⟩
      · simp
      · simp
      · simp only [List.length_cons] at hl
        constructor
        · simp only [reduceCtorEq, false_iff, not_or]
          exact ⟨hne, by simp, by simp⟩
        · simpa using hl

/-- C39: what equality of boxes and of points is, exactly: the arrays agree, or all rows of one equal the only row of
the other; shapes that do not broadcast raise. -/
theorem eq_spec (bs cs : List (ℝ × ℝ)) (xs ys : List ℝ) (x : ℝ) :
    ((Dom.box bs).eq (.box cs) = .ok true ↔
      bs = cs ∨ (∃ b, bs = [b] ∧ ∀ c ∈ cs, c = b) ∨ ∃ c, cs = [c] ∧ ∀ b ∈ bs, b = c) ∧
    ((Dom.box bs).eq (.box cs) = .error .valueError ↔ bs.length ≠ cs.length ∧ bs.length ≠ 1 ∧ cs.length ≠ 1) ∧
    ((Dom.point1 xs).eq (.point1 ys) = .ok true ↔
      xs = ys ∨ (∃ x, xs = [x] ∧ ∀ y ∈ ys, y = x) ∨ ∃ y, ys = [y] ∧ ∀ x ∈ xs, x = y) ∧
    ((Dom.point1 xs).eq (.point1 ys) = .error .valueError ↔ xs.length ≠ ys.length ∧ xs.length ≠ 1 ∧ ys.length ≠ 1) ∧
    ((Dom.point0 x).eq (.point1 ys) = .ok true ↔ ∀ y ∈ ys, y = x) ∧
    ((Dom.point1 ys).eq (.point0 x) = .ok true ↔ ∀ y ∈ ys, y = x) := by
  simp only [Dom.eq]
  exact ⟨(allEq_spec bs cs).1, (allEq_spec bs cs).2, (allEq_spec xs ys).1, (allEq_spec xs ys).2, by
    simp only [Except.ok.injEq, List.all_eq_true, decide_eq_true_eq]
    exact forall₂_congr fun y _ => ⟨Eq.symm, Eq.symm⟩, by simp⟩

/-- Non-vacuity: a two-dimensional box differs from a one-dimensional one with another side. -/
example : (Dom.box [(0, 1)]).eq (.box [(0, 1), (0, 2)]) ≠ .ok true := by
  rw [Ne, (eq_spec [(0, 1)] [(0, 1), (0, 2)] [] [] 0).1]
  simp

/-! ### Indexing -/

/-- C39: indices `0, 1, -2, -1` give the bounds. -/
theorem intervalGet_spec (l u : ℝ) :
    intervalGet l u 0 = .value l ∧ intervalGet l u (-2) = .value l ∧
    intervalGet l u 1 = .value u ∧ intervalGet l u (-1) = .value u := by
  simp [intervalGet]

/-- C39, negation: every other index *returns* an exception object instead of raising, so that
`interval.index(v)` runs forever if `v` is not a bound. -/
theorem intervalGet_violated (l u : ℝ) :
    (∀ idx : ℤ, idx < -2 ∨ 1 < idx → intervalGet l u idx = .keyErrorObject) ∧
    (∀ v, v ≠ l → v ≠ u → ∀ fuel, intervalIndex l u v fuel 0 = none) := by
  have h1 : ∀ idx : ℤ, idx < -2 ∨ 1 < idx → intervalGet l u idx = .keyErrorObject := by
    intro idx h
    unfold intervalGet
    rw [if_neg (by omega), if_neg (by omega)]
  refine ⟨h1, fun v hl hu fuel => ?_⟩
  have : ∀ fuel i, intervalIndex l u v fuel i = none := by
    intro fuel
    induction fuel with
    | zero => intro i; rfl
    | succ fuel ih =>
      intro i
      rw [intervalIndex, if_neg, ih]
      intro h
      unfold intervalGet at h
      split_ifs at h <;> injection h with h <;> first | exact hl h.symm | exact hu h.symm
  exact this fuel 0

/-- C39/C40: integer indexing of products and boxes (negative indices count from the end; out of range
raises `IndexError`). -/
theorem getItem_spec (fs : List Dom) (bs : List (ℝ × ℝ)) :
    (∀ (i : ℕ) (h : i < fs.length), (Dom.prod fs).getItem i = .ok fs[i] ∧
      (Dom.prod fs).getItem ((i : ℤ) - fs.length) = .ok fs[i]) ∧
    (∀ idx : ℤ, idx < -fs.length ∨ fs.length ≤ idx → (Dom.prod fs).getItem idx = .error .indexError) ∧
    (∀ (i : ℕ) (h : i < bs.length) (v : List ℝ), ∃ D, (Dom.box bs).getItem i = .ok D ∧
      (v ∈ D.den ↔ ∃ x, v = [x] ∧ bs[i].1 ≤ x ∧ x ≤ bs[i].2)) ∧
    (∀ idx : ℤ, idx < -bs.length ∨ bs.length ≤ idx → (Dom.box bs).getItem idx = .error .indexError) := by
  have key : ∀ {α : Type} (xs : List α) (idx : ℤ), idx < -xs.length ∨ xs.length ≤ idx → tupleGet xs idx = .error .indexError := by
    intro α xs idx h
    unfold tupleGet
    simp only
    split_ifs <;> first | rfl | omega
  have key2 : ∀ {α : Type} (xs : List α) (i : ℕ) (h : i < xs.length), tupleGet xs i = .ok xs[i] := by
    intro α xs i h
    unfold tupleGet
    simp [h, show ¬ ((i : ℤ) < 0) by omega]
  have key3 : ∀ {α : Type} (xs : List α) (i : ℕ) (h : i < xs.length), tupleGet xs ((i : ℤ) - xs.length) = .ok xs[i] := by
    intro α xs i h
    unfold tupleGet
    simp [show ((i : ℤ) < xs.length) by omega]
  refine ⟨fun i h => ⟨key2 fs i h, key3 fs i h⟩, key fs, fun i h v => ⟨boxFactor bs[i], ?_, ?_⟩, ?_⟩
  · have := key2 (bs.map boxFactor) i (by simpa using h)
    simpa [Dom.getItem] using this
  · rw [den_iff, boxFactor_bounds, inBox_cons]
    simp only [inBox_nil]
    constructor
    · rintro ⟨x, w, rfl, hx, rfl⟩; exact ⟨x, rfl, hx⟩
    · rintro ⟨x, rfl, hx⟩; exact ⟨x, [], rfl, hx, rfl⟩
  · intro idx h
    exact key (bs.map boxFactor) idx (by simpa using h)

/-- C39/C40: slicing selects the corresponding factors, and never fails on boxes. -/
theorem getSlice_spec (fs : List Dom) (bs : List (ℝ × ℝ)) (hb : (Dom.box bs).Valid) (idx : List ℕ) :
    (Dom.prod fs).getSlice idx = .ok (.prod (idx.filterMap fun i => fs[i]?)) ∧
    (Dom.box bs).getSlice idx = .ok (.box (idx.filterMap fun i => bs[i]?)) := by
  refine ⟨rfl, ?_⟩
  refine ((mkBox_spec _).1 ?_).1
  intro b h
  rw [List.mem_filterMap] at h
  obtain ⟨i, -, h⟩ := h
  exact hb b (List.mem_of_getElem? h)

/-- Non-vacuity: a nested product with a collapsed box is valid. -/
example : (Dom.prod [.interval 0 1, .box [(0, 1), (2, 2)], .prod [.point1 [1, 2]]]).Valid ∧
    (Dom.prod [.interval 0 1, .box [(0, 1), (2, 2)], .prod [.point1 [1, 2]]]).NonEmptyProds := by
  simp [Dom.Valid, validL, Dom.NonEmptyProds, nonEmptyL]

end LinPDE.Domains
