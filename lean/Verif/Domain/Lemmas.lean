import Verif.Domain.Model
import Mathlib.MeasureTheory.Measure.Lebesgue.Basic
import Mathlib.Topology.Order.DenselyOrdered

/-! # Every domain denotes a box: helper lemmas -/

namespace LinPDE.Domains

/-- Members of a box. -/
def InBox (bs : List (ℝ × ℝ)) (v : List ℝ) : Prop := List.Forall₂ (fun b x => b.1 ≤ x ∧ x ≤ b.2) bs v

mutual
/-- Bounds of all coordinates. -/
def Dom.bounds : Dom → List (ℝ × ℝ)
  | .interval l u => [(l, u)]
  | .point0 x => [(x, x)]
  | .point1 xs => xs.map fun x => (x, x)
  | .box bs => bs
  | .prod fs => boundsL fs
def boundsL : List Dom → List (ℝ × ℝ)
  | [] => []
  | f :: fs => f.bounds ++ boundsL fs
end

lemma inBox_cons {b : ℝ × ℝ} {bs v} : InBox (b :: bs) v ↔ ∃ x w, v = x :: w ∧ (b.1 ≤ x ∧ x ≤ b.2) ∧ InBox bs w := by
  unfold InBox
  rw [List.forall₂_cons_left_iff]
  constructor
  · rintro ⟨x, w, h1, h2, h3⟩; exact ⟨x, w, h3, h1, h2⟩
  · rintro ⟨x, w, h1, h2, h3⟩; exact ⟨x, w, h2, h3, h1⟩

lemma inBox_nil {v} : InBox [] v ↔ v = [] := by simp [InBox]

lemma inBox_append : ∀ {bs cs : List (ℝ × ℝ)} {v : List ℝ},
    InBox (bs ++ cs) v ↔ ∃ a, InBox bs a ∧ ∃ b, InBox cs b ∧ v = a ++ b
  | [], cs, v => by simp [inBox_nil]
  | b :: bs, cs, v => by
    rw [List.cons_append, inBox_cons]
    constructor
    · rintro ⟨x, w, rfl, hx, hw⟩
      obtain ⟨a, ha, c, hc, rfl⟩ := inBox_append.mp hw
      exact ⟨x :: a, inBox_cons.mpr ⟨x, a, rfl, hx, ha⟩, c, hc, rfl⟩
    · rintro ⟨a, ha, c, hc, rfl⟩
      obtain ⟨x, w, rfl, hx, hw⟩ := inBox_cons.mp ha
      exact ⟨x, w ++ c, rfl, hx, inBox_append.mpr ⟨w, hw, c, hc, rfl⟩⟩

lemma inBox_points : ∀ {xs v : List ℝ}, InBox (xs.map fun x => (x, x)) v ↔ v = xs
  | [], v => by simp [inBox_nil]
  | x :: xs, v => by
    rw [List.map_cons, inBox_cons]
    constructor
    · rintro ⟨y, w, rfl, ⟨h1, h2⟩, hw⟩
      rw [inBox_points.mp hw]; congr 1; exact le_antisymm h2 h1
    · rintro rfl
      exact ⟨x, xs, rfl, ⟨le_refl _, le_refl _⟩, inBox_points.mpr rfl⟩

lemma inBox_length {bs : List (ℝ × ℝ)} {v : List ℝ} (h : InBox bs v) : v.length = bs.length :=
  (List.Forall₂.length_eq h).symm

mutual
lemma den_iff : ∀ (D : Dom) (v : List ℝ), v ∈ D.den ↔ InBox D.bounds v
  | .interval l u, v => by
    simp only [Dom.den, Dom.bounds, inBox_cons, inBox_nil, Set.mem_ofPred_eq]
    constructor
    · rintro ⟨x, h1, h2⟩; exact ⟨x, [], h1, h2, rfl⟩
    · rintro ⟨x, w, h1, h2, rfl⟩; exact ⟨x, h1, h2⟩
  | .point0 x, v => by
    have := inBox_points (xs := [x]) (v := v)
    simp only [Dom.den, Dom.bounds, Set.mem_singleton_iff]
    simpa using this.symm
  | .point1 xs, v => by simp only [Dom.den, Dom.bounds, Set.mem_singleton_iff, inBox_points]
  | .box bs, v => by simp only [Dom.den, Dom.bounds, Set.mem_ofPred_eq]; rfl
  | .prod fs, v => by simp only [Dom.den, Dom.bounds]; exact denL_iff fs v
lemma denL_iff : ∀ (fs : List Dom) (v : List ℝ), v ∈ denL fs ↔ InBox (boundsL fs) v
  | [], v => by simp [denL, boundsL, inBox_nil]
  | f :: fs, v => by
    simp only [denL, boundsL, Set.mem_ofPred_eq, inBox_append]
    simp only [den_iff f, denL_iff fs]
end

mutual
lemma bounds_length : ∀ D : Dom, D.bounds.length = D.size
  | .interval _ _ => rfl
  | .point0 _ => rfl
  | .point1 xs => by simp [Dom.bounds, Dom.size]
  | .box bs => rfl
  | .prod fs => by simp only [Dom.bounds, Dom.size]; exact boundsL_length fs
lemma boundsL_length : ∀ fs : List Dom, (boundsL fs).length = sizeL fs
  | [] => rfl
  | f :: fs => by simp only [boundsL, sizeL, List.length_append]; rw [bounds_length f, boundsL_length fs]
end

mutual
lemma valid_bounds : ∀ D : Dom, D.Valid → ∀ b ∈ D.bounds, b.1 ≤ b.2
  | .interval l u, h, b, hb => by
    simp only [Dom.bounds, List.mem_singleton] at hb; subst hb; exact h
  | .point0 x, h, b, hb => by simp only [Dom.bounds, List.mem_singleton] at hb; subst hb; exact le_refl _
  | .point1 xs, h, b, hb => by
    simp only [Dom.bounds, List.mem_map] at hb; obtain ⟨x, -, rfl⟩ := hb; exact le_refl _
  | .box bs, h, b, hb => by simp only [Dom.bounds, Dom.Valid] at *; exact h b hb
  | .prod fs, h, b, hb => by simp only [Dom.bounds, Dom.Valid] at *; exact validL_bounds fs h b hb
lemma validL_bounds : ∀ fs : List Dom, validL fs → ∀ b ∈ boundsL fs, b.1 ≤ b.2
  | [], _, b, hb => by simp [boundsL] at hb
  | f :: fs, h, b, hb => by
    simp only [boundsL, List.mem_append, validL] at *
    rcases hb with hb | hb
    · exact valid_bounds f h.1 b hb
    · exact validL_bounds fs h.2 b hb
end

/-! ### Volume -/

/-- Product of the side lengths. -/
def vol (bs : List (ℝ × ℝ)) : ℝ := (bs.map fun b => b.2 - b.1).prod

lemma vol_append (bs cs) : vol (bs ++ cs) = vol bs * vol cs := by simp [vol]

lemma foldl_mul : ∀ (vs : List ℝ) (v : ℝ), vs.foldl (· * ·) v = v * vs.prod
  | [], v => by simp
  | w :: vs, v => by simp [foldl_mul vs, mul_assoc]

lemma reduceMul_eq {vs : List ℝ} (h : vs ≠ []) : reduceMul vs = .ok vs.prod := by
  cases vs with
  | nil => exact absurd rfl h
  | cons v vs => simp [reduceMul, foldl_mul]

lemma leafVolume_eq (b : ℝ × ℝ) : leafVolume b = b.2 - b.1 := by
  unfold leafVolume; split_ifs with h
  · rfl
  · rw [not_not.mp h]; ring

lemma vol_points {xs : List ℝ} (h : xs ≠ []) : vol (xs.map fun x => (x, x)) = 0 := by
  cases xs with
  | nil => exact absurd rfl h
  | cons x xs => simp [vol]

mutual
/-- No empty product below (those have no volume in the code). -/
def Dom.NonEmptyProds : Dom → Prop
  | .interval _ _ => True
  | .point0 _ => True
  | .point1 xs => xs ≠ []
  | .box bs => bs ≠ []
  | .prod fs => fs ≠ [] ∧ nonEmptyL fs
def nonEmptyL : List Dom → Prop
  | [] => True
  | f :: fs => f.NonEmptyProds ∧ nonEmptyL fs
end

mutual
lemma volume_vol : ∀ D : Dom, D.NonEmptyProds → D.volume = .ok (vol D.bounds)
  | .interval l u, _ => by simp [Dom.volume, Dom.bounds, vol]
  | .point0 x, _ => by simp [Dom.volume, Dom.bounds, vol]
  | .point1 xs, h => by simp only [Dom.volume, Dom.bounds]; rw [vol_points h]
  | .box bs, h => by
    simp only [Dom.volume, Dom.bounds]
    have h : bs ≠ [] := h
    rw [reduceMul_eq (by simpa using h)]
    congr 2
    exact List.map_congr_left fun b _ => leafVolume_eq b
  | .prod fs, h => by
    simp only [Dom.volume, Dom.bounds]
    obtain ⟨vs, h1, h2, h3⟩ := volumes_vol fs h.2
    rw [h1]
    show reduceMul vs = _
    rw [reduceMul_eq (by intro hn; subst hn; exact h.1 (List.length_eq_zero_iff.mp h3.symm)), h2]
lemma volumes_vol : ∀ fs : List Dom, nonEmptyL fs →
    ∃ vs, volumes fs = .ok vs ∧ vs.prod = vol (boundsL fs) ∧ vs.length = fs.length
  | [], _ => ⟨[], rfl, by simp [boundsL, vol], rfl⟩
  | f :: fs, h => by
    obtain ⟨vs, h1, h2, h3⟩ := volumes_vol fs h.2
    refine ⟨vol f.bounds :: vs, ?_, ?_, by simp [h3]⟩
    · simp only [volumes]; rw [volume_vol f h.1, h1]; rfl
    · simp only [boundsL, vol_append, List.prod_cons, h2]
end

/-! ### Boundary -/

/-- Members of a box with at least one extreme coordinate. -/
def OnFace : List (ℝ × ℝ) → List ℝ → Prop
  | b :: bs, x :: xs => ((x = b.1 ∨ x = b.2) ∧ InBox bs xs) ∨ ((b.1 ≤ x ∧ x ≤ b.2) ∧ OnFace bs xs)
  | _, _ => False

lemma onFace_nil_left {v} : ¬ OnFace [] v := by simp [OnFace]

lemma onFace_cons {b : ℝ × ℝ} {bs v} : OnFace (b :: bs) v ↔
    ∃ x w, v = x :: w ∧ (((x = b.1 ∨ x = b.2) ∧ InBox bs w) ∨ ((b.1 ≤ x ∧ x ≤ b.2) ∧ OnFace bs w)) := by
  cases v with
  | nil => simp [OnFace]
  | cons x w => simp [OnFace]

lemma onFace_append : ∀ {bs cs : List (ℝ × ℝ)} {v : List ℝ}, (∀ b ∈ bs, b.1 ≤ b.2) →
    (OnFace (bs ++ cs) v ↔ ∃ a b, v = a ++ b ∧ ((OnFace bs a ∧ InBox cs b) ∨ (InBox bs a ∧ OnFace cs b)))
  | [], cs, v, _ => by
    simp only [List.nil_append, onFace_nil_left, false_and, false_or, inBox_nil]
    constructor
    · intro h; exact ⟨[], v, rfl, rfl, h⟩
    · rintro ⟨a, b, rfl, rfl, h⟩; exact h
  | b :: bs, cs, v, hv => by
    have ih := fun w => onFace_append (bs := bs) (cs := cs) (v := w) fun b hb => hv b (List.mem_cons_of_mem _ hb)
    have hb0 := hv b List.mem_cons_self
    rw [List.cons_append, onFace_cons]
    constructor
    · rintro ⟨x, w, rfl, ⟨hx, hw⟩ | ⟨hx, hw⟩⟩
      · obtain ⟨a, ha, c, hc, rfl⟩ := inBox_append.mp hw
        exact ⟨x :: a, c, rfl, Or.inl ⟨onFace_cons.mpr ⟨x, a, rfl, Or.inl ⟨hx, ha⟩⟩, hc⟩⟩
      · obtain ⟨a, c, rfl, ⟨ha, hc⟩ | ⟨ha, hc⟩⟩ := (ih w).mp hw
        · exact ⟨x :: a, c, rfl, Or.inl ⟨onFace_cons.mpr ⟨x, a, rfl, Or.inr ⟨hx, ha⟩⟩, hc⟩⟩
        · exact ⟨x :: a, c, rfl, Or.inr ⟨inBox_cons.mpr ⟨x, a, rfl, hx, ha⟩, hc⟩⟩
    · rintro ⟨a, c, rfl, ⟨ha, hc⟩ | ⟨ha, hc⟩⟩
      · obtain ⟨x, w, rfl, ⟨hx, hw⟩ | ⟨hx, hw⟩⟩ := onFace_cons.mp ha
        · exact ⟨x, w ++ c, rfl, Or.inl ⟨hx, inBox_append.mpr ⟨w, hw, c, hc, rfl⟩⟩⟩
        · exact ⟨x, w ++ c, rfl, Or.inr ⟨hx, (ih _).mpr ⟨w, c, rfl, Or.inl ⟨hw, hc⟩⟩⟩⟩
      · obtain ⟨x, w, rfl, hx, hw⟩ := inBox_cons.mp ha
        exact ⟨x, w ++ c, rfl, Or.inr ⟨hx, (ih _).mpr ⟨w, c, rfl, Or.inr ⟨hw, hc⟩⟩⟩⟩

lemma onFace_inBox : ∀ {bs v}, (∀ b ∈ bs, b.1 ≤ b.2) → OnFace bs v → InBox bs v
  | [], v, _, h => (onFace_nil_left h).elim
  | b :: bs, v, hv, h => by
    obtain ⟨x, w, rfl, ⟨hx, hw⟩ | ⟨hx, hw⟩⟩ := onFace_cons.mp h
    · refine inBox_cons.mpr ⟨x, w, rfl, ?_, hw⟩
      have := hv b List.mem_cons_self
      rcases hx with rfl | rfl
      · exact ⟨le_refl _, this⟩
      · exact ⟨this, le_refl _⟩
    · exact inBox_cons.mpr ⟨x, w, rfl, hx, onFace_inBox (fun b hb => hv b (List.mem_cons_of_mem _ hb)) hw⟩

lemma onFace_points {xs v : List ℝ} (h : xs ≠ []) : OnFace (xs.map fun x => (x, x)) v ↔ v = xs := by
  cases xs with
  | nil => exact absurd rfl h
  | cons x xs =>
    rw [List.map_cons, onFace_cons]
    constructor
    · rintro ⟨y, w, rfl, ⟨hy, hw⟩ | ⟨hy, hw⟩⟩
      · rw [inBox_points.mp hw]
        congr 1
        rcases hy with h | h <;> exact h
      · have := onFace_inBox (by simp) hw
        rw [inBox_points.mp this]
        congr 1
        exact le_antisymm hy.2 hy.1
    · rintro rfl
      exact ⟨x, xs, rfl, Or.inl ⟨Or.inl rfl, inBox_points.mpr rfl⟩⟩

lemma boxFactor_bounds (b : ℝ × ℝ) : (boxFactor b).bounds = [b] := by
  unfold boxFactor; split_ifs with h
  · rfl
  · rw [not_not] at h
    simp only [Dom.bounds]
    obtain ⟨l, u⟩ := b
    simp_all

lemma boxFactors_bounds : ∀ bs : List (ℝ × ℝ), boundsL (bs.map boxFactor) = bs
  | [] => rfl
  | b :: bs => by simp only [List.map_cons, boundsL, boxFactor_bounds, boxFactors_bounds bs]; rfl

lemma leafBoundary_iff (b : ℝ × ℝ) (a : List ℝ) :
    (∃ p ∈ leafBoundary b, InBox p.bounds a) ↔ ∃ x, a = [x] ∧ (x = b.1 ∨ x = b.2) := by
  unfold leafBoundary
  have hp : ∀ y : ℝ, InBox (Dom.point0 y).bounds a ↔ a = [y] := fun y => by
    rw [← den_iff]; simp [Dom.den]
  split_ifs with h
  · simp only [List.mem_cons, List.not_mem_nil, or_false, exists_eq_or_imp, exists_eq_left, hp]
    constructor
    · rintro (h | h)
      · exact ⟨_, h, Or.inl rfl⟩
      · exact ⟨_, h, Or.inr rfl⟩
    · rintro ⟨x, h, rfl | rfl⟩
      · exact Or.inl h
      · exact Or.inr h
  · rw [not_not] at h
    simp only [List.mem_singleton, exists_eq_left, hp, ← h, or_self]
    constructor
    · intro h; exact ⟨_, h, rfl⟩
    · rintro ⟨x, h, rfl⟩; exact h

lemma boxBoundary_iff : ∀ (bs : List (ℝ × ℝ)) (v : List ℝ),
    (∃ q ∈ boxBoundary bs, InBox (boundsL q) v) ↔ OnFace bs v
  | [], v => by simp [boxBoundary, onFace_nil_left]
  | b :: bs, v => by
    rw [onFace_cons, boxBoundary]
    simp only [List.mem_append, List.mem_map]
    constructor
    · rintro ⟨q, ⟨p, hp, rfl⟩ | ⟨q', hq, rfl⟩, hv⟩
      · rw [boundsL, inBox_append, boxFactors_bounds] at hv
        obtain ⟨a, ha, c, hc, rfl⟩ := hv
        obtain ⟨x, rfl, hx⟩ := (leafBoundary_iff b a).mp ⟨p, hp, ha⟩
        exact ⟨x, c, rfl, Or.inl ⟨hx, hc⟩⟩
      · rw [boundsL, boxFactor_bounds, List.singleton_append, inBox_cons] at hv
        obtain ⟨x, w, rfl, hx, hw⟩ := hv
        exact ⟨x, w, rfl, Or.inr ⟨hx, (boxBoundary_iff bs w).mp ⟨q', hq, hw⟩⟩⟩
    · rintro ⟨x, w, rfl, ⟨hx, hw⟩ | ⟨hx, hw⟩⟩
      · obtain ⟨p, hp, ha⟩ := (leafBoundary_iff b [x]).mpr ⟨x, rfl, hx⟩
        refine ⟨_, Or.inl ⟨p, hp, rfl⟩, ?_⟩
        rw [boundsL, inBox_append, boxFactors_bounds]
        exact ⟨[x], ha, w, hw, rfl⟩
      · obtain ⟨q, hq, hv⟩ := (boxBoundary_iff bs w).mpr hw
        refine ⟨_, Or.inr ⟨q, hq, rfl⟩, ?_⟩
        rw [boundsL, boxFactor_bounds, List.singleton_append, inBox_cons]
        exact ⟨x, w, rfl, hx, hv⟩

mutual
lemma boundary_iff : ∀ (D : Dom), D.Valid → ∀ v : List ℝ, (∃ P ∈ D.boundary, v ∈ P.den) ↔ OnFace D.bounds v
  | .interval l u, h, v => by
    simp only [Dom.boundary, Dom.bounds, onFace_cons, inBox_nil, onFace_nil_left, and_false, or_false,
      List.mem_cons, List.not_mem_nil, exists_eq_or_imp, exists_eq_left, Dom.den, Set.mem_singleton_iff]
    constructor
    · rintro (h | h)
      · exact ⟨l, [], h, Or.inl rfl, rfl⟩
      · exact ⟨u, [], h, Or.inr rfl, rfl⟩
    · rintro ⟨x, w, rfl, rfl | rfl, rfl⟩
      · exact Or.inl rfl
      · exact Or.inr rfl
  | .point0 x, h, v => by
    have := onFace_points (xs := [x]) (v := v) (by simp)
    simp only [Dom.boundary, Dom.bounds, List.mem_singleton, exists_eq_left, Dom.den, Set.mem_singleton_iff]
    simpa using this.symm
  | .point1 xs, h, v => by
    have := onFace_points (xs := xs) (v := v) h
    simp only [Dom.boundary, Dom.bounds, List.mem_singleton, exists_eq_left, Dom.den, Set.mem_singleton_iff]
    exact this.symm
  | .box bs, h, v => by
    simp only [Dom.boundary, Dom.bounds, ← boxBoundary_iff, List.mem_map, exists_exists_and_eq_and, Dom.den, denL_iff]
  | .prod fs, h, v => by
    simp only [Dom.boundary, Dom.bounds, List.mem_map, exists_exists_and_eq_and, Dom.den]
    exact boundaryL_iff fs h v
lemma boundaryL_iff : ∀ (fs : List Dom), validL fs → ∀ v : List ℝ,
    (∃ q ∈ boundaryL fs, v ∈ denL q) ↔ OnFace (boundsL fs) v
  | [], _, v => by simp [boundaryL, boundsL, onFace_nil_left]
  | f :: fs, h, v => by
    have hv := valid_bounds f h.1
    rw [boundsL, onFace_append hv, boundaryL]
    simp only [List.mem_append, List.mem_map]
    constructor
    · rintro ⟨q, ⟨p, hp, rfl⟩ | ⟨q', hq, rfl⟩, hm⟩
      · obtain ⟨a, ha, b, hb, rfl⟩ := hm
        exact ⟨a, b, rfl, Or.inl ⟨(boundary_iff f h.1 a).mp ⟨p, hp, ha⟩, (denL_iff fs b).mp hb⟩⟩
      · obtain ⟨a, ha, b, hb, rfl⟩ := hm
        exact ⟨a, b, rfl, Or.inr ⟨(den_iff f a).mp ha, (boundaryL_iff fs h.2 b).mp ⟨q', hq, hb⟩⟩⟩
    · rintro ⟨a, b, rfl, ⟨h1, h2⟩ | ⟨h1, h2⟩⟩
      · obtain ⟨p, hp, ha⟩ := (boundary_iff f h.1 a).mpr h1
        exact ⟨_, Or.inl ⟨p, hp, rfl⟩, a, ha, b, (denL_iff fs b).mpr h2, rfl⟩
      · obtain ⟨q, hq, hb⟩ := (boundaryL_iff fs h.2 b).mpr h2
        exact ⟨_, Or.inr ⟨q, hq, rfl⟩, a, (den_iff f a).mpr h1, b, hb, rfl⟩
end

/-! ### Coordinates as functions -/

lemma inBox_ofFn {n : ℕ} (bs : List (ℝ × ℝ)) (hn : bs.length = n) (x : Fin n → ℝ) :
    InBox bs (List.ofFn x) ↔ ∀ i : Fin n, (bs[i.1]'(by omega)).1 ≤ x i ∧ x i ≤ (bs[i.1]'(by omega)).2 := by
  unfold InBox
  rw [List.forall₂_iff_get]
  constructor
  · rintro ⟨-, h⟩ i
    have := h i.1 (by omega) (by simp)
    simpa using this
  · intro h
    refine ⟨by simp [hn], fun i h1 h2 => ?_⟩
    have := h ⟨i, by omega⟩
    simpa using this

lemma onFace_iff_get : ∀ (bs : List (ℝ × ℝ)) (v : List ℝ), (∀ b ∈ bs, b.1 ≤ b.2) →
    (OnFace bs v ↔ InBox bs v ∧ ∃ (i : ℕ) (h1 : i < bs.length) (h2 : i < v.length), v[i] = bs[i].1 ∨ v[i] = bs[i].2)
  | [], v, _ => by simp [onFace_nil_left]
  | b :: bs, v, hv => by
    have ih := fun w => onFace_iff_get bs w fun b hb => hv b (List.mem_cons_of_mem _ hb)
    constructor
    · intro h
      refine ⟨onFace_inBox hv h, ?_⟩
      obtain ⟨x, w, rfl, ⟨hx, hw⟩ | ⟨hx, hw⟩⟩ := onFace_cons.mp h
      · exact ⟨0, by simp, by simp, hx⟩
      · obtain ⟨-, i, h1, h2, h3⟩ := (ih w).mp hw
        exact ⟨i + 1, by simpa using h1, by simpa using h2, by simpa using h3⟩
    · rintro ⟨h, i, h1, h2, h3⟩
      obtain ⟨x, w, rfl, hx, hw⟩ := inBox_cons.mp h
      cases i with
      | zero => exact onFace_cons.mpr ⟨x, w, rfl, Or.inl ⟨h3, hw⟩⟩
      | succ i => exact onFace_cons.mpr ⟨x, w, rfl, Or.inr ⟨hx, (ih w).mpr
          ⟨hw, i, by simpa using h1, by simpa using h2, by simpa using h3⟩⟩⟩

end LinPDE.Domains
