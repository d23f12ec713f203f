import Verif.Domain.Props
import Verif.Rounding.VolumeModel
import Verif.Rounding.Binary
import Verif.Rounding.Close

/-!
# C100: volumes of domains in floating point
-/

namespace LinPDE.Rounding.VolFl
open LinPDE.Domains

variable {F : Fmt}

mutual
/-- Number of roundings in the volume of a domain. -/
def ops : Dom → ℕ
  | .interval _ _ => 1
  | .point0 _ => 0
  | .point1 _ => 0
  | .box bs => 2 * bs.length - 1
  | .prod fs => opsL fs - 1
/-- Roundings of the factors, and one for each factor. -/
def opsL : List Dom → ℕ
  | [] => 0
  | f :: fs => ops f + 1 + opsL fs
end

/-- Lists of values up to roundings, with the sum of the numbers of roundings and of the lengths. -/
inductive NearL (F : Fmt) : ℕ → List ℝ → List ℝ → Prop
  | nil : NearL F 0 [] []
  | cons {k n : ℕ} {a b : ℝ} {as bs : List ℝ} : F.Near k a b → NearL F n as bs → NearL F (k + 1 + n) (a :: as) (b :: bs)

lemma fold_near {n : ℕ} {as bs : List ℝ} (h : NearL F n as bs) : ∀ {k : ℕ} {s s' : ℝ}, F.Near k s s' →
    F.Near (k + n) (as.foldl (fun s v => F.rd (s * v)) s) (bs.foldl (· * ·) s') := by
  induction h with
  | nil => exact fun h => h
  | cons hab _ ih =>
    intro k s s' hs
    have := ih ((hs.mul hab).rd)
    refine this.mono ?_
    omega

lemma reduce_near {n : ℕ} {as bs : List ℝ} (h : NearL F n as bs) :
    (∃ e, reduceMulFl F as = .error e ∧ reduceMul bs = .error e) ∨ ∃ v v', reduceMulFl F as = .ok v ∧ reduceMul bs = .ok v' ∧ F.Near (n - 1) v v' := by
  cases h with
  | nil => exact Or.inl ⟨_, rfl, rfl⟩
  | cons hab hl => exact Or.inr ⟨_, _, rfl, rfl, (fold_near hl hab).mono (by omega)⟩

lemma leaf_near (F : Fmt) (b : ℝ × ℝ) : F.Near 1 (leafFl F b) (leafVolume b) := by
  unfold leafFl leafVolume
  split_ifs
  · exact rd_fac F _
  · exact near_refl F 1 0

lemma leaves_near (F : Fmt) : ∀ bs : List (ℝ × ℝ), NearL F (2 * bs.length) (bs.map (leafFl F)) (bs.map leafVolume)
  | [] => .nil
  | b :: bs => by
    have := NearL.cons (leaf_near F b) (leaves_near F bs)
    rwa [show 1 + 1 + 2 * bs.length = 2 * (b :: bs).length by simp; omega] at this

mutual
lemma volume_near (F : Fmt) : ∀ D : Dom,
    (∃ e, volumeFl F D = .error e ∧ D.volume = .error e) ∨ ∃ v v', volumeFl F D = .ok v ∧ D.volume = .ok v' ∧ F.Near (ops D) v v'
  | .interval l u => Or.inr ⟨_, _, by rw [volumeFl], by rw [Dom.volume], rd_fac F _⟩
  | .point0 x => Or.inr ⟨0, 0, by rw [volumeFl], by rw [Dom.volume], near_refl F _ 0⟩
  | .point1 xs => Or.inr ⟨0, 0, by rw [volumeFl], by rw [Dom.volume], near_refl F _ 0⟩
  | .box bs => by
    rw [volumeFl, Dom.volume, ops]
    exact reduce_near (leaves_near F bs)
  | .prod fs => by
    rw [volumeFl, Dom.volume, ops]
    rcases volumes_near F fs with ⟨e, h1, h2⟩ | ⟨vs, vs', h1, h2, h3⟩
    · rw [h1, h2]
      exact Or.inl ⟨e, rfl, rfl⟩
    · rw [h1, h2]
      exact reduce_near h3
lemma volumes_near (F : Fmt) : ∀ fs : List Dom,
    (∃ e, volumesFl F fs = .error e ∧ volumes fs = .error e) ∨ ∃ vs vs', volumesFl F fs = .ok vs ∧ volumes fs = .ok vs' ∧ NearL F (opsL fs) vs vs'
  | [] => Or.inr ⟨[], [], by rw [volumesFl], by rw [volumes], by rw [opsL]; exact .nil⟩
  | f :: fs => by
    rw [volumesFl, volumes, opsL]
    rcases volume_near F f with ⟨e, h1, h2⟩ | ⟨v, v', h1, h2, h3⟩
    · rw [h1, h2]
      exact Or.inl ⟨e, rfl, rfl⟩
    · rcases volumes_near F fs with ⟨e, h4, h5⟩ | ⟨vs, vs', h4, h5, h6⟩
      · rw [h1, h2, h4, h5]
        exact Or.inl ⟨e, rfl, rfl⟩
      · rw [h1, h2, h4, h5]
        exact Or.inr ⟨_, _, rfl, rfl, .cons h3 h6⟩
end

/-- C100: the computed volume raises exactly where the exact one does; otherwise it is the exact volume up to `ops D` roundings. -/
theorem volume_error (F : Fmt) (D : Dom) :
    (∃ e, volumeFl F D = .error e ∧ D.volume = .error e) ∨
      ∃ v v', volumeFl F D = .ok v ∧ D.volume = .ok v' ∧ |v - v'| ≤ ((1 + F.u) ^ ops D - 1) * |v'| := by
  rcases volume_near F D with h | ⟨v, v', h1, h2, h3⟩
  · exact Or.inl h
  · exact Or.inr ⟨v, v', h1, h2, h3.abs⟩

/-- C100: a box of dimension `d` takes `2 d - 1` roundings. -/
theorem box_ops (bs : List (ℝ × ℝ)) : ops (.box bs) = 2 * bs.length - 1 := by rw [ops]

/-- C100: the computed volume is close to the Lebesgue measure, and positive exactly for domains of positive measure. -/
theorem volume_measure_close (F : Fmt) (D : Dom) (h : D.Valid) (hne : D.NonEmptyProds) :
    ∃ v, volumeFl F D = .ok v ∧ |v - (MeasureTheory.volume D.toSet).toReal| ≤ ((1 + F.u) ^ ops D - 1) * (MeasureTheory.volume D.toSet).toReal ∧
      0 ≤ v ∧ (0 < v ↔ 0 < (MeasureTheory.volume D.toSet).toReal) := by
  obtain ⟨r, hr, hm⟩ := volume_measure D h hne
  have r0 : 0 ≤ r := by rw [← hm]; exact ENNReal.toReal_nonneg
  rcases volume_near F D with ⟨e, _, h2⟩ | ⟨v, v', h1, h2, h3⟩
  · rw [hr] at h2
    cases h2
  · rw [hr] at h2
    cases h2
    rw [hm]
    refine ⟨v, h1, ?_, h3.nonneg r0, ?_⟩
    · have := h3.abs
      rwa [abs_of_nonneg r0] at this
    · obtain ⟨t, ht, rfl⟩ := h3
      exact mul_pos_iff_of_pos_left ht.pos

/-- C100: the computed integral of a constant over a domain. -/
theorem const_integral_close (F : Fmt) (D : Dom) (h : D.Valid) (hne : D.NonEmptyProds) (c : ℝ) :
    ∃ v, constIntFl F D c = .ok v ∧
      |v - c * (MeasureTheory.volume D.toSet).toReal| ≤ ((1 + F.u) ^ (ops D + 1) - 1) * |c * (MeasureTheory.volume D.toSet).toReal| := by
  obtain ⟨r, hr, hm⟩ := volume_measure D h hne
  rcases volume_near F D with ⟨e, _, h2⟩ | ⟨v, v', h1, h2, h3⟩
  · rw [hr] at h2
    cases h2
  · rw [hr] at h2
    cases h2
    rw [hm]
    refine ⟨_, by rw [constIntFl, h1]; rfl, ?_⟩
    exact ((((near_refl F 0 c).mul h3).rd).mono (by omega)).abs

/-! ## Examples -/

/-- Double precision: a product of an interval and a box, the empty product, and a constant on a box. -/
example : ops (.prod [.interval 0 1, .box [(0, 1), (2, 5)]]) = 5 ∧
    (∃ v, volumeFl (bin 52) (.prod [.interval 0 1, .box [(0, 1), (2, 5)]]) = .ok v ∧ 0 ≤ v) ∧
    (∃ e, volumeFl (bin 52) (.prod []) = .error e) ∧
    ∃ v, constIntFl (bin 52) (.box [(0, 1), (2, 5)]) 7 = .ok v := by
  have v1 : (Dom.prod [.interval 0 1, .box [(0, 1), (2, 5)]]).Valid := by norm_num [Dom.Valid, validL]
  have n1 : (Dom.prod [.interval 0 1, .box [(0, 1), (2, 5)]]).NonEmptyProds := by simp [Dom.NonEmptyProds, nonEmptyL]
  obtain ⟨v, h1, _, h2, _⟩ := volume_measure_close (bin 52) _ v1 n1
  obtain ⟨w, h3, _⟩ := const_integral_close (bin 52) (.box [(0, 1), (2, 5)]) (by norm_num [Dom.Valid]) (by simp [Dom.NonEmptyProds]) 7
  exact ⟨by simp [ops, opsL], ⟨v, h1, h2⟩, ⟨.typeError, by simp [volumeFl, volumesFl]; rfl⟩, w, h3⟩

end LinPDE.Rounding.VolFl
