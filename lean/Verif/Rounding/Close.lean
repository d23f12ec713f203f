import Verif.Rounding.Props

/-!
# Errors relative to a magnitude

Sums of terms of either sign have no relative error bound; their error is bounded relative to the sum of the absolute values. `Cl g a b m`:
`a` is a computed value of `b`, with error at most `(g - 1) m`, where the magnitude `m` bounds `|b|`.
-/

namespace LinPDE.Rounding
open Finset

/-- `a` approximates `b` up to the factor `g` relative to the magnitude `m`. -/
structure Cl (g a b m : ℝ) : Prop where
  one_le : 1 ≤ g
  mag : |b| ≤ m
  err : |a - b| ≤ (g - 1) * m

variable {F : Fmt} {g h a b c d m n : ℝ} {k l : ℕ}

lemma Cl.nonneg (h : Cl g a b m) : 0 ≤ m := (abs_nonneg b).trans h.mag

lemma Cl.abs_le (h : Cl g a b m) : |a| ≤ g * m := by
  have h1 := h.err
  have h2 := h.mag
  calc |a| = |(a - b) + b| := by ring_nf
    _ ≤ |a - b| + |b| := abs_add_le _ _
    _ ≤ g * m := by linarith

lemma Cl.mono (h : Cl g a b m) {g' : ℝ} (hg : g ≤ g') : Cl g' a b m :=
  ⟨h.one_le.trans hg, h.mag, h.err.trans (mul_le_mul_of_nonneg_right (by linarith) h.nonneg)⟩

lemma Cl.neg (h : Cl g a b m) : Cl g (-a) (-b) m :=
  ⟨h.one_le, by rw [abs_neg]; exact h.mag, by rw [← neg_sub', abs_neg]; exact h.err⟩

lemma Cl.mul (h1 : Cl g a b m) (h2 : Cl h c d n) : Cl (g * h) (a * c) (b * d) (m * n) := by
  have m0 := h1.nonneg
  have n0 := h2.nonneg
  refine ⟨one_le_mul_of_one_le_of_one_le h1.one_le h2.one_le, ?_, ?_⟩
  · rw [abs_mul]
    exact mul_le_mul h1.mag h2.mag (abs_nonneg _) m0
  · have e : a * c - b * d = (a - b) * c + b * (c - d) := by ring
    have i1 : |(a - b) * c| ≤ (g - 1) * m * (h * n) := by
      rw [abs_mul]
      exact mul_le_mul h1.err h2.abs_le (abs_nonneg _) (mul_nonneg (by linarith [h1.one_le]) m0)
    have i2 : |b * (c - d)| ≤ m * ((h - 1) * n) := by
      rw [abs_mul]
      exact mul_le_mul h1.mag h2.err (abs_nonneg _) m0
    rw [e]
    refine (abs_add_le _ _).trans ?_
    linarith

lemma Cl.add (h1 : Cl g a b m) (h2 : Cl g c d n) : Cl g (a + c) (b + d) (m + n) := by
  refine ⟨h1.one_le, (abs_add_le _ _).trans (add_le_add h1.mag h2.mag), ?_⟩
  have e : a + c - (b + d) = (a - b) + (c - d) := by ring
  rw [e]
  refine (abs_add_le _ _).trans ?_
  linarith [h1.err, h2.err]

lemma Cl.sub (h1 : Cl g a b m) (h2 : Cl g c d n) : Cl g (a - c) (b - d) (m + n) := by
  rw [sub_eq_add_neg, sub_eq_add_neg]
  exact h1.add h2.neg

lemma Cl.rd (h : Cl g a b m) : Cl (g * (1 + F.u)) (F.rd a) b m := by
  have u0 := F.u_nonneg
  refine ⟨one_le_mul_of_one_le_of_one_le h.one_le F.le_add, h.mag, ?_⟩
  have e : F.rd a - b = (F.rd a - a) + (a - b) := by ring
  have i1 : |F.rd a - a| ≤ F.u * (g * m) := (F.err a).trans (mul_le_mul_of_nonneg_left h.abs_le u0)
  rw [e]
  refine (abs_add_le _ _).trans ?_
  linarith [h.err]

lemma Cl.sum {ι : Type} (S : Finset ι) {a b m : ι → ℝ} (hg : 1 ≤ g) (h : ∀ i ∈ S, Cl g (a i) (b i) (m i)) :
    Cl g (∑ i ∈ S, a i) (∑ i ∈ S, b i) (∑ i ∈ S, m i) := by
  refine ⟨hg, (abs_sum_le_sum_abs _ _).trans (sum_le_sum fun i hi => (h i hi).mag), ?_⟩
  rw [← sum_sub_distrib, mul_sum]
  exact (abs_sum_le_sum_abs _ _).trans (sum_le_sum fun i hi => (h i hi).err)

/-- Values with relative errors. -/
lemma Fmt.Near.cl (h : F.Near k a b) : Cl ((1 + F.u) ^ k) a b |b| := ⟨one_le_pow₀ F.le_add, le_rfl, h.abs⟩

lemma fac_cl {t : ℝ} (h : F.Fac k t) : Cl ((1 + F.u) ^ k) t 1 1 := ⟨one_le_pow₀ F.le_add, by simp, by simpa using fac_abs h⟩

variable {ι : Type} [Fintype ι]

/-- Sums in any order. -/
lemma Tree.Full.cl {t : Tree ι} (ht : t.Full) {a b m : ι → ℝ} (hg : 1 ≤ g) (h : ∀ i, Cl g (a i) (b i) (m i)) :
    Cl (g * (1 + F.u) ^ (Fintype.card ι - 1)) (t.fl F a) (∑ i, b i) (∑ i, m i) := by
  obtain ⟨θ, h1, h2⟩ := ht.fl_eq F a
  rw [h2]
  refine Cl.sum _ (one_le_mul_of_one_le_of_one_le hg (one_le_pow₀ F.le_add)) fun i _ => ?_
  have := (fac_cl (h1 i)).mul (h i)
  rwa [one_mul, one_mul, mul_comm] at this

/-! ## With numbers of roundings -/

/-- `a` approximates `b` up to `k` roundings relative to the magnitude `m`. -/
def Fmt.Cn (F : Fmt) (k : ℕ) (a b m : ℝ) : Prop := Cl ((1 + F.u) ^ k) a b m

lemma Fmt.Cn.mono (h : F.Cn k a b m) (hk : k ≤ l) : F.Cn l a b m := Cl.mono h (pow_le_pow_right₀ F.le_add hk)
lemma Fmt.Cn.rd (h : F.Cn k a b m) : F.Cn (k + 1) (F.rd a) b m := by
  unfold Fmt.Cn
  rw [pow_succ]
  exact Cl.rd h
lemma Fmt.Cn.mul (h : F.Cn k a b m) (h' : F.Cn l c d n) : F.Cn (k + l) (a * c) (b * d) (m * n) := by
  unfold Fmt.Cn
  rw [pow_add]
  exact Cl.mul h h'
lemma Fmt.Cn.add (h : F.Cn k a b m) (h' : F.Cn l c d n) : F.Cn (max k l) (a + c) (b + d) (m + n) :=
  Cl.add (h.mono (le_max_left _ _)) (h'.mono (le_max_right _ _))
lemma Fmt.Cn.sub (h : F.Cn k a b m) (h' : F.Cn l c d n) : F.Cn (max k l) (a - c) (b - d) (m + n) :=
  Cl.sub (h.mono (le_max_left _ _)) (h'.mono (le_max_right _ _))
lemma Fmt.Cn.neg (h : F.Cn k a b m) : F.Cn k (-a) (-b) m := Cl.neg h
lemma Tree.Full.cn {t : Tree ι} (ht : t.Full) {a b m : ι → ℝ} (h : ∀ i, F.Cn k (a i) (b i) (m i)) :
    F.Cn (k + (Fintype.card ι - 1)) (t.fl F a) (∑ i, b i) (∑ i, m i) := by
  unfold Fmt.Cn
  rw [pow_add]
  exact ht.cl (one_le_pow₀ F.le_add) h
lemma Fmt.Near.cn (h : F.Near k a b) : F.Cn k a b |b| := h.cl
lemma cn_refl (F : Fmt) (k : ℕ) (a : ℝ) : F.Cn k a a |a| := (near_refl F k a).cn

/-! ## Quotients -/

lemma fac_inv (hu : F.u ≤ 1 / 2) {t : ℝ} (h : F.Fac k t) : F.Fac (2 * k) t⁻¹ := by
  have u0 := F.u_nonneg
  have h0 := h.pos
  refine ⟨?_, ?_⟩
  · rw [le_inv_comm₀ (pow_pos F.sub_pos _) h0]
    refine h.2.trans ?_
    rw [← inv_pow, pow_mul]
    refine pow_le_pow_left₀ (by linarith) ?_ k
    rw [inv_pow, le_inv_comm₀ (by linarith) (pow_pos F.sub_pos 2), inv_eq_one_div, le_div_iff₀ (by linarith)]
    have := mul_nonneg (mul_nonneg u0 u0) F.sub_nonneg
    linarith
  · rw [inv_le_comm₀ h0 (pow_pos (by linarith) _)]
    refine le_trans ?_ h.1
    rw [← inv_pow, pow_mul]
    refine pow_le_pow_left₀ (by positivity) ?_ k
    rw [inv_pow, inv_le_comm₀ (by positivity) F.sub_pos, inv_eq_one_div, div_le_iff₀ F.sub_pos]
    have : 0 ≤ F.u * (1 - F.u - F.u * F.u) := mul_nonneg u0 (by nlinarith)
    linarith

lemma Fmt.Near.div (hu : F.u ≤ 1 / 2) (h : F.Near k a b) (h' : F.Near l c d) : F.Near (k + 2 * l) (a / c) (b / d) := by
  obtain ⟨t, ht, rfl⟩ := h
  obtain ⟨s, hs, rfl⟩ := h'
  refine ⟨t * s⁻¹, ht.mul (fac_inv hu hs), ?_⟩
  rw [div_eq_mul_inv, mul_inv, div_eq_mul_inv]
  ring

/-! ## Exponentials -/

lemma ex_cl {x y : ℝ} (hy : 0 ≤ y) (h : F.Near k x y) :
    Cl ((1 + F.v) * Real.exp (((1 + F.u) ^ k - 1) * y)) (F.ex (-x)) (Real.exp (-y)) (Real.exp (-y)) := by
  obtain ⟨h1, h2⟩ := ex_bounds hy h
  set E := Real.exp (((1 + F.u) ^ k - 1) * y) with hE
  have hE1 : 1 ≤ E := Real.one_le_exp (mul_nonneg (eps_nonneg F k) hy)
  have he := Real.exp_pos (-y)
  have hv := F.v_nonneg
  have hv1 := F.v_lt
  refine ⟨by nlinarith, le_of_eq (abs_of_pos he), ?_⟩
  rw [abs_le]
  rw [Real.exp_neg, ← hE] at h1
  refine ⟨?_, by linarith⟩
  have h3 : 2 - (1 + F.v) * E ≤ (1 - F.v) * E⁻¹ := by
    have : 0 < E := by linarith
    rw [← div_eq_mul_inv, le_div_iff₀ this]
    nlinarith [sq_nonneg (E - 1)]
  have h4 := mul_le_mul_of_nonneg_right h3 he.le
  linarith

end LinPDE.Rounding
