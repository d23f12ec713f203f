import Verif.Solve.FemModel
import Verif.Fem.LaplaceProps
import Verif.Solve.Grid
import Mathlib.LinearAlgebra.Dimension.Constructions
import Mathlib.MeasureTheory.Integral.DivergenceTheorem

/-! # The linear system of the finite element method -/

namespace LinPDE.Solve
open LinPDE.Domains LinPDE.Pde LinPDE.GP LinPDE.Block LinPDE.Fem LinPDE.Galerkin Matrix

/-- The tridiagonal matrix of second differences with the given conductivities. -/
def Diff2 {N M : ℕ} (d : ℕ → ℝ) (A : Matrix (Fin N) (Fin M) ℝ) : Prop := ∀ i j, A i j =
  if j.val = i.val then d i
  else if j.val = i.val + 1 then -d i - d (i + 1)
  else if j.val = i.val + 2 then d (i + 1)
  else 0

lemma fin_sum_single {M : ℕ} {a : ℕ} (ha : a < M) (t : ℝ) (c : ℕ → ℝ) :
    ∑ j : Fin M, (if j.val = a then t else 0) * c j = t * c a := by
  rw [Finset.sum_eq_single (⟨a, ha⟩ : Fin M)]
  · simp
  · intro j _ hj
    rw [if_neg fun h => hj (Fin.ext h), zero_mul]
  · simp

lemma Diff2.row {N M : ℕ} (hM : M = N + 2) {d : ℕ → ℝ} {A : Matrix (Fin N) (Fin M) ℝ} (h : Diff2 d A) (c : ℕ → ℝ) (i : Fin N) :
    ∑ j, A i j * c j = d (i + 1) * (c (i + 2) - c (i + 1)) - d i * (c (i + 1) - c i) := by
  have hi := i.2
  have e : ∀ j : Fin M, A i j * c j = (if j.val = i.val then d i else 0) * c j +
      (if j.val = i.val + 1 then -d i - d (i + 1) else 0) * c j + (if j.val = i.val + 2 then d (i + 1) else 0) * c j := by
    intro j
    rw [h i j]
    by_cases h1 : j.val = i.val
    · simp [h1]
    by_cases h2 : j.val = i.val + 1
    · simp [h2]
    by_cases h3 : j.val = i.val + 2 <;> simp [h1, h2, h3]
  simp only [e, Finset.sum_add_distrib]
  rw [fin_sum_single (by omega), fin_sum_single (by omega), fin_sum_single (by omega)]
  ring

/-- A vector indexed by natural numbers. -/
noncomputable def ext {M : ℕ} (c : Fin M → ℝ) (j : ℕ) : ℝ := if h : j < M then c ⟨j, h⟩ else 0

lemma ext_val {M : ℕ} (c : Fin M → ℝ) (j : Fin M) : ext c j = c j := by simp [ext]

/-- The values at the ends and the second differences determine the vector. -/
lemma Diff2.inj {N M : ℕ} (hM : M = N + 2) {d : ℕ → ℝ} (hd : ∀ i ≤ N, 0 < d i) {A : Matrix (Fin N) (Fin M) ℝ} (h : Diff2 d A)
    (c : ℕ → ℝ) (h0 : c 0 = 0) (h1 : c (N + 1) = 0) (hA : ∀ i, ∑ j, A i j * c j = 0) : ∀ j ≤ N + 1, c j = 0 := by
  have hf : ∀ i ≤ N, d i * (c (i + 1) - c i) = d 0 * (c 1 - c 0) := by
    intro i
    induction i with
    | zero => intro _; rfl
    | succ i ih =>
      intro hi
      have := hA ⟨i, by omega⟩
      rw [h.row hM] at this
      have := ih (by omega)
      simp only at *
      linarith
  set F := d 0 * (c 1 - c 0)
  have hc : ∀ j ≤ N + 1, c j = F * ∑ i ∈ Finset.range j, (d i)⁻¹ := by
    intro j
    induction j with
    | zero => intro _; simp [h0]
    | succ j ih =>
      intro hj
      have h2 := hf j (by omega)
      have h3 := hd j (by omega)
      rw [Finset.sum_range_succ, mul_add, ← ih (by omega), ← h2]
      field_simp
      ring
  have hF : F = 0 := by
    have := hc (N + 1) le_rfl
    rw [h1] at this
    rcases mul_eq_zero.mp this.symm with h | h
    · exact h
    · exfalso
      have hpos : 0 < ∑ i ∈ Finset.range (N + 1), (d i)⁻¹ :=
        Finset.sum_pos (fun i hi => inv_pos.mpr (hd i (by simpa [Nat.lt_succ_iff] using hi))) (by simp)
      linarith
  intro j hj
  rw [hc j hj, hF, zero_mul]

/-- The rows that select the ends. -/
def endRows (M : ℕ) : Matrix (Fin 2) (Fin M) ℝ := fun i j =>
  if i = 0 then (if j.val = 0 then 1 else 0) else (if j.val + 1 = M then 1 else 0)

lemma endRows_row {M N : ℕ} (hM : M = N + 2) (c : ℕ → ℝ) :
    ∑ j, endRows M 0 j * c j = c 0 ∧ ∑ j, endRows M 1 j * c j = c (N + 1) := by
  constructor
  · simp only [endRows, if_true]
    rw [fin_sum_single (by omega), one_mul]
  · have : ∀ j : Fin M, endRows M 1 j = if j.val = N + 1 then 1 else 0 := by
      intro j
      show (if (1 : Fin 2) = 0 then _ else _) = _
      rw [if_neg (by decide)]
      exact if_congr (by omega) rfl rfl
    simp only [this]
    rw [fin_sum_single (by omega), one_mul]

/-- The ends and the second differences can be prescribed. -/
lemma Diff2.full {N M : ℕ} (hM : M = N + 2) {d : ℕ → ℝ} (hd : ∀ i ≤ N, 0 < d i) {A : Matrix (Fin N) (Fin M) ℝ} (h : Diff2 d A)
    {t : ℝ} (ht : t ≠ 0) : RowsIndep (Sum.elim (endRows M) (t • A)) := by
  let T : (Fin M → ℝ) →ₗ[ℝ] (Fin 2 ⊕ Fin N → ℝ) :=
    (Matrix.of (Sum.elim (endRows M) (t • A)) : Matrix (Fin 2 ⊕ Fin N) (Fin M) ℝ).mulVecLin
  have hinj : Function.Injective T := by
    rw [← LinearMap.ker_eq_bot, LinearMap.ker_eq_bot']
    intro c hc
    have key := h.inj hM hd (ext c) (by
      rw [← (endRows_row hM (ext c)).1]
      have : ∑ j, endRows M 0 j * c j = 0 := congrFun hc (.inl 0)
      simpa [ext_val] using this) (by
      rw [← (endRows_row hM (ext c)).2]
      have : ∑ j, endRows M 1 j * c j = 0 := congrFun hc (.inl 1)
      simpa [ext_val] using this) (by
      intro i
      have : ∑ j, (t • A) i j * c j = 0 := congrFun hc (.inr i)
      simp only [Matrix.smul_apply, smul_eq_mul, mul_assoc, ← Finset.mul_sum] at this
      simp only [ext_val]
      exact (mul_eq_zero.mp this).resolve_left ht)
    funext j
    rw [← ext_val c j]
    exact key j (by omega)
  have hsur : Function.Surjective T :=
    (LinearMap.injective_iff_surjective_of_finrank_eq_finrank (by simp; omega)).mp hinj
  intro b
  obtain ⟨c, hc⟩ := hsur b
  exact ⟨c, fun i => congrFun hc i⟩

lemma RowsIndep.right {ι ι' κ : Type} [Fintype ι] [Fintype ι'] [Fintype κ] {M : ι → κ → ℝ} {M' : ι' → κ → ℝ}
    (h : RowsIndep (Sum.elim M M')) : RowsIndep M' := fun b => by
  obtain ⟨c, hc⟩ := h (Sum.elim 0 b)
  exact ⟨c, fun i => hc (.inr i)⟩

lemma Diff2.full_inj {N M : ℕ} (hM : M = N + 2) {d : ℕ → ℝ} (hd : ∀ i ≤ N, 0 < d i) {A : Matrix (Fin N) (Fin M) ℝ} (h : Diff2 d A)
    {t : ℝ} (ht : t ≠ 0) {c c' : Fin M → ℝ} (h0 : ∀ i, ∑ j, endRows M i j * c j = ∑ j, endRows M i j * c' j)
    (h1 : ∀ i, ∑ j, (t • A) i j * c j = ∑ j, (t • A) i j * c' j) : c = c' := by
  have key := h.inj hM hd (fun j => ext c j - ext c' j) (by
      have := h0 0
      have a := (endRows_row hM (ext c)).1
      have b := (endRows_row hM (ext c')).1
      simp only [ext_val] at a b
      linarith) (by
      have := h0 1
      have a := (endRows_row hM (ext c)).2
      have b := (endRows_row hM (ext c')).2
      simp only [ext_val] at a b
      linarith) (by
      intro i
      have := h1 i
      simp only [Matrix.smul_apply, smul_eq_mul, mul_assoc, ← Finset.mul_sum] at this
      have := mul_left_cancel₀ ht this
      simp only [ext_val, mul_sub, Finset.sum_sub_distrib]
      linarith)
  funext j
  have := key j (by omega)
  simp only [ext_val] at this
  linarith

/-! ## The grid -/

lemma linspace_getD {l r : ℝ} {n c : ℕ} (h : c < n + 2) :
    (linspace l r (n + 2)).getD c 0 = l + c * ((r - l) / ((n : ℝ) + 1)) := by
  have hl : c < (linspace l r (n + 2)).length := by simpa [linspace] using h
  rw [List.getD_eq_getElem?_getD, List.getElem?_eq_getElem hl, Option.getD_some, linspace_get _ _ _ _ hl (by omega)]
  push_cast
  ring

lemma linspace_pairwise {l r : ℝ} (h : l < r) (n : ℕ) : (linspace l r (n + 2)).Pairwise (· < ·) := by
  rw [List.pairwise_iff_getElem]
  intro i j hi hj hij
  rw [linspace_get _ _ _ _ hi (by omega), linspace_get _ _ _ _ hj (by omega)]
  have h1 : (i : ℝ) < j := by exact_mod_cast hij
  have h2 : 0 < (r - l) / (((n + 2 : ℕ) : ℝ) - 1) := div_pos (by linarith) (by push_cast; linarith [Nat.cast_nonneg (α := ℝ) n])
  nlinarith

lemma linspace_length (l r : ℝ) (n : ℕ) : (linspace l r n).length = n := by simp [linspace]

/-! ## Second differences of solutions -/

open MeasureTheory in
/-- Twice integrating by parts on one cell. -/
lemma cell_rise {u u' w : ℝ → ℝ} {a b : ℝ} (hab : a < b) {s : Set ℝ} (hs : s.Countable) (hu : ContinuousOn u (Set.Icc a b))
    (hu' : ContinuousOn u' (Set.Icc a b)) (h1 : ∀ x ∈ Set.Ioo a b, HasDerivAt u (u' x) x)
    (h2 : ∀ x ∈ Set.Ioo a b \ s, HasDerivAt u' (w x) x) (hw : IntervalIntegrable w volume a b) :
    ∫ x in a..b, (x - a) / (b - a) * w x = u' b - (u b - u a) / (b - a) := by
  have hb : b - a ≠ 0 := by linarith
  have hc : ContinuousOn (fun x : ℝ => (x - a) / (b - a)) (Set.Icc a b) := by fun_prop
  have := MeasureTheory.integral_eq_of_hasDerivAt_off_countable_of_le
    (fun x => (x - a) / (b - a) * u' x - u x / (b - a)) (fun x => (x - a) / (b - a) * w x) hab.le hs
    ((hc.mul hu').sub (hu.div_const _)) (fun x hx => by
      have e1 : HasDerivAt (fun x => (x - a) / (b - a)) (1 / (b - a)) x := ((hasDerivAt_id x).sub_const a).div_const _
      refine ((e1.mul (h2 x hx)).sub ((h1 x hx.1).div_const (b - a))).congr_deriv ?_
      ring) (hw.continuousOn_mul (by rw [Set.uIcc_of_le hab.le]; exact hc))
  rw [this]
  field_simp
  ring

open MeasureTheory in
/-- The same with the falling weight. -/
lemma cell_fall {u u' w : ℝ → ℝ} {a b : ℝ} (hab : a < b) {s : Set ℝ} (hs : s.Countable) (hu : ContinuousOn u (Set.Icc a b))
    (hu' : ContinuousOn u' (Set.Icc a b)) (h1 : ∀ x ∈ Set.Ioo a b, HasDerivAt u (u' x) x)
    (h2 : ∀ x ∈ Set.Ioo a b \ s, HasDerivAt u' (w x) x) (hw : IntervalIntegrable w volume a b) :
    ∫ x in a..b, (b - x) / (b - a) * w x = (u b - u a) / (b - a) - u' a := by
  have hb : b - a ≠ 0 := by linarith
  have hc : ContinuousOn (fun x : ℝ => (b - x) / (b - a)) (Set.Icc a b) := by fun_prop
  have := MeasureTheory.integral_eq_of_hasDerivAt_off_countable_of_le
    (fun x => (b - x) / (b - a) * u' x + u x / (b - a)) (fun x => (b - x) / (b - a) * w x) hab.le hs
    ((hc.mul hu').add (hu.div_const _)) (fun x hx => by
      have e1 : HasDerivAt (fun x => (b - x) / (b - a)) (-1 / (b - a)) x := ((hasDerivAt_id x).const_sub b).div_const _
      refine ((e1.mul (h2 x hx)).add ((h1 x hx.1).div_const (b - a))).congr_deriv ?_
      ring) (hw.continuousOn_mul (by rw [Set.uIcc_of_le hab.le]; exact hc))
  rw [this]
  field_simp
  ring

end LinPDE.Solve
