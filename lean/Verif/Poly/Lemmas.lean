import Verif.Poly.Model
import Mathlib.Algebra.Polynomial.Basic
import Mathlib.Algebra.Polynomial.Derivative
import Mathlib.Algebra.Polynomial.Eval.Degree
import Mathlib.Algebra.Polynomial.Div
import Mathlib.Tactic.Ring
import Mathlib.Tactic.Linarith
import Mathlib.Tactic.FieldSimp

/-! Helper lemmas about the polynomial model. -/

namespace LinPDE.Polys
open Polynomial

variable {K : Type}

/-- Specification: the polynomial `∑ cᵢ Xⁱ` denoted by a coefficient tuple. -/
noncomputable def Poly.toPoly [Semiring K] (p : Poly K) : K[X] :=
  ∑ i ∈ Finset.range p.coeffs.length, C (p.coeffs.getD i 0) * X ^ i

/-- Same for raw lists (used for intermediate values). -/
noncomputable def listPoly [Semiring K] (l : List K) : K[X] :=
  ∑ i ∈ Finset.range l.length, C (l.getD i 0) * X ^ i

lemma coeff_listPoly [Semiring K] (l : List K) (n : ℕ) : (listPoly l).coeff n = l.getD n 0 := by
  unfold listPoly
  simp only [finsetSum_coeff, coeff_C_mul, coeff_X_pow]
  simp only [mul_ite, mul_one, mul_zero, Finset.sum_ite_eq, Finset.mem_range]
  split
  · rfl
  · rename_i h
    simp [List.getD_eq_getElem?_getD, not_lt.mp h]

lemma toPoly_eq [Semiring K] (p : Poly K) : p.toPoly = listPoly p.coeffs := rfl

lemma coeff_toPoly [Semiring K] (p : Poly K) (n : ℕ) : p.toPoly.coeff n = p.coeffs.getD n 0 :=
  coeff_listPoly _ _

lemma listPoly_nil [Semiring K] : listPoly ([] : List K) = 0 := by simp [listPoly]

lemma listPoly_cons [Semiring K] (a : K) (l : List K) :
    listPoly (a :: l) = C a + listPoly l * X := by
  ext n
  rw [coeff_listPoly]
  cases n with
  | zero => simp [coeff_zero_eq_eval_zero]
  | succ n => simp [coeff_listPoly]

lemma toPoly_ofCoeffs [Semiring K] (l : List K) : (Poly.ofCoeffs l).toPoly = listPoly l := by
  cases l with
  | nil => simp [Poly.ofCoeffs, toPoly_eq, listPoly]
  | cons a l => rfl

lemma coeff_ofCoeffs [Semiring K] (l : List K) (n : ℕ) :
    (Poly.ofCoeffs l).toPoly.coeff n = l.getD n 0 := by
  rw [toPoly_ofCoeffs, coeff_listPoly]

lemma length_pos (p : Poly K) : 0 < p.coeffs.length := List.length_pos_of_ne_nil p.ne

lemma length_eq (p : Poly K) : p.coeffs.length = p.degree + 1 := by
  have := length_pos p; unfold Poly.degree; omega

lemma coeffs_ofCoeffs_of_ne [Zero K] (l : List K) (h : l ≠ []) : (Poly.ofCoeffs l).coeffs = l := by
  cases l with
  | nil => exact absurd rfl h
  | cons a l => rfl

lemma natDegree_toPoly_le [Semiring K] (p : Poly K) : p.toPoly.natDegree ≤ p.degree := by
  rw [natDegree_le_iff_coeff_eq_zero]
  intro n hn
  have h : p.coeffs.length ≤ n := by rw [length_eq]; omega
  simp [coeff_toPoly, List.getD_eq_getElem?_getD, h]

lemma getD_map0 [Zero K] (l : List K) (f : K → K) (hf : f 0 = 0) (n : ℕ) :
    (l.map f).getD n 0 = f (l.getD n 0) := by
  by_cases h : n < l.length
  · simp [List.getD_eq_getElem?_getD, h]
  · simp [List.getD_eq_getElem?_getD, not_lt.mp h, hf]

lemma zipLongest_getD [Zero K] (f : K → K → K) (hf : f 0 0 = 0) (a b : List K) (n : ℕ) :
    (zipLongest f a b).getD n 0 = f (a.getD n 0) (b.getD n 0) := by
  fun_induction zipLongest f a b generalizing n with
  | case1 b => simp only [List.getD_nil]; rw [getD_map0 b (f 0) hf]
  | case2 a as => rw [List.getD_nil, getD_map0 (a :: as) (f · 0) hf]
  | case3 a as b bs ih => cases n with
    | zero => simp
    | succ n => simpa using ih n

lemma zipLongest_length [Zero K] (f : K → K → K) (a b : List K) :
    (zipLongest f a b).length = max a.length b.length := by
  fun_induction zipLongest f a b <;> simp_all

lemma foldl_horner [CommSemiring K] (x : K) (l : List K) (init : K) :
    l.reverse.foldl (fun res c => res * x + c) init = (listPoly (l ++ [init])).eval x := by
  induction l with
  | nil => simp [listPoly_cons, listPoly_nil]
  | cons a l ih =>
    simp only [List.reverse_cons, List.foldl_append, List.foldl_cons, List.foldl_nil, ih,
      List.cons_append, listPoly_cons, eval_add, eval_C, eval_mul, eval_X]
    ring

lemma getD_mapIdx [Zero K] (l : List K) (f : ℕ → K → K) (hf : ∀ n, f n 0 = 0) (n : ℕ) :
    (l.mapIdx f).getD n 0 = f n (l.getD n 0) := by
  by_cases h : n < l.length
  · simp [List.getD_eq_getElem?_getD, h]
  · simp [List.getD_eq_getElem?_getD, not_lt.mp h, hf]

end LinPDE.Polys
