import Mathlib.Data.List.Basic
import Mathlib.Algebra.BigOperators.Group.List.Basic
import Mathlib.Tactic.Ring
import Mathlib.Tactic.Linarith

/-!
# Arrays with a shape (NumPy semantics used by the code)

An array is a shape and a function from multi-indices.  Only multi-indices that fit the shape are
meaningful.  `ravel`/`unravel` are the C-order enumeration used by `reshape(-1, order="C")`.
-/

namespace LinPDE.Nd

/-- A shape: the list of axis lengths. -/
abbrev Shp := List ℕ

/-- A multi-index fits a shape. -/
def Fits : Shp → List ℕ → Prop
  | [], [] => True
  | s :: ss, i :: is => i < s ∧ Fits ss is
  | _, _ => False

/-- C-order position of a multi-index. -/
def ravel : Shp → List ℕ → ℕ
  | _ :: ss, i :: is => i * ss.prod + ravel ss is
  | _, _ => 0

/-- Multi-index at a C-order position. -/
def unravel : Shp → ℕ → List ℕ
  | [], _ => []
  | _ :: ss, n => (n / ss.prod) :: unravel ss (n % ss.prod)

/-- An array. -/
structure Arr (α : Type) where
  shape : Shp
  get : List ℕ → α

variable {α : Type}

/-- `a.reshape(new, order="C")`. -/
def Arr.reshape (a : Arr α) (new : Shp) : Option (Arr α) :=
  if new.prod = a.shape.prod then some ⟨new, fun idx => a.get (unravel a.shape (ravel new idx))⟩ else none

/-- `a.reshape(-1, order="C")` as a list. -/
def Arr.flatten (a : Arr α) : List α := (List.range a.shape.prod).map fun n => a.get (unravel a.shape n)

/-- `np.moveaxis(a, -k + arange(k), arange(k))`: move the last `k` axes to the front. -/
def Arr.lastToFront (a : Arr α) (k : ℕ) : Arr α where
  shape := a.shape.drop (a.shape.length - k) ++ a.shape.take (a.shape.length - k)
  get idx := a.get (idx.drop k ++ idx.take k)

/-! ### Lemmas -/

lemma Fits.length : ∀ {s : Shp} {i : List ℕ}, Fits s i → i.length = s.length
  | [], [], _ => rfl
  | _ :: _, _ :: _, h => by simp [Fits.length h.2]
  | [], _ :: _, h => h.elim
  | _ :: _, [], h => h.elim

lemma fits_append : ∀ {s t : Shp} {i j : List ℕ}, i.length = s.length →
    (Fits (s ++ t) (i ++ j) ↔ Fits s i ∧ Fits t j)
  | [], t, [], j, _ => by simp [Fits]
  | s :: ss, t, i :: is, j, h => by
    have := fits_append (s := ss) (t := t) (i := is) (j := j) (by simpa using h)
    simp [Fits, this, and_assoc]
  | [], t, i :: is, j, h => by simp at h
  | s :: ss, t, [], j, h => by simp at h

lemma ravel_lt : ∀ {s : Shp} {i : List ℕ}, Fits s i → ravel s i < s.prod
  | [], [], _ => by simp [ravel]
  | s :: ss, i :: is, h => by
    have h1 := ravel_lt h.2
    have h2 := h.1
    rw [ravel, List.prod_cons]
    calc i * ss.prod + ravel ss is < i * ss.prod + ss.prod := by omega
      _ = (i + 1) * ss.prod := by ring
      _ ≤ s * ss.prod := Nat.mul_le_mul_right _ h2
  | [], _ :: _, h => h.elim
  | _ :: _, [], h => h.elim

lemma unravel_ravel : ∀ {s : Shp} {i : List ℕ}, Fits s i → unravel s (ravel s i) = i
  | [], [], _ => rfl
  | s :: ss, i :: is, h => by
    have h1 := ravel_lt h.2
    have hpos : 0 < ss.prod := by omega
    rw [ravel, unravel]
    congr 1
    · rw [Nat.mul_comm, Nat.mul_add_div hpos, Nat.div_eq_of_lt h1, Nat.add_zero]
    · rw [Nat.mul_comm, Nat.mul_add_mod, Nat.mod_eq_of_lt h1, unravel_ravel h.2]
  | [], _ :: _, h => h.elim
  | _ :: _, [], h => h.elim

lemma fits_unravel : ∀ {s : Shp} {n : ℕ}, n < s.prod → Fits s (unravel s n)
  | [], n, _ => trivial
  | s :: ss, n, h => by
    rw [List.prod_cons] at h
    have hpos : 0 < ss.prod := by
      rcases Nat.eq_zero_or_pos ss.prod with h0 | h0
      · rw [h0] at h; simp at h
      · exact h0
    refine ⟨?_, fits_unravel (Nat.mod_lt _ hpos)⟩
    exact (Nat.div_lt_iff_lt_mul hpos).mpr h

lemma ravel_unravel : ∀ {s : Shp} {n : ℕ}, n < s.prod → ravel s (unravel s n) = n
  | [], n, h => by simp at h; simp [ravel, h]
  | s :: ss, n, h => by
    rw [List.prod_cons] at h
    have hpos : 0 < ss.prod := by
      rcases Nat.eq_zero_or_pos ss.prod with h0 | h0
      · rw [h0] at h; simp at h
      · exact h0
    rw [unravel, ravel, ravel_unravel (Nat.mod_lt _ hpos)]
    rw [Nat.mul_comm]; exact Nat.div_add_mod n ss.prod

lemma ravel_append : ∀ {s t : Shp} {i j : List ℕ}, i.length = s.length →
    ravel (s ++ t) (i ++ j) = ravel s i * t.prod + ravel t j
  | [], t, [], j, _ => by simp [ravel]
  | s :: ss, t, i :: is, j, h => by
    have := ravel_append (s := ss) (t := t) (i := is) (j := j) (by simpa using h)
    simp only [List.cons_append, ravel, this, List.prod_append]
    ring
  | [], t, i :: is, j, h => by simp at h
  | s :: ss, t, [], j, h => by simp at h

lemma Arr.flatten_getElem? (a : Arr α) {i : List ℕ} (h : Fits a.shape i) :
    a.flatten[ravel a.shape i]? = some (a.get i) := by
  rw [Arr.flatten, List.getElem?_map, List.getElem?_range (ravel_lt h), Option.map_some, unravel_ravel h]

lemma Arr.flatten_length (a : Arr α) : a.flatten.length = a.shape.prod := by simp [Arr.flatten]

end LinPDE.Nd
