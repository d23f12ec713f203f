import Verif.Grid.Model
import Mathlib.Algebra.BigOperators.Ring.Finset
import Mathlib.Algebra.BigOperators.Intervals
import Mathlib.Tactic.Ring

/-! Helper lemmas for grids of blocks. -/

namespace LinPDE.Grid
variable {K : Type} [CommRing K]

/-- Position of the first row of block `p` for a list of heights. -/
def off (l : List ℕ) (p : ℕ) : ℕ := (l.take p).sum

@[simp] lemma off_zero (l : List ℕ) : off l 0 = 0 := by simp [off]
@[simp] lemma off_cons_succ (a : ℕ) (l : List ℕ) (p : ℕ) : off (a :: l) (p + 1) = a + off l p := by
  simp [off]

/-- Every position inside the total lies in exactly one block. -/
lemma exists_off : ∀ (l : List ℕ) (i : ℕ), i < l.sum →
    ∃ p, ∃ hp : p < l.length, ∃ r, r < l[p] ∧ i = off l p + r
  | [], i, h => by simp at h
  | a :: l, i, h => by
    by_cases hi : i < a
    · exact ⟨0, by simp, i, by simpa using hi, by simp⟩
    · obtain ⟨p, hp, r, hr, he⟩ := exists_off l (i - a) (by simp at h; omega)
      exact ⟨p + 1, by simpa using hp, r, by simpa using hr, by simp; omega⟩

lemma off_lt : ∀ (l : List ℕ) (p : ℕ) (hp : p < l.length) (r : ℕ), r < l[p] → off l p + r < l.sum
  | [], p, hp, r, hr => by simp at hp
  | a :: l, 0, hp, r, hr => by simp at hr ⊢; omega
  | a :: l, p + 1, hp, r, hr => by
    have := off_lt l p (by simpa using hp) r (by simpa using hr)
    simp; omega

lemma mapM_ok {α β : Type} (f : α → Except Err β) (g : α → β) :
    ∀ l : List α, (∀ x ∈ l, f x = .ok (g x)) → l.mapM f = .ok (l.map g)
  | [], _ => rfl
  | a :: l, h => by
    rw [List.mapM_cons, h a (by simp), mapM_ok f g l (fun x hx => h x (by simp [hx]))]
    rfl

lemma vcatL_rows : ∀ l : List (Mat K), (vcatL l).rows = (l.map Mat.rows).sum
  | [] => rfl
  | A :: l => by simp [vcatL, vcat, vcatL_rows l]

lemma hcatL_cols : ∀ l : List (Mat K), (hcatL l).cols = (l.map Mat.cols).sum
  | [] => rfl
  | A :: l => by simp [hcatL, hcat, hcatL_cols l]

lemma vcatL_entry : ∀ (l : List (Mat K)) (p : ℕ) (hp : p < l.length) (r : ℕ), r < l[p].rows → ∀ j,
    (vcatL l).entry (off (l.map Mat.rows) p + r) j = l[p].entry r j
  | [], p, hp, r, hr, j => by simp at hp
  | A :: l, 0, hp, r, hr, j => by
    simp only [List.getElem_cons_zero] at hr
    simp [vcatL, vcat, hr]
  | A :: l, p + 1, hp, r, hr, j => by
    have := vcatL_entry l p (by simpa using hp) r (by simpa using hr) j
    simp only [vcatL, vcat, List.map_cons, off_cons_succ, List.getElem_cons_succ]
    rw [if_neg (by omega), ← this]
    congr 1; omega

lemma hcatL_entry : ∀ (l : List (Mat K)) (q : ℕ) (hq : q < l.length) (c : ℕ), c < l[q].cols → ∀ i,
    (hcatL l).entry i (off (l.map Mat.cols) q + c) = l[q].entry i c
  | [], p, hp, r, hr, j => by simp at hp
  | A :: l, 0, hp, r, hr, j => by
    simp only [List.getElem_cons_zero] at hr
    simp [hcatL, hcat, hr]
  | A :: l, p + 1, hp, r, hr, j => by
    have := hcatL_entry l p (by simpa using hp) r (by simpa using hr) j
    simp only [hcatL, hcat, List.map_cons, off_cons_succ, List.getElem_cons_succ]
    rw [if_neg (by omega), ← this]
    congr 1; omega

/-- The pieces of `np.split` at the cumulative widths. -/
def pieces (x : Mat K) (a : ℕ) : List ℕ → List (Mat K)
  | [] => []
  | w :: ws => ⟨w, x.cols, fun i j => x.entry (a + i) j⟩ :: pieces x (a + w) ws

omit [CommRing K] in
lemma npSplit_eq (x : Mat K) : ∀ (ws : List ℕ) (a : ℕ), ws ≠ [] → a + ws.sum = x.rows →
    npSplit x a (cumsum a ws).dropLast = pieces x a ws
  | [], a, h, _ => absurd rfl h
  | [w], a, _, h => by
    simp only [cumsum, List.dropLast_singleton, npSplit, Mat.slice, pieces, List.cons.injEq, and_true]
    simp only [List.sum_cons, List.sum_nil, add_zero] at h
    congr 1; omega
  | w :: w' :: ws, a, _, h => by
    have ih := npSplit_eq x (w' :: ws) (a + w) (by simp) (by simp at h ⊢; omega)
    simp only [cumsum] at ih ⊢
    rw [List.dropLast_cons_of_ne_nil (by simp), npSplit, ih, pieces]
    congr 1
    simp only [Mat.slice, Mat.mk.injEq, and_true]
    simp at h
    omega

lemma sumL_rows (h w : ℕ) (l : List (Mat K)) : (sumL h w l).rows = h := by cases l <;> rfl
lemma sumL_cols (h w : ℕ) (l : List (Mat K)) : (sumL h w l).cols = w := by cases l <;> rfl

omit [CommRing K] in
lemma pieces_length (x : Mat K) : ∀ (ws : List ℕ) (a : ℕ), (pieces x a ws).length = ws.length
  | [], _ => rfl
  | w :: ws, a => by simp [pieces, pieces_length x ws]

/-- The sum of the block products of one row is the product with the glued row. -/
lemma sumL_zip (x : Mat K) (h w : ℕ) (i j : ℕ) : ∀ (row : List (Mat K)) (a : ℕ),
    (sumL h w ((row.zip (pieces x a (row.map Mat.cols))).map fun p => p.1.mulSpec p.2)).entry i j =
      ∑ k ∈ Finset.range (hcatL row).cols, (hcatL row).entry i k * x.entry (a + k) j
  | [], a => by simp [sumL, hcatL]
  | A :: l, a => by
    simp only [List.map_cons, pieces, List.zip_cons_cons, sumL]
    rw [sumL_zip x h w i j l (a + A.cols)]
    simp only [hcatL, hcat, Mat.mulSpec]
    rw [Finset.sum_range_add]
    congr 1
    · exact Finset.sum_congr rfl fun k hk => by rw [if_pos (Finset.mem_range.mp hk)]
    · refine Finset.sum_congr rfl fun k _ => ?_
      rw [if_neg (by omega), Nat.add_sub_cancel_left, Nat.add_assoc]

lemma mapM_zip_matmul (x : Mat K) : ∀ (row : List (Mat K)) (a : ℕ),
    ((row.zip (pieces x a (row.map Mat.cols))).mapM fun p => p.1.matmul p.2) =
      .ok ((row.zip (pieces x a (row.map Mat.cols))).map fun p => p.1.mulSpec p.2)
  | [], a => rfl
  | A :: l, a => by
    simp only [List.map_cons, pieces, List.zip_cons_cons]
    rw [List.mapM_cons, mapM_zip_matmul x l (a + A.cols)]
    simp only [Mat.matmul, if_true]
    rfl

lemma zip_pieces_shape (x : Mat K) (h : ℕ) : ∀ (row : List (Mat K)) (a : ℕ), (∀ A ∈ row, A.rows = h) →
    ∀ B ∈ (row.zip (pieces x a (row.map Mat.cols))).map (fun p => p.1.mulSpec p.2),
      B.rows = h ∧ B.cols = x.cols
  | [], a, _, B, hB => by simp [pieces] at hB
  | A :: l, a, hr, B, hB => by
    simp only [List.map_cons, pieces, List.zip_cons_cons, List.mem_cons] at hB
    rcases hB with rfl | hB
    · exact ⟨hr A (by simp), rfl⟩
    · exact zip_pieces_shape x h l (a + A.cols) (fun A hA => hr A (by simp [hA])) B hB

/-- One row of the block matmul. -/
lemma rowResult_eq (x : Mat K) (row : List (Mat K)) (hne : row ≠ []) (h : ℕ) (hr : ∀ A ∈ row, A.rows = h)
    (a : ℕ) :
    rowResult row (pieces x a (row.map Mat.cols)) = .ok (sumL h x.cols
      ((row.zip (pieces x a (row.map Mat.cols))).map fun p => p.1.mulSpec p.2)) := by
  rw [rowResult, mapM_zip_matmul]
  show npSum _ = _
  have hs := zip_pieces_shape x h row a hr
  cases row with
  | nil => exact absurd rfl hne
  | cons A l =>
    simp only [List.map_cons, pieces, List.zip_cons_cons] at hs ⊢
    have h0 := hs _ List.mem_cons_self
    rw [npSum, if_pos, h0.1, h0.2]
    rw [List.all_eq_true]
    intro B hB
    have h1 := hs B (by simp only [List.mem_cons]; exact Or.inr hB)
    simp only [Bool.and_eq_true, beq_iff_eq]
    exact ⟨h1.1.trans h0.1.symm, h1.2.trans h0.2.symm⟩

/-- Vertical stacking commutes with a row-wise description of the entries. -/
lemma vcatL_map_entry {α : Type} (f g : α → Mat K) (R : (ℕ → K) → (ℕ → K) → Prop) :
    ∀ l : List α, (∀ x ∈ l, (f x).rows = (g x).rows) →
      (∀ x ∈ l, ∀ i < (f x).rows, R ((f x).entry i) ((g x).entry i)) →
      ∀ i < (vcatL (l.map f)).rows, R ((vcatL (l.map f)).entry i) ((vcatL (l.map g)).entry i)
  | [], _, _, i, hi => by simp [vcatL] at hi
  | x :: l, hr, hR, i, hi => by
    have hx := hr x (by simp)
    simp only [List.map_cons, vcatL, vcat] at hi ⊢
    by_cases h : i < (f x).rows
    · have h' : i < (g x).rows := hx ▸ h
      simp only [h, h', if_true]
      exact hR x (by simp) i h
    · have h' : ¬ i < (g x).rows := hx ▸ h
      simp only [h, h', if_false]
      rw [← hx]
      exact vcatL_map_entry f g R l (fun x hx => hr x (by simp [hx]))
        (fun x hx => hR x (by simp [hx])) _ (by omega)

lemma concatRows_ok (l : List (Mat K)) (hne : l ≠ []) (w : ℕ) (h : ∀ A ∈ l, A.cols = w) :
    concatRows l = .ok (vcatL l) ∧ (vcatL l).cols = w := by
  cases l with
  | nil => exact absurd rfl hne
  | cons A l =>
    constructor
    · rw [concatRows, if_pos]
      rw [List.all_eq_true]
      intro B hB
      simp [h A (by simp), h B (by simp [hB])]
    · exact h A (by simp)

lemma concatCols_ok (l : List (Mat K)) (hne : l ≠ []) (w : ℕ) (h : ∀ A ∈ l, A.rows = w) :
    concatCols l = .ok (hcatL l) ∧ (hcatL l).rows = w := by
  cases l with
  | nil => exact absurd rfl hne
  | cons A l =>
    constructor
    · rw [concatCols, if_pos]
      rw [List.all_eq_true]
      intro B hB
      simp [h A (by simp), h B (by simp [hB])]
    · exact h A (by simp)

end LinPDE.Grid
