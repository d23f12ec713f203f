import Verif.Func.Spec
import Mathlib.Tactic.SplitIfs

/-!
# Helper lemmas
-/

namespace LinPDE.Func
open LinPDE.Nd
variable {K : Type} [Ring K]

lemma headTo_append (b s : Shp) : headTo (b ++ s) s.length = b := by simp [headTo]

lemma tailFrom_append (b s : Shp) : tailFrom (b ++ s) s.length = s := by simp [tailFrom]

lemma zipWith_self_all : ∀ s : Shp, (List.zipWith (fun a b : ℕ => decide (a = 1 ∨ a = b)) s s).all id = true
  | [] => rfl
  | a :: s => by simp

lemma castsTo_append (b s : Shp) : castsTo s (b ++ s) = true := by
  rw [castsTo]
  simp

lemma checkIn_append (jx : Bool) (b s : Shp) : checkIn jx s (b ++ s) = true := by
  cases jx
  · simp [checkIn, tailFrom_append]
  · rw [checkIn, if_pos rfl, headTo_append]
    exact castsTo_append [] (b ++ s)

lemma bidx_fits : ∀ {s o : List ℕ}, Fits s o → List.zipWith (fun n j => if n = 1 then 0 else j) s o = o
  | [], [], _ => rfl
  | a :: s, j :: o, h => by
    rw [List.zipWith_cons_cons, bidx_fits h.2]
    congr 1
    have := h.1
    split_ifs with h1
    · omega
    · rfl
  | [], _ :: _, h => h.elim
  | _ :: _, [], h => h.elim

lemma bidx_append {s o : List ℕ} (i : List ℕ) (h : Fits s o) : bidx s (i ++ o) = o := by
  have hl := h.length
  rw [bidx, show (i ++ o).drop ((i ++ o).length - s.length) = o by simp [hl]]
  exact bidx_fits h

lemma bidx_self {s o : List ℕ} (h : Fits s o) : bidx s o = o := bidx_append [] h

lemma bidx_nil (i : List ℕ) : bidx [] i = [] := rfl

lemma bcastRev_append : ∀ s t : Shp, Coeff.bcastRev (s ++ t) s = some (s ++ t)
  | [], t => by cases t <;> simp [Coeff.bcastRev]
  | a :: s, t => by simp [Coeff.bcastRev, bcastRev_append s t]

lemma bcast_append (b s : Shp) : Coeff.bcast (b ++ s) s = some (b ++ s) := by
  simp [Coeff.bcast, bcastRev_append]

lemma bcastRev_nil (s : Shp) : Coeff.bcastRev [] s = some s := by cases s <;> simp [Coeff.bcastRev]

lemma bcast_nil_left (s : Shp) : Coeff.bcast [] s = some s := by simp [Coeff.bcast, bcastRev_nil]

lemma bcast_nil_right (s : Shp) : Coeff.bcast s [] = some s := by simpa using bcast_append s []

lemma fits_insertIdx : ∀ {s : Shp} {k n : ℕ} {o : List ℕ}, k ≤ s.length → Fits (s.insertIdx k n) o →
    o.getD k 0 < n ∧ Fits s (o.eraseIdx k)
  | s, 0, n, [], _, h => by simp [Fits] at h
  | s, 0, n, j :: o, _, h => by simpa [Fits] using h
  | [], k + 1, n, o, hk, h => by simp at hk
  | a :: s, k + 1, n, [], hk, h => by simp [Fits] at h
  | a :: s, k + 1, n, j :: o, hk, h => by
    rw [List.insertIdx_succ_cons] at h
    obtain ⟨h1, h2⟩ := fits_insertIdx (by simpa using hk) h.2
    exact ⟨by simpa using h1, by simpa [Fits] using ⟨h.1, h2⟩⟩

lemma insertIdx_append (b s : Shp) (k n : ℕ) : (b ++ s).insertIdx (b.length + k) n = b ++ s.insertIdx k n := by
  induction b with
  | nil => simp
  | cons a b ih => simpa [Nat.succ_add] using ih

lemma eraseIdx_append (i o : List ℕ) (k : ℕ) : (i ++ o).eraseIdx (i.length + k) = i ++ o.eraseIdx k := by
  rw [List.eraseIdx_append_of_length_le (by omega)]; simp

lemma getD_append (i o : List ℕ) (k : ℕ) : (i ++ o).getD (i.length + k) 0 = o.getD k 0 := by
  rw [List.getD_eq_getElem?_getD, List.getElem?_append_right (by omega), List.getD_eq_getElem?_getD]; simp

lemma normAxis_lt {axis : ℤ} {n k : ℕ} (h : normAxis axis n = .ok k) : k < n := by
  unfold normAxis at h
  split_ifs at h with h1 h2
  · injection h with h; omega
  · injection h with h; omega

lemma normAxis_shift {axis : ℤ} {n k : ℕ} (m : ℕ) (hm : m = 0 ∨ axis < 0) (h : normAxis axis n = .ok k) :
    normAxis axis (m + n) = .ok (m + k) := by
  unfold normAxis at h ⊢
  rcases hm with rfl | hm
  · simpa using h
  · split_ifs at h with h1 h2
    · omega
    · injection h with h
      rw [if_neg (by omega), if_pos (by push_cast; omega)]
      congr 1
      push_cast
      omega

lemma length_insert {s : Shp} {k n : ℕ} (h : k ≤ s.length) : (s.insertIdx k n).length = s.length + 1 :=
  List.length_insertIdx_of_le_length h n

lemma denAll_eq : ∀ fs : List (FE K), denAll fs = fs.map FE.den
  | [] => by simp [denAll]
  | f :: fs => by simp [denAll, denAll_eq fs]

end LinPDE.Func
