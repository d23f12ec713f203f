import Verif.Rounding.FactorModel
import Verif.Rounding.Update

/-!
# C87: block factorisations and block solves in floating point
-/

namespace LinPDE.Rounding
open Finset Matrix LinPDE.GP LinPDE.Block

variable {F : Fmt} {lib : Lib} {tr : Orders} {e : Env}

/-- The blocks that the construction branch promises to be zero are zero. -/
def Zeros : {s : Shape} → Op s → Prop
  | _, .dense _ _ => True
  | _, .block (.blockDiag _) A B C D => B = 0 ∧ C = 0 ∧ Zeros A ∧ Zeros D
  | _, .block .lower A B _ D => B = 0 ∧ Zeros A ∧ Zeros D
  | _, .block .upper A _ C D => C = 0 ∧ Zeros A ∧ Zeros D
  | _, .block _ _ _ _ _ => True

lemma rhs_err {α β : Type} [Fintype α] {t : Option (Tree α)} (ht : FullOpt t) (C : Matrix β α ℝ) (y : α → ℝ) (v : β → ℝ) (i : β) :
    |updRhs F t C y v i - (v i - (C *ᵥ y) i)| ≤ gam F (Fintype.card α + 1) * (|v i| + ∑ j, |C i j| * |y j|) :=
  sumFl_sub ht (v i) (fun j => C i j) y

lemma lower_res {α β : Type} [Fintype α] [Fintype β] {A : Matrix α α ℝ} {C : Matrix β α ℝ} {D : Matrix β β ℝ} {y0 : α → ℝ} {y1 : β → ℝ} {b0 : α → ℝ} {b1 r1 : β → ℝ}
    {E0 : α → ℝ} {E1 G : β → ℝ} (h0 : ∀ i, |(A *ᵥ y0) i - b0 i| ≤ E0 i) (h1 : ∀ i, |(D *ᵥ y1) i - r1 i| ≤ E1 i)
    (hr : ∀ i, |r1 i - (b1 i - (C *ᵥ y0) i)| ≤ G i) (i : α ⊕ β) :
    |(fromBlocks A 0 C D *ᵥ Sum.elim y0 y1) i - Sum.elim b0 b1 i| ≤ Sum.elim E0 (fun i => E1 i + G i) i := by
  rw [fromBlocks_mulVec]
  rcases i with i | i
  · simpa using h0 i
  · have := h1 i
    have h2 := hr i
    have e1 : (C *ᵥ y0 + D *ᵥ y1) i - b1 i = ((D *ᵥ y1) i - r1 i) + (r1 i - (b1 i - (C *ᵥ y0) i)) := by
      simp only [Pi.add_apply]; ring
    simp only [Sum.elim_inr, Sum.elim_comp_inl, Sum.elim_comp_inr]
    rw [e1]
    exact (abs_add_le _ _).trans (add_le_add this h2)

lemma upper_res {α β : Type} [Fintype α] [Fintype β] {A : Matrix α α ℝ} {B : Matrix α β ℝ} {D : Matrix β β ℝ} {y0 : α → ℝ} {y1 : β → ℝ} {b0 r0 : α → ℝ} {b1 : β → ℝ}
    {E0 G : α → ℝ} {E1 : β → ℝ} (h0 : ∀ i, |(A *ᵥ y0) i - r0 i| ≤ E0 i) (h1 : ∀ i, |(D *ᵥ y1) i - b1 i| ≤ E1 i)
    (hr : ∀ i, |r0 i - (b0 i - (B *ᵥ y1) i)| ≤ G i) (i : α ⊕ β) :
    |(fromBlocks A B 0 D *ᵥ Sum.elim y0 y1) i - Sum.elim b0 b1 i| ≤ Sum.elim (fun i => E0 i + G i) E1 i := by
  rw [fromBlocks_mulVec]
  rcases i with i | i
  · have := h0 i
    have h2 := hr i
    have e1 : (A *ᵥ y0 + B *ᵥ y1) i - b0 i = ((A *ᵥ y0) i - r0 i) + (r0 i - (b0 i - (B *ᵥ y1) i)) := by
      simp only [Pi.add_apply]; ring
    simp only [Sum.elim_inl, Sum.elim_comp_inl, Sum.elim_comp_inr]
    rw [e1]
    exact (abs_add_le _ _).trans (add_le_add this h2)
  · simpa using h1 i

lemma diag_res {α β : Type} [Fintype α] [Fintype β] {A : Matrix α α ℝ} {D : Matrix β β ℝ} {y0 : α → ℝ} {y1 : β → ℝ} {b0 : α → ℝ} {b1 : β → ℝ}
    {E0 : α → ℝ} {E1 : β → ℝ} (h0 : ∀ i, |(A *ᵥ y0) i - b0 i| ≤ E0 i) (h1 : ∀ i, |(D *ᵥ y1) i - b1 i| ≤ E1 i) (i : α ⊕ β) :
    |(fromBlocks A 0 0 D *ᵥ Sum.elim y0 y1) i - Sum.elim b0 b1 i| ≤ Sum.elim E0 E1 i := by
  rw [fromBlocks_mulVec]
  rcases i with i | i
  · simpa using h0 i
  · simpa using h1 i

section
variable {a c : Shape} (A : Op a) (B : Matrix a.Idx c.Idx ℝ) (C : Matrix c.Idx a.Idx ℝ) (D : Op c) (b : (Shape.node a c).Idx → ℝ)

lemma nsFl_lower (h : e.blockTriangularSolves = true) : nsFl F lib tr e (.block .lower A B C D) b =
    Sum.elim (nsFl F lib tr e A fun i => b (.inl i)) (nsFl F lib tr e D (updRhs F (tr a) C (nsFl F lib tr e A fun i => b (.inl i)) fun i => b (.inr i))) := by
  exact if_pos h

lemma nsFl_lower' (h : ¬e.blockTriangularSolves = true) : nsFl F lib tr e (.block .lower A B C D) b =
    lib.solve (.node a c) (fromBlocks A.toMat B C D.toMat) { lower := true } b := by
  exact if_neg h

lemma nsErr_lower (h : e.blockTriangularSolves = true) : nsErr F lib tr e (.block .lower A B C D) b =
    Sum.elim (nsErr F lib tr e A fun i => b (.inl i)) fun i =>
      nsErr F lib tr e D (updRhs F (tr a) C (nsFl F lib tr e A fun i => b (.inl i)) fun i => b (.inr i)) i +
        gam F (Fintype.card a.Idx + 1) * (|b (.inr i)| + ∑ j, |C i j| * |nsFl F lib tr e A (fun i => b (.inl i)) j|) := by
  exact if_pos h

lemma nsErr_lower' (h : ¬e.blockTriangularSolves = true) : nsErr F lib tr e (.block .lower A B C D) b =
    fun i => |(fromBlocks A.toMat B C D.toMat *ᵥ lib.solve (.node a c) (fromBlocks A.toMat B C D.toMat) { lower := true } b) i - b i| := by
  exact if_neg h

lemma nsFl_upper (h : e.blockTriangularSolves = true) : nsFl F lib tr e (.block .upper A B C D) b =
    Sum.elim (nsFl F lib tr e A (updRhs F (tr c) B (nsFl F lib tr e D fun i => b (.inr i)) fun i => b (.inl i))) (nsFl F lib tr e D fun i => b (.inr i)) := by
  exact if_pos h

lemma nsFl_upper' (h : ¬e.blockTriangularSolves = true) : nsFl F lib tr e (.block .upper A B C D) b =
    lib.solve (.node a c) (fromBlocks A.toMat B C D.toMat) { upper := true } b := by
  exact if_neg h

lemma nsErr_upper (h : e.blockTriangularSolves = true) : nsErr F lib tr e (.block .upper A B C D) b =
    Sum.elim (fun i => nsErr F lib tr e A (updRhs F (tr c) B (nsFl F lib tr e D fun i => b (.inr i)) fun i => b (.inl i)) i +
      gam F (Fintype.card c.Idx + 1) * (|b (.inl i)| + ∑ j, |B i j| * |nsFl F lib tr e D (fun i => b (.inr i)) j|)) (nsErr F lib tr e D fun i => b (.inr i)) := by
  exact if_pos h

lemma nsErr_upper' (h : ¬e.blockTriangularSolves = true) : nsErr F lib tr e (.block .upper A B C D) b =
    fun i => |(fromBlocks A.toMat B C D.toMat *ᵥ lib.solve (.node a c) (fromBlocks A.toMat B C D.toMat) { upper := true } b) i - b i| := by
  exact if_neg h

end

lemma elim_split {α β : Type} (b : α ⊕ β → ℝ) : b = Sum.elim (fun i => b (.inl i)) (fun i => b (.inr i)) := by
  funext i; rcases i with i | i <;> rfl

/-- C87: solves with triangular and block-diagonal operators of any nesting. -/
theorem ns_residual (htr : ∀ s, FullOpt (tr s)) : ∀ {s : Shape} (op : Op s), Zeros op → ∀ (b : s.Idx → ℝ) (i : s.Idx),
    |(op.toMat *ᵥ nsFl F lib tr e op b) i - b i| ≤ nsErr F lib tr e op b i := by
  intro s op
  induction op with
  | dense M f => exact fun _ b i => le_rfl
  | @block a c k A B C D ihA ihD =>
    intro hz b i
    cases k with
    | blockDiag sy =>
      obtain ⟨rfl, rfl, hA, hD⟩ := hz
      have := diag_res (ihA hA fun i => b (.inl i)) (ihD hD fun i => b (.inr i)) i
      refine le_trans (le_of_eq (congrArg (fun t => |_ - t|) (congrFun (elim_split (α := a.Idx) (β := c.Idx) b) i))) ?_
      exact this
    | spd => exact le_rfl
    | general => exact le_rfl
    | lower =>
      obtain ⟨rfl, hA, hD⟩ := hz
      by_cases hb : e.blockTriangularSolves = true
      · rw [nsFl_lower A 0 C D b hb, nsErr_lower A 0 C D b hb]
        have := lower_res (ihA hA fun i => b (.inl i)) (ihD hD _) (rhs_err (F := F) (htr a) C (nsFl F lib tr e A fun i => b (.inl i)) fun i => b (.inr i)) i
        refine le_trans (le_of_eq (congrArg (fun t => |_ - t|) (congrFun (elim_split (α := a.Idx) (β := c.Idx) b) i))) ?_
        exact this
      · rw [nsFl_lower' A 0 C D b hb, nsErr_lower' A 0 C D b hb]
        exact le_rfl
    | upper =>
      obtain ⟨rfl, hA, hD⟩ := hz
      by_cases hb : e.blockTriangularSolves = true
      · rw [nsFl_upper A B 0 D b hb, nsErr_upper A B 0 D b hb]
        have := upper_res (ihA hA _) (ihD hD fun i => b (.inr i)) (rhs_err (F := F) (htr c) B (nsFl F lib tr e D fun i => b (.inr i)) fun i => b (.inl i)) i
        refine le_trans (le_of_eq (congrArg (fun t => |_ - t|) (congrFun (elim_split (α := a.Idx) (β := c.Idx) b) i))) ?_
        exact this
      · rw [nsFl_upper' A B 0 D b hb, nsErr_upper' A B 0 D b hb]
        exact le_rfl

lemma zeros_transpose : ∀ {s : Shape} (op : Op s), Zeros op → Zeros (op.transpose e) := by
  intro s op
  induction op with
  | dense M f => exact fun _ => trivial
  | @block a c k A B C D ihA ihD =>
    intro hz
    cases k with
    | blockDiag sy => exact trivial
    | spd => exact trivial
    | general => exact trivial
    | lower =>
      obtain ⟨rfl, hA, hD⟩ := hz
      simp only [Op.transpose]
      split_ifs
      · exact ⟨rfl, ihA hA, ihD hD⟩
      · exact trivial
    | upper =>
      obtain ⟨rfl, hA, hD⟩ := hz
      simp only [Op.transpose]
      split_ifs
      · exact ⟨rfl, ihA hA, ihD hD⟩
      · exact trivial

/-- C87: the block Cholesky factorisation succeeds, returns a lower triangular operator, and `L Lᵀ` differs from the matrix by at most the errors of
the dense factorisations, of the triangular solves and of the Schur complements. -/
theorem chol_backward (htr : ∀ s, FullOpt (tr s)) : ∀ {s : Shape} (op : Op s), op.Spd →
    ∃ L, cholFl F lib tr e op = .ok L ∧ L.flags.lower = true ∧ Zeros L ∧ ∀ i j, |(L.toMat * L.toMatᵀ) i j - op.toMat i j| ≤ cholErr F lib tr e op i j := by
  intro s op
  induction op with
  | dense M f => exact fun _ => ⟨_, rfl, rfl, trivial, fun i j => le_rfl⟩
  | @block a c k A B C D ihA ihD =>
    rintro ⟨rfl, rfl, -, hA⟩
    obtain ⟨L, h1, h2, h3, h4⟩ := ihA hA
    set X := labFl F lib tr e L B with hX
    set S := schurFl F tr D.toMat X with hS
    refine ⟨.block .lower L 0 Xᵀ (.dense (lib.chol c S) { lower := true }), ?_, rfl, ⟨rfl, h3, trivial⟩, ?_⟩
    · simp only [cholFl, h1]
      rw [← hX, ← hS]
      simp [mk2x2, h2, show (Op.dense (lib.chol c S) { lower := true }).flags.lower = true from rfl]
    · have hR : ∀ i k, |(L.toMat * X) i k - B i k| ≤ nsErr F lib tr e L (fun i => B i k) i := fun i k => ns_residual htr L h3 (fun i => B i k) i
      have hSe : ∀ i k, |S i k - (D.toMat i k - (Xᵀ * X) i k)| ≤ gam F (Fintype.card a.Idx + 1) * (|D.toMat i k| + ∑ j, |X j i| * |X j k|) := fun i k =>
        sumFl_sub (htr a) (D.toMat i k) (fun j => X j i) fun j => X j k
      have e1 : (Op.block .lower L 0 Xᵀ (.dense (lib.chol c S) { lower := true })).toMat * (Op.block .lower L 0 Xᵀ (.dense (lib.chol c S) { lower := true })).toMatᵀ =
          fromBlocks (L.toMat * L.toMatᵀ) (L.toMat * X) (L.toMat * X)ᵀ (Xᵀ * X + lib.chol c S * (lib.chol c S)ᵀ) := by
        show fromBlocks L.toMat 0 Xᵀ (lib.chol c S) * (fromBlocks L.toMat 0 Xᵀ (lib.chol c S))ᵀ = _
        rw [fromBlocks_transpose, fromBlocks_multiply]
        simp [transpose_mul]
      rw [e1]
      have e2 : cholErr F lib tr e (.block .spd A B Bᵀ D) = fromBlocks (cholErr F lib tr e A) (Matrix.of fun i k => nsErr F lib tr e L (fun i => B i k) i)
          (Matrix.of fun i k => nsErr F lib tr e L (fun i => B i k) i)ᵀ (Matrix.of fun i k => |(lib.chol c S * (lib.chol c S)ᵀ) i k - S i k| +
        gam F (Fintype.card a.Idx + 1) * (|D.toMat i k| + ∑ j, |X j i| * |X j k|)) := by
        simp only [cholErr, h1]
        rfl
      rw [e2]
      rintro (i | i) (j | j)
      · exact h4 i j
      · exact hR i j
      · exact hR j i
      · show |(Xᵀ * X + lib.chol c S * (lib.chol c S)ᵀ) i j - D.toMat i j| ≤ |(lib.chol c S * (lib.chol c S)ᵀ) i j - S i j| + _
        have e3 : (Xᵀ * X + lib.chol c S * (lib.chol c S)ᵀ) i j - D.toMat i j =
            ((lib.chol c S * (lib.chol c S)ᵀ) i j - S i j) + (S i j - (D.toMat i j - (Xᵀ * X) i j)) := by
          rw [Matrix.add_apply]; ring
        rw [e3]
        exact (abs_add_le _ _).trans (add_le_add le_rfl (hSe i j))

lemma spd_residual (htr : ∀ s, FullOpt (tr s)) {s : Shape} (op L : Op s) (hz : Zeros L)
    (hL : ∀ i j, |(L.toMat * L.toMatᵀ) i j - op.toMat i j| ≤ cholErr F lib tr e op i j) (b : s.Idx → ℝ) (i : s.Idx) :
    |(op.toMat *ᵥ nsFl F lib tr e (L.transpose e) (nsFl F lib tr e L b)) i - b i| ≤ spdErr F lib tr e op L b i := by
  set y := nsFl F lib tr e L b with hy
  set x := nsFl F lib tr e (L.transpose e) y with hx
  have h1 : ∀ i, |(L.toMat *ᵥ y) i - b i| ≤ nsErr F lib tr e L b i := ns_residual htr L hz b
  have h2 : ∀ i, |(L.toMatᵀ *ᵥ x) i - y i| ≤ nsErr F lib tr e (L.transpose e) y i := by
    rw [← transpose_toMat e]
    exact ns_residual htr _ (zeros_transpose L hz) y
  have e1 : (op.toMat *ᵥ x) i - b i = ((op.toMat - L.toMat * L.toMatᵀ) *ᵥ x) i + (L.toMat *ᵥ (L.toMatᵀ *ᵥ x - y)) i + ((L.toMat *ᵥ y) i - b i) := by
    rw [sub_mulVec, mulVec_sub, mulVec_mulVec]
    simp only [Pi.sub_apply]
    ring
  rw [e1]
  refine (abs_add_le _ _).trans (add_le_add ((abs_add_le _ _).trans (add_le_add ?_ ?_)) (h1 i))
  · refine (abs_sum_le_sum_abs _ _).trans (sum_le_sum fun j _ => ?_)
    rw [abs_mul]
    refine mul_le_mul_of_nonneg_right ?_ (abs_nonneg _)
    refine le_trans (le_of_eq ?_) (hL i j)
    exact abs_sub_comm (op.toMat i j) _
  · refine (abs_sum_le_sum_abs _ _).trans (sum_le_sum fun j _ => ?_)
    rw [abs_mul]
    exact mul_le_mul_of_nonneg_left (h2 j) (abs_nonneg _)

/-- C87: `solve` of operators of every construction branch and any nesting succeeds in floating point, and its residual is bounded entry by entry. -/
theorem solve_residual (htr : ∀ s, FullOpt (tr s)) : ∀ {s : Shape} (op : Op s), op.Valid → ∀ b : s.Idx → ℝ,
    ∃ x, solveFl F lib tr e op b = .ok x ∧ ∀ i, |(op.toMat *ᵥ x) i - b i| ≤ solveErr F lib tr e op b i := by
  intro s op
  induction op with
  | dense M f => exact fun _ b => ⟨_, rfl, fun i => le_rfl⟩
  | @block a c k A B C D ihA ihD =>
    intro hv b
    cases k with
    | blockDiag sy =>
      obtain ⟨hA, hD, rfl, rfl⟩ := hv
      obtain ⟨y0, h0, r0⟩ := ihA hA fun i => b (.inl i)
      obtain ⟨y1, h1, r1⟩ := ihD hD fun i => b (.inr i)
      refine ⟨Sum.elim y0 y1, by simp only [solveFl, h0, h1, bind, Except.bind]; rfl, fun i => ?_⟩
      refine le_trans (le_of_eq (congrArg (fun t => |_ - t|) (congrFun (elim_split (α := a.Idx) (β := c.Idx) b) i))) ?_
      exact diag_res r0 r1 i
    | spd =>
      have hs : (Op.block .spd A B C D).Spd := ⟨rfl, hv⟩
      obtain ⟨L, h1, -, h3, h4⟩ := chol_backward (F := F) (lib := lib) (e := e) htr _ hs
      refine ⟨_, by simp only [solveFl, h1, bind, Except.bind]; rfl, fun i => ?_⟩
      have e1 : solveErr F lib tr e (.block .spd A B C D) b = spdErr F lib tr e (.block .spd A B C D) L b := by simp only [solveErr, h1]
      rw [e1]
      exact spd_residual htr _ L h3 h4 b i
    | general => exact ⟨_, rfl, fun i => le_rfl⟩
    | lower =>
      obtain ⟨hA, hD, rfl, -, -⟩ := hv
      by_cases hb : e.blockTriangularSolves = true
      · obtain ⟨y0, h0, r0⟩ := ihA hA fun i => b (.inl i)
        obtain ⟨y1, h1, r1⟩ := ihD hD (updRhs F (tr a) C y0 fun i => b (.inr i))
        refine ⟨Sum.elim y0 y1, (if_pos hb).trans (by simp only [h0, h1, bind, Except.bind]; rfl), fun i => ?_⟩
        have e1 : solveErr F lib tr e (.block .lower A 0 C D) b = Sum.elim (solveErr F lib tr e A fun i => b (.inl i)) fun i =>
            solveErr F lib tr e D (updRhs F (tr a) C y0 fun i => b (.inr i)) i + gam F (Fintype.card a.Idx + 1) * (|b (.inr i)| + ∑ j, |C i j| * |y0 j|) := by
          refine (if_pos hb).trans ?_
          simp only [h0]
          rfl
        rw [e1]
        refine le_trans (le_of_eq (congrArg (fun t => |_ - t|) (congrFun (elim_split (α := a.Idx) (β := c.Idx) b) i))) ?_
        exact lower_res r0 r1 (rhs_err (htr a) C y0 _) i
      · refine ⟨_, if_neg hb, fun i => ?_⟩
        rw [show solveErr F lib tr e (.block .lower A 0 C D) b = _ from if_neg hb]
        exact le_rfl
    | upper =>
      obtain ⟨hA, hD, rfl, -, -⟩ := hv
      by_cases hb : e.blockTriangularSolves = true
      · obtain ⟨y1, h1, r1⟩ := ihD hD fun i => b (.inr i)
        obtain ⟨y0, h0, r0⟩ := ihA hA (updRhs F (tr c) B y1 fun i => b (.inl i))
        refine ⟨Sum.elim y0 y1, (if_pos hb).trans (by simp only [h0, h1, bind, Except.bind]; rfl), fun i => ?_⟩
        have e1 : solveErr F lib tr e (.block .upper A B 0 D) b = Sum.elim (fun i => solveErr F lib tr e A (updRhs F (tr c) B y1 fun i => b (.inl i)) i +
            gam F (Fintype.card c.Idx + 1) * (|b (.inl i)| + ∑ j, |B i j| * |y1 j|)) (solveErr F lib tr e D fun i => b (.inr i)) := by
          refine (if_pos hb).trans ?_
          simp only [h1]
          rfl
        rw [e1]
        refine le_trans (le_of_eq (congrArg (fun t => |_ - t|) (congrFun (elim_split (α := a.Idx) (β := c.Idx) b) i))) ?_
        exact upper_res r0 r1 (rhs_err (htr c) B y1 _) i
      · refine ⟨_, if_neg hb, fun i => ?_⟩
        rw [show solveErr F lib tr e (.block .upper A B 0 D) b = _ from if_neg hb]
        exact le_rfl

/-! ### Exact arithmetic -/

lemma gam_zero (hu : F.u = 0) (n : ℕ) : gam F n = 0 := by simp [gam, hu]

lemma rhs_exact (hu : F.u = 0) {α β : Type} [Fintype α] {t : Option (Tree α)} (ht : FullOpt t) (C : Matrix β α ℝ) (y : α → ℝ) (v : β → ℝ) (i : β) :
    updRhs F t C y v i = v i - ∑ j, C i j * y j := by
  have := rhs_err (F := F) ht C y v i
  rw [gam_zero hu, zero_mul] at this
  exact sub_eq_zero.1 (abs_eq_zero.1 (le_antisymm this (abs_nonneg _)))

lemma denseSolve_col {s : Shape} {κ : Type} (M : Matrix s.Idx s.Idx ℝ) (f : Flags) (B : Matrix s.Idx κ ℝ) (i : s.Idx) (k : κ) :
    denseSolve M f B i k = denseSolve M f (col fun i => B i k) i () := by
  unfold denseSolve
  split_ifs <;> rfl

lemma ns_exact (hu : F.u = 0) (htr : ∀ s, FullOpt (tr s)) : ∀ {s : Shape} (op : Op s) {κ : Type} (B : Matrix s.Idx κ ℝ) (i : s.Idx) (k : κ),
    op.solveNS e B i k = nsFl F (.exact e) tr e op (fun i => B i k) i := by
  intro s op
  induction op with
  | dense M f => exact fun B i k => denseSolve_col M f B i k
  | @block a c kd A B C D ihA ihD =>
    intro κ b i k
    cases kd with
    | blockDiag sy =>
      rcases i with i | i
      · exact ihA _ i k
      · exact ihD _ i k
    | spd => exact denseSolve_col (s := .node a c) _ _ b i k
    | general => exact denseSolve_col (s := .node a c) _ _ b i k
    | lower =>
      by_cases hb : e.blockTriangularSolves = true
      · rw [nsFl_lower A B C D (fun i => b i k) hb]
        rw [show Op.solveNS e (.block .lower A B C D) b = concat (A.solveNS e (Block.split b).1) (D.solveNS e ((Block.split b).2 - C * A.solveNS e (Block.split b).1)) from if_pos hb]
        rcases i with i | i
        · exact ihA _ i k
        · refine (ihD _ i k).trans (congrArg (fun r => nsFl F (.exact e) tr e D r i) (funext fun j => ?_))
          rw [rhs_exact hu (htr a)]
          exact congrArg (fun t => b (.inr j) k - t) (sum_congr rfl fun l _ => congrArg _ (ihA _ l k))
      · rw [nsFl_lower' A B C D (fun i => b i k) hb]
        rw [show Op.solveNS e (.block .lower A B C D) b = denseSolve (s := .node a c) (fromBlocks A.toMat B C D.toMat) { lower := true } b from if_neg hb]
        exact denseSolve_col (s := .node a c) _ _ b i k
    | upper =>
      by_cases hb : e.blockTriangularSolves = true
      · rw [nsFl_upper A B C D (fun i => b i k) hb]
        rw [show Op.solveNS e (.block .upper A B C D) b = concat (A.solveNS e ((Block.split b).1 - B * D.solveNS e (Block.split b).2)) (D.solveNS e (Block.split b).2) from if_pos hb]
        rcases i with i | i
        · refine (ihA _ i k).trans (congrArg (fun r => nsFl F (.exact e) tr e A r i) (funext fun j => ?_))
          rw [rhs_exact hu (htr c)]
          exact congrArg (fun t => b (.inl j) k - t) (sum_congr rfl fun l _ => congrArg _ (ihD _ l k))
        · exact ihD _ i k
      · rw [nsFl_upper' A B C D (fun i => b i k) hb]
        rw [show Op.solveNS e (.block .upper A B C D) b = denseSolve (s := .node a c) (fromBlocks A.toMat B C D.toMat) { upper := true } b from if_neg hb]
        exact denseSolve_col (s := .node a c) _ _ b i k

lemma chol_exact (hu : F.u = 0) (htr : ∀ s, FullOpt (tr s)) : ∀ {s : Shape} (op : Op s), cholFl F (.exact e) tr e op = op.cholesky e := by
  intro s op
  induction op with
  | dense M f => rfl
  | @block a c kd A B C D ihA ihD =>
    cases kd with
    | spd =>
      simp only [cholFl, Op.cholesky, ihA]
      cases A.cholesky e with
      | error err => rfl
      | ok L =>
        have hX : labFl F (.exact e) tr e L B = lAinvB e L B := by
          ext i k
          exact (ns_exact hu htr L B i k).symm
        have hS : schurFl F tr D.toMat (lAinvB e L B) = D.toMat - (lAinvB e L B)ᵀ * lAinvB e L B := by
          ext i k
          have := sumFl_sub (F := F) (htr a) (D.toMat i k) (fun j => lAinvB e L B j i) fun j => lAinvB e L B j k
          rw [hu] at this
          simp only [add_zero, one_pow, sub_self, zero_mul] at this
          exact sub_eq_zero.1 (abs_eq_zero.1 (le_antisymm this (abs_nonneg _)))
        simp only [hX, hS]
        rfl
    | _ => rfl

/-- C87: without rounding and with exact dense factorisations and solves, the float programs are the exact ones, for every operator (also those that
are refused). -/
theorem solve_exact (hu : F.u = 0) (htr : ∀ s, FullOpt (tr s)) : ∀ {s : Shape} (op : Op s) (b : s.Idx → ℝ),
    solveFl F (.exact e) tr e op b = (op.solve e (col b)).map fun x i => x i () := by
  intro s op
  induction op with
  | dense M f => exact fun b => rfl
  | @block a c kd A B C D ihA ihD =>
    intro b
    cases kd with
    | blockDiag sy =>
      simp only [solveFl, Op.solve, ihA, ihD]
      rw [show col (fun i => b (.inl i)) = (Block.split (a := a) (b := c) (col b)).1 from rfl, show col (fun i => b (.inr i)) = (Block.split (a := a) (b := c) (col b)).2 from rfl]
      cases A.solve e (Block.split (a := a) (b := c) (col b)).1 with
      | error x => rfl
      | ok y0 =>
        cases D.solve e (Block.split (a := a) (b := c) (col b)).2 with
        | error x => rfl
        | ok y1 =>
          refine congrArg Except.ok (funext fun i => ?_)
          rcases i with i | i <;> rfl
    | spd =>
      simp only [solveFl, Op.solve, chol_exact hu htr]
      cases Op.cholesky e (.block .spd A B C D) with
      | error x => rfl
      | ok L =>
        refine congrArg Except.ok (funext fun i => ?_)
        refine Eq.trans ?_ (ns_exact hu htr _ _ i ()).symm
        refine congrArg (fun r => nsFl F (.exact e) tr e (L.transpose e) r i) (funext fun j => ?_)
        exact (ns_exact hu htr L (col b) j ()).symm
    | general => rfl
    | lower =>
      by_cases hb : e.blockTriangularSolves = true
      · simp only [solveFl, Op.solve, hb, if_true, ihA, ihD]
        rw [show col (fun i => b (.inl i)) = (Block.split (a := a) (b := c) (col b)).1 from rfl]
        cases A.solve e (Block.split (a := a) (b := c) (col b)).1 with
        | error x => rfl
        | ok y0 =>
          have hr : col (updRhs F (tr a) C (fun i => y0 i ()) fun i => b (.inr i)) = (Block.split (a := a) (b := c) (col b)).2 - C * y0 := by
            ext i k
            exact rhs_exact hu (htr a) C _ _ i
          simp only [Except.map, bind, Except.bind, hr]
          cases D.solve e ((Block.split (a := a) (b := c) (col b)).2 - C * y0) with
          | error x => rfl
          | ok y1 =>
            refine congrArg Except.ok (funext fun i => ?_)
            rcases i with i | i <;> rfl
      · simp only [solveFl, Op.solve, hb]
        rfl
    | upper =>
      by_cases hb : e.blockTriangularSolves = true
      · simp only [solveFl, Op.solve, hb, if_true, ihA, ihD]
        rw [show col (fun i => b (.inr i)) = (Block.split (a := a) (b := c) (col b)).2 from rfl]
        cases D.solve e (Block.split (a := a) (b := c) (col b)).2 with
        | error x => rfl
        | ok y1 =>
          have hr : col (updRhs F (tr c) B (fun i => y1 i ()) fun i => b (.inl i)) = (Block.split (a := a) (b := c) (col b)).1 - B * y1 := by
            ext i k
            exact rhs_exact hu (htr c) B _ _ i
          simp only [Except.map, bind, Except.bind, hr]
          cases A.solve e ((Block.split (a := a) (b := c) (col b)).1 - B * y1) with
          | error x => rfl
          | ok y0 =>
            refine congrArg Except.ok (funext fun i => ?_)
            rcases i with i | i <;> rfl
      · simp only [solveFl, Op.solve, hb]
        rfl

/-! ### Posterior means -/

variable {X : Type} {P : Prior X}

lemma lazyRhs_err (c : Cond P) (p : c.s.Idx → ℝ) (i : c.s.Idx) :
    |lazyRhs F c p i - (c.Ys i - (c.Ls i).1 P.m - c.bs i)| ≤ gam F 2 * (|c.Ys i - p i| + |c.bs i|) + |p i - (c.Ls i).1 P.m| := by
  set y := c.Ys i - p i with hy
  have h1 := F.err y
  have h2 := F.err (F.rd y - c.bs i)
  have hu := F.u_nonneg
  have e1 : lazyRhs F c p i - (c.Ys i - (c.Ls i).1 P.m - c.bs i) =
      (F.rd (F.rd y - c.bs i) - (F.rd y - c.bs i)) + (F.rd y - y) + ((c.Ls i).1 P.m - p i) := by
    simp only [lazyRhs, ← hy]
    rw [hy]
    ring
  have h3 : |F.rd y - c.bs i| ≤ (1 + F.u) * |y| + |c.bs i| := by
    have e2 : F.rd y - c.bs i = (F.rd y - y) + y - c.bs i := by ring
    rw [e2]
    have := (abs_sub (F.rd y - y + y) (c.bs i)).trans (add_le_add (abs_add_le (F.rd y - y) y) le_rfl)
    nlinarith
  have h4 : F.u * |F.rd y - c.bs i| ≤ F.u * ((1 + F.u) * |y| + |c.bs i|) := mul_le_mul_of_nonneg_left h3 hu
  rw [e1]
  refine (abs_add_le _ _).trans (add_le_add ((abs_add_le _ _).trans ?_) (le_of_eq (abs_sub_comm _ _)))
  unfold gam
  have h5 : 0 ≤ F.u * |c.bs i| := mul_nonneg hu (abs_nonneg _)
  have h6 : 0 ≤ F.u * (F.u * |c.bs i|) := mul_nonneg hu h5
  nlinarith

/-- C87: the posterior mean evaluated with the representer weights that `gram.solve(y)` returns in floating point, for any history, computed Gram
operator `G`, computed values `p` of `L(prior.mean)`, and anything SciPy returns. -/
theorem lazy_mean (F : Fmt) (lib : Lib) (htr : ∀ s, FullOpt (tr s)) (e : Env) (he : e.CholOK) (hP : P.Regular) (b : Batch P) (l : List (Batch P))
    (hG : (jG (b :: l)).PosDef) {τ : ℝ} (hτ : 0 < τ) (hN : NoiseAtLeast τ (b :: l)) (c : Cond P) (hc : run e b l = .ok c) (G : Op c.s) (hv : G.Valid)
    (p : c.s.Idx → ℝ) {t : Tree c.s.Idx} (ht : t.Full) (x : X) (m : ℝ) (k : c.s.Idx → ℝ) :
    ∃ w v, lazyFl F lib tr e c G p = .ok w ∧ c.covfunc e x x = .ok v ∧ v ≤ P.k x x ∧
      |postMean F t m k w - c.mean x| ≤
        ((1 + F.u) ^ (Fintype.card c.s.Idx + 1) - 1) * (|m| + ∑ i, |k i| * |w i|) + |m - P.m.1 x| + ∑ j, |k j - (c.kLas j).1 x| * |w j| +
          √((P.k x x - v) * ((∑ i, lazyErr F lib tr e c G p w i ^ 2) / τ)) := by
  obtain ⟨w, h1, h2⟩ := solve_residual (F := F) (lib := lib) (e := e) htr G hv (lazyRhs F c p)
  obtain ⟨v, h3, h4⟩ := posterior_mean_error F e he hP b l hG hτ hN c hc ht x m k w
  have hv : v ≤ P.k x x := by
    obtain ⟨c', h', -, h5, -⟩ := run_all e he hP b l hG
    obtain rfl : c = c' := by rw [hc] at h'; exact Except.ok.inj h'
    obtain rfl := Except.ok.inj (h3.symm.trans (h5 x x))
    exact (posterior_le_prior hP _ hG _).trans (le_of_eq (cov_ev hP x x))
  refine ⟨w, v, h1, h3, hv, h4.trans (add_le_add le_rfl (Real.sqrt_le_sqrt (mul_le_mul_of_nonneg_left ?_ (sub_nonneg.2 hv))))⟩
  refine div_le_div_of_nonneg_right (sum_le_sum fun i _ => ?_) hτ.le
  rw [← sq_abs]
  refine pow_le_pow_left₀ (abs_nonneg _) ?_ 2
  have e1 : (c.gram.toMat *ᵥ w) i - (c.Ys i - (c.Ls i).1 P.m - c.bs i) = ((G.toMat *ᵥ w) i - lazyRhs F c p i) + ∑ j, (c.gram.toMat i j - G.toMat i j) * w j +
      (lazyRhs F c p i - (c.Ys i - (c.Ls i).1 P.m - c.bs i)) := by
    have : ∑ j, (c.gram.toMat i j - G.toMat i j) * w j = (c.gram.toMat *ᵥ w) i - (G.toMat *ᵥ w) i := by
      simp only [mulVec, dotProduct, sub_mul, sum_sub_distrib]
    rw [this]
    ring
  rw [e1, lazyErr, add_assoc (solveErr _ _ _ _ _ _ i + _)]
  refine (abs_add_le _ _).trans (add_le_add ((abs_add_le _ _).trans (add_le_add (h2 i) ?_)) (lazyRhs_err c p i))
  exact (abs_sum_le_sum_abs _ _).trans (sum_le_sum fun j _ => (abs_mul _ _).le)

/-- C87: without rounding the computed weights are the lazily computed ones. -/
theorem lazy_exact (hu : F.u = 0) (htr : ∀ s, FullOpt (tr s)) (e : Env) (c : Cond P) :
    lazyFl F (.exact e) tr e c c.gram (fun i => (c.Ls i).1 P.m) = (c.lazyWeights e).map fun x i => x i () := by
  unfold lazyFl Cond.lazyWeights
  have : lazyRhs F c (fun i => (c.Ls i).1 P.m) = fun i => c.Ys i - (c.Ls i).1 P.m - c.bs i := by
    funext i
    have := lazyRhs_err (F := F) c (fun i => (c.Ls i).1 P.m) i
    rw [gam_zero hu] at this
    simp only [zero_mul, sub_self, abs_zero, add_zero] at this
    exact sub_eq_zero.1 (abs_eq_zero.1 (le_antisymm this (abs_nonneg _)))
  rw [this]
  exact solve_exact hu htr c.gram _

/-! ### Non-vacuity -/

/-- A nested operator in double precision, with an arbitrary library. -/
example (lib : Lib) : ∃ (e : Env) (tr : Orders) (c : Cond (white ℕ)), run e (noisy1 0 3) [noisy1 1 5] = .ok c ∧ c.gram.Spd ∧
    (∃ L, cholFl (bin 52) lib tr e c.gram = .ok L ∧ ∀ i j, |(L.toMat * L.toMatᵀ) i j - c.gram.toMat i j| ≤ cholErr (bin 52) lib tr e c.gram i j) ∧
    ∀ r, ∃ x, solveFl (bin 52) lib tr e c.gram r = .ok x ∧ ∀ i, |(c.gram.toMat *ᵥ x) i - r i| ≤ solveErr (bin 52) lib tr e c.gram r i := by
  obtain ⟨e, he, -⟩ := exists_env false false
  choose tr htr using fun s : Shape => exists_order s.Idx
  obtain ⟨c, hc, ⟨I⟩⟩ := run_inv e he (white_regular ℕ) _ _ noisy_posDef
  obtain ⟨L, h1, -, -, h2⟩ := chol_backward (F := bin 52) (lib := lib) (e := e) htr c.gram I.spd
  exact ⟨e, tr, c, hc, I.spd, ⟨L, h1, h2⟩, solve_residual htr c.gram I.spd.valid⟩

/-- Two noisy values: the posterior mean with lazily computed weights. -/
example (lib : Lib) : ∃ (e : Env) (tr : Orders) (c : Cond (white ℕ)), run e (noisy1 0 3) [noisy1 1 5] = .ok c ∧
    ∀ (p : c.s.Idx → ℝ) (t : Tree c.s.Idx), t.Full → ∀ (x : ℕ) (m : ℝ) (k : c.s.Idx → ℝ), ∃ w v, lazyFl (bin 52) lib tr e c c.gram p = .ok w ∧ c.covfunc e x x = .ok v ∧ v ≤ (white ℕ).k x x ∧
      |postMean (bin 52) t m k w - c.mean x| ≤ ((1 + (bin 52).u) ^ (Fintype.card c.s.Idx + 1) - 1) * (|m| + ∑ i, |k i| * |w i|) +
        |m - (white ℕ).m.1 x| + ∑ j, |k j - (c.kLas j).1 x| * |w j| + √(((white ℕ).k x x - v) * ((∑ i, lazyErr (bin 52) lib tr e c c.gram p w i ^ 2) / 1)) := by
  obtain ⟨e, he, -⟩ := exists_env false false
  choose tr htr using fun s : Shape => exists_order s.Idx
  obtain ⟨c, hc, ⟨I⟩⟩ := run_inv e he (white_regular ℕ) _ _ noisy_posDef
  exact ⟨e, tr, c, hc, fun p t ht x m k => lazy_mean (bin 52) lib htr e he (white_regular ℕ) _ _ noisy_posDef one_pos noisy_atLeast c hc c.gram I.spd.valid p ht x m k⟩

/-- Exact arithmetic is one of the formats. -/
example : ∃ F : Fmt, F.u = 0 := ⟨⟨id, Real.exp, 0, 0, le_rfl, one_pos, le_rfl, one_pos, by simp, fun _ => rfl, rfl, by simp, by simp⟩, rfl⟩

/-- The operator `[[1, 0], [2, 1]]`. -/
def low2 : Op (.node (.leaf 1) (.leaf 1)) :=
  .block .lower (.dense 1 { lower := true }) 0 (Matrix.of fun _ _ => 2) (.dense 1 { lower := true })

/-- A library whose solves are wrong by `δ` in every entry. -/
def offLib (δ : ℝ) : Lib := ⟨fun _ M => M, fun _ _ _ b i => b i + δ⟩

/-- A triangular operator with a wrong library. -/
example (δ : ℝ) : ∃ tr : Orders, ∀ (e : Env) b i, |(low2.toMat *ᵥ nsFl (bin 52) (offLib δ) tr e low2 b) i - b i| ≤ nsErr (bin 52) (offLib δ) tr e low2 b i := by
  choose tr htr using fun s : Shape => exists_order s.Idx
  exact ⟨tr, fun e b i => ns_residual htr low2 ⟨rfl, trivial, trivial⟩ b i⟩

end LinPDE.Rounding
