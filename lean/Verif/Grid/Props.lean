import Verif.Grid.Lemmas

/-! # Properties C10 (BlockMatrix) and C15 (ConcatenatedLinearOperator) -/

set_option linter.unusedSectionVars false

namespace LinPDE.Grid
variable {K : Type} [CommRing K]

/-! ## C10 -/

/-- A grid is gluable: there is at least one row and one column, all blocks of a column have one
width and all blocks of a row have one height. -/
def Gluable (blocks : List (List (Mat K))) (ws : List ℕ) : Prop :=
  blocks ≠ [] ∧ ws ≠ [] ∧ ∀ row ∈ blocks, row.map Mat.cols = ws ∧ ∃ h, ∀ A ∈ row, A.rows = h

lemma zip_all_iff : ∀ (row row0 : List (Mat K)) (h : ℕ), row.length = row0.length →
    (((row.zip row0).all fun p => (p.1.rows == h) && (p.1.cols == p.2.cols)) = true ↔
      (∀ A ∈ row, A.rows = h) ∧ row.map Mat.cols = row0.map Mat.cols)
  | [], [], h, _ => by simp
  | A :: l, [], h, hl => by simp at hl
  | [], A :: l, h, hl => by simp at hl
  | A :: l, B :: l', h, hl => by
    have ih := zip_all_iff l l' h (by simpa using hl)
    simp only [List.zip_cons_cons, List.all_cons, Bool.and_eq_true, beq_iff_eq, List.mem_cons,
      forall_eq_or_imp, List.map_cons, List.cons.injEq] at ih ⊢
    rw [ih]
    tauto

lemma zip_all_head (row row0 : List (Mat K)) :
    ((row.zip row0).all fun p => (p.1.rows == (row.headD p.1).rows) && (p.1.cols == p.2.cols)) =
    ((row.zip row0).all fun p => (p.1.rows == (row.headD ⟨0, 0, fun _ _ => 0⟩).rows) &&
      (p.1.cols == p.2.cols)) := by
  cases row with
  | nil => rfl
  | cons A l => rfl

/-- C10: the constructor accepts exactly the gluable grids, and keeps them unchanged. -/
theorem mk'_ok_iff (blocks : List (List (Mat K))) (b : BM K) :
    BM.mk' blocks = .ok b ↔ b = ⟨blocks⟩ ∧ ∃ ws, Gluable blocks ws := by
  cases blocks with
  | nil => simp [BM.mk', Gluable]
  | cons row0 rows =>
    have key : (∃ ws, Gluable (row0 :: rows) ws) ↔ row0 ≠ [] ∧ (∀ r ∈ rows, r.length = row0.length) ∧
        ∀ row ∈ row0 :: rows, (row.zip row0).all (fun p => (p.1.rows == (row.headD p.1).rows) &&
          (p.1.cols == p.2.cols)) = true := by
      constructor
      · rintro ⟨ws, -, hws, h⟩
        have h0 := h row0 (by simp)
        have hlen : ∀ row ∈ row0 :: rows, row.length = row0.length := fun row hrow => by
          have := congrArg List.length ((h row hrow).1.trans h0.1.symm)
          simpa using this
        refine ⟨?_, fun r hr => hlen r (by simp [hr]), fun row hrow => ?_⟩
        · rintro rfl
          exact hws (by simpa using h0.1.symm)
        · rw [zip_all_head, zip_all_iff _ _ _ (hlen row hrow)]
          obtain ⟨h1, hh, h2⟩ := h row hrow
          refine ⟨fun A hA => ?_, h1.trans h0.1.symm⟩
          cases row with
          | nil => simp at hA
          | cons B l => simp only [List.headD_cons]; rw [h2 A hA, h2 B (by simp)]
      · rintro ⟨h0, hl, h⟩
        refine ⟨row0.map Mat.cols, by simp, by simpa using h0, fun row hrow => ?_⟩
        have hlen : row.length = row0.length := by
          rcases List.mem_cons.mp hrow with rfl | hr
          · rfl
          · exact hl row hr
        have := h row hrow
        rw [zip_all_head, zip_all_iff _ _ _ hlen] at this
        exact ⟨this.2, _, this.1⟩
    rw [key]
    unfold BM.mk'
    by_cases h0 : row0 = []
    · simp [h0]
    by_cases hl : ∀ r ∈ rows, r.length = row0.length
    · have hc : (row0.isEmpty || !(rows.all fun r => r.length == row0.length)) = false := by
        have : (rows.all fun r => r.length == row0.length) = true := by
          rw [List.all_eq_true]; intro r hr; simp [hl r hr]
        simp [this, h0]
      simp only [hc, Bool.false_eq_true, if_false]
      split
      · rename_i hall
        rw [List.all_eq_true] at hall
        constructor
        · intro hb; injection hb with hb; exact ⟨hb.symm, h0, hl, hall⟩
        · rintro ⟨rfl, _⟩; rfl
      · rename_i hall
        rw [List.all_eq_true] at hall
        constructor
        · intro hb; cases hb
        · rintro ⟨_, _, _, h⟩; exact absurd h hall
    · have hc : (row0.isEmpty || !(rows.all fun r => r.length == row0.length)) = true := by
        have : (rows.all fun r => r.length == row0.length) = false := by
          rw [Bool.eq_false_iff]; intro hh; apply hl; rw [List.all_eq_true] at hh
          intro r hr; simpa using hh r hr
        simp [this]
      simp only [hc, if_true]
      constructor
      · intro hb; cases hb
      · rintro ⟨_, _, h, _⟩; exact absurd h hl

/-- C10: every other grid is rejected with a `ValueError`. -/
theorem mk'_error_iff (blocks : List (List (Mat K))) :
    BM.mk' blocks = .error .valueError ↔ ¬ ∃ ws, Gluable blocks ws := by
  have h := mk'_ok_iff blocks
  cases hb : BM.mk' blocks with
  | ok b =>
    have := (h b).mp hb
    simp [this.2]
  | error e =>
    have he : e = .valueError := by
      revert hb
      unfold BM.mk'
      split
      · intro hb; cases hb; rfl
      · split
        · intro hb; cases hb; rfl
        · split
          · intro hb; cases hb
          · intro hb; cases hb; rfl
    subst he
    constructor
    · intro _ hg
      have := (h ⟨blocks⟩).mpr ⟨rfl, hg⟩
      rw [hb] at this; cases this
    · intro _; rfl

section
variable {blocks : List (List (Mat K))} {ws : List ℕ}

lemma Gluable.widths (h : Gluable blocks ws) : (BM.mk blocks).widths = ws := by
  obtain ⟨h1, _, h3⟩ := h
  cases blocks with
  | nil => exact absurd rfl h1
  | cons row rows => exact (h3 row (by simp)).1

lemma Gluable.row_ne (h : Gluable blocks ws) {row : List (Mat K)} (hr : row ∈ blocks) : row ≠ [] := by
  rintro rfl
  exact h.2.1 (by simpa using (h.2.2 [] hr).1.symm)

/-- Height of a row of blocks. -/
def rowHeight (row : List (Mat K)) : ℕ := (row.headD ⟨0, 0, fun _ _ => 0⟩).rows

lemma Gluable.row_height (h : Gluable blocks ws) {row : List (Mat K)} (hr : row ∈ blocks) :
    ∀ A ∈ row, A.rows = rowHeight row := by
  obtain ⟨hh, h2⟩ := (h.2.2 row hr).2
  have hne := h.row_ne hr
  cases row with
  | nil => exact absurd rfl hne
  | cons B l => intro A hA; rw [h2 A hA]; exact (h2 B (by simp)).symm

lemma Gluable.hcat_rows (h : Gluable blocks ws) {row : List (Mat K)} (hr : row ∈ blocks) :
    (hcatL row).rows = rowHeight row :=
  (concatCols_ok row (h.row_ne hr) _ (h.row_height hr)).2

lemma Gluable.todense_eq (h : Gluable blocks ws) :
    (BM.mk blocks).todense = .ok (vcatL (blocks.map hcatL)) ∧ (vcatL (blocks.map hcatL)).cols = ws.sum := by
  have h1 : (BM.mk blocks).todense = concatRows (blocks.map hcatL) := by
    rw [BM.todense, mapM_ok concatCols hcatL blocks fun row hr =>
      (concatCols_ok row (h.row_ne hr) _ (h.row_height hr)).1]
    rfl
  rw [h1]
  refine concatRows_ok _ (by simpa using h.1) _ fun A hA => ?_
  obtain ⟨row, hr, rfl⟩ := List.mem_map.mp hA
  rw [hcatL_cols, (h.2.2 row hr).1]

lemma Gluable.map_rows (h : Gluable blocks ws) :
    (blocks.map hcatL).map Mat.rows = (BM.mk blocks).heights := by
  rw [List.map_map]
  exact List.map_congr_left fun row hr => h.hcat_rows hr

/-- C10: `todense` glues the blocks: entry `(r, c)` of block `(p, q)` sits at row `Σ_{p'<p} h_{p'} + r`
and column `Σ_{q'<q} w_{q'} + c`, and the shape is the sum of heights and widths. -/
theorem todense_spec (h : Gluable blocks ws) :
    ∃ D, (BM.mk blocks).todense = .ok D ∧ (D.rows, D.cols) = (BM.mk blocks).shape ∧
      ∀ p (hp : p < blocks.length) q (hq : q < blocks[p].length) r c,
        r < blocks[p][q].rows → c < blocks[p][q].cols →
        D.entry (off (BM.mk blocks).heights p + r) (off ws q + c) = blocks[p][q].entry r c := by
  refine ⟨_, h.todense_eq.1, ?_, ?_⟩
  · rw [BM.shape, h.todense_eq.2, vcatL_rows, h.map_rows, h.widths]
  · intro p hp q hq r c hr hc
    have hmem : blocks[p] ∈ blocks := List.getElem_mem hp
    have := vcatL_entry (blocks.map hcatL) p (by simpa using hp) r
      (by
        simp only [List.getElem_map]
        rw [h.hcat_rows hmem, ← h.row_height hmem _ (List.getElem_mem hq)]; exact hr)
      (off ws q + c)
    rw [h.map_rows] at this
    rw [this, List.getElem_map, ← (h.2.2 _ hmem).1]
    exact hcatL_entry _ q hq c hc r

/-- C10: multiplying with the block matrix is multiplying with the glued dense matrix, for every
right-hand side (with any number of columns) of the right height. -/
theorem matmul_spec (h : Gluable blocks ws) (x : Mat K) (hx : x.rows = ws.sum) :
    ∃ y D, (BM.mk blocks).matmul x = .ok y ∧ (BM.mk blocks).todense = .ok D ∧ y.Eqv (D.mulSpec x) := by
  have hsplit : (BM.mk blocks).splitInput x = pieces x 0 ws := by
    rw [BM.splitInput, h.widths]
    exact npSplit_eq x ws 0 h.2.1 (by omega)
  set f : List (Mat K) → Mat K := fun row => sumL (rowHeight row) x.cols
    ((row.zip (pieces x 0 ws)).map fun p => p.1.mulSpec p.2) with hf
  have hm : (BM.mk blocks).matmul x = concatRows (blocks.map f) := by
    rw [BM.matmul, if_pos (by rw [BM.shape, h.widths, hx])]
    rw [mapM_ok _ f blocks fun row hr => by
      rw [hsplit]
      have := rowResult_eq x row (h.row_ne hr) (rowHeight row) (h.row_height hr) 0
      rw [(h.2.2 row hr).1] at this
      exact this]
    rfl
  obtain ⟨h1, h2⟩ := concatRows_ok (blocks.map f) (by simpa using h.1) x.cols (by
    intro A hA
    obtain ⟨row, hr, rfl⟩ := List.mem_map.mp hA
    exact sumL_cols _ _ _)
  have hrows : (blocks.map f).map Mat.rows = (blocks.map hcatL).map Mat.rows := by
    rw [List.map_map, List.map_map]
    exact List.map_congr_left fun row hr => by
      simp only [Function.comp]; rw [h.hcat_rows hr, hf]; exact sumL_rows _ _ _
  refine ⟨_, _, hm.trans h1, h.todense_eq.1, ?_, h2, ?_⟩
  · rw [vcatL_rows, hrows, ← vcatL_rows]; rfl
  · intro i hi j hj
    have := vcatL_map_entry f hcatL (fun u v => u j = ∑ k ∈ Finset.range ws.sum, v k * x.entry k j) blocks
      (fun row hr => by rw [h.hcat_rows hr, hf]; exact sumL_rows _ _ _)
      (fun row hr i _ => by
        have := sumL_zip x (rowHeight row) x.cols i j row 0
        rw [(h.2.2 row hr).1, hcatL_cols, (h.2.2 row hr).1] at this
        simpa using this) i hi
    rw [this, Mat.mulSpec, h.todense_eq.2]

/-- C10: right-hand sides of any other height are refused. -/
theorem matmul_error (h : Gluable blocks ws) (x : Mat K) (hx : x.rows ≠ ws.sum) :
    (BM.mk blocks).matmul x = .error .valueError := by
  rw [BM.matmul, if_neg]
  rw [BM.shape, h.widths]
  exact fun h' => hx h'.symm

lemma widths_getElem (h : Gluable blocks ws) {row : List (Mat K)} (hr : row ∈ blocks) (j : ℕ)
    (hj : j < row.length) (hj' : j < ws.length) : row[j].cols = ws[j] := by
  have h1 := (h.2.2 row hr).1
  subst h1
  simp

/-- C10: the transpose is again a valid block matrix and denotes the transposed dense matrix. -/
theorem transpose_spec (h : Gluable blocks ws) :
    ∃ bT D DT, (BM.mk blocks).transpose = .ok bT ∧ (BM.mk blocks).todense = .ok D ∧
      bT.todense = .ok DT ∧ DT.Eqv D.T := by
  have hlen : ∀ row ∈ blocks, row.length = ws.length := fun row hr => by
    rw [← (h.2.2 row hr).1]; simp
  have hn : (blocks.headD []).length = ws.length := by
    have := congrArg List.length h.widths
    simpa [BM.widths] using this
  set T : List (List (Mat K)) := (List.range (blocks.headD []).length).map fun j =>
    blocks.map fun row => (row.getD j ⟨0, 0, fun _ _ => 0⟩).T with hT
  have hget : ∀ row (hr : row ∈ blocks) j (hj : j < ws.length),
      row.getD j ⟨0, 0, fun _ _ => 0⟩ = row[j]'(by rw [hlen row hr]; exact hj) := by
    intro row hr j hj
    rw [List.getD_eq_getElem?_getD, List.getElem?_eq_getElem (by rw [hlen row hr]; exact hj)]
    rfl
  have hg : Gluable T (BM.mk blocks).heights := by
    refine ⟨?_, ?_, ?_⟩
    · rw [hT, hn]
      have := h.2.1
      intro hc
      apply this
      simpa using hc
    · simpa [BM.heights] using h.1
    · intro trow htr
      obtain ⟨j, hj, rfl⟩ := List.mem_map.mp htr
      have hj' : j < ws.length := by rw [← hn]; exact List.mem_range.mp hj
      constructor
      · rw [List.map_map]
        refine List.map_congr_left fun row hr => ?_
        simp only [Function.comp, hget row hr j hj', Mat.T]
        exact h.row_height hr _ (List.getElem_mem _)
      · refine ⟨ws[j], fun A hA => ?_⟩
        obtain ⟨row, hr, rfl⟩ := List.mem_map.mp hA
        simp only [hget row hr j hj', Mat.T]
        exact widths_getElem h hr j _ _
  obtain ⟨D, hD, hDs, hDe⟩ := todense_spec h
  obtain ⟨DT, hDT, hDTs, hDTe⟩ := todense_spec hg
  have hTh : (BM.mk T).heights = ws := by
    rw [BM.heights]
    apply List.ext_getElem
    · rw [List.length_map, hT, List.length_map, List.length_range, hn]
    · intro j h1 h2
      obtain ⟨row, rows, hb⟩ := List.exists_cons_of_ne_nil h.1
      have hr : row ∈ blocks := by rw [hb]; simp
      simp only [hT, List.getElem_map, List.getElem_range]
      rw [hb, List.map_cons, List.headD_cons, hget row hr j h2]
      exact widths_getElem h hr j _ _
  refine ⟨⟨T⟩, D, DT, ?_, hD, hDT, ?_⟩
  · rw [BM.transpose]
    exact (mk'_ok_iff T ⟨T⟩).mpr ⟨rfl, _, hg⟩
  · simp only [BM.shape, Prod.mk.injEq] at hDs hDTs
    rw [h.widths] at hDs
    rw [hTh, hg.widths] at hDTs
    refine ⟨hDTs.1.trans hDs.2.symm, hDTs.2.trans hDs.1.symm, ?_⟩
    intro i hi j hj
    rw [hDTs.1] at hi
    rw [hDTs.2] at hj
    obtain ⟨q, hq, c, hc, rfl⟩ := exists_off _ i hi
    obtain ⟨p, hp, r, hr, rfl⟩ := exists_off _ j hj
    have hp' : p < blocks.length := by simpa [BM.heights] using hp
    have hmem : blocks[p] ∈ blocks := List.getElem_mem hp'
    have hq' : q < blocks[p].length := by rw [hlen _ hmem]; exact hq
    have hTlen : q < T.length := by rw [hT, List.length_map, List.length_range, hn]; exact hq
    have hTq : T[q] = blocks.map fun row => (row.getD q ⟨0, 0, fun _ _ => 0⟩).T := by simp [hT]
    have hpT : p < T[q].length := by rw [hTq]; simpa using hp'
    have hTqp : T[q][p] = blocks[p][q].T := by
      simp only [hTq, List.getElem_map]
      rw [hget _ hmem q hq]
    have hr' : r < blocks[p][q].rows := by
      rw [h.row_height hmem _ (List.getElem_mem hq')]
      simpa [BM.heights, rowHeight] using hr
    have hc' : c < blocks[p][q].cols := by
      rw [widths_getElem h hmem q hq' hq]; exact hc
    have e1 := hDTe q hTlen p hpT c r (by rw [hTqp]; exact hc') (by rw [hTqp]; exact hr')
    rw [hTh] at e1
    rw [e1, hTqp]
    simp only [Mat.T]
    exact (hDe p hp' q hq' r c hr' hc').symm

end

/-- Non-vacuity: a `2 × 2` grid of blocks with different sizes is accepted. -/
example : Gluable (K := ℤ)
    [[⟨1, 2, fun _ j => j⟩, ⟨1, 1, fun _ _ => 7⟩], [⟨3, 2, fun i _ => i⟩, ⟨3, 1, fun _ _ => 1⟩]] [2, 1] := by
  refine ⟨by simp, by simp, ?_⟩
  intro row hr
  simp only [List.mem_cons, List.not_mem_nil, or_false] at hr
  rcases hr with rfl | rfl
  · exact ⟨rfl, 1, by simp⟩
  · exact ⟨rfl, 3, by simp⟩

/-! ## C15 -/

/-- C15: the constructor accepts exactly the lists with matching shapes and the axes 0, 1, -1, -2. -/
theorem Cat.mk'_ok_iff (l : List (Mat K)) (axis : ℤ) (c : Cat K) :
    Cat.mk' l axis = .ok c ↔ l ≠ [] ∧ c.linops = l ∧
      (((axis = 0 ∨ axis = -2) ∧ c.vertical = true ∧ ∃ w, ∀ A ∈ l, A.cols = w) ∨
       ((axis = 1 ∨ axis = -1) ∧ c.vertical = false ∧ ∃ h, ∀ A ∈ l, A.rows = h)) := by
  cases l with
  | nil => simp [Cat.mk']
  | cons A l =>
    have hc : (∃ w, ∀ B ∈ A :: l, B.cols = w) ↔ (A :: l).all (fun B => B.cols == A.cols) = true := by
      rw [List.all_eq_true]
      constructor
      · rintro ⟨w, hw⟩ B hB; simp [hw B hB, hw A (by simp)]
      · intro hh; exact ⟨A.cols, fun B hB => by simpa using hh B hB⟩
    have hr : (∃ w, ∀ B ∈ A :: l, B.rows = w) ↔ (A :: l).all (fun B => B.rows == A.rows) = true := by
      rw [List.all_eq_true]
      constructor
      · rintro ⟨w, hw⟩ B hB; simp [hw B hB, hw A (by simp)]
      · intro hh; exact ⟨A.rows, fun B hB => by simpa using hh B hB⟩
    rw [hc, hr]
    obtain ⟨lin, v⟩ := c
    simp only [Cat.mk']
    generalize (A :: l).all (fun B => B.cols == A.cols) = c1
    generalize (A :: l).all (fun B => B.rows == A.rows) = c2
    have sw : (A :: l = lin) ↔ (lin = A :: l) := eq_comm
    by_cases ha : axis = 0 ∨ axis = 1 ∨ axis = -1 ∨ axis = -2
    · simp only [ha, not_true_eq_false, if_false]
      rcases ha with rfl | rfl | rfl | rfl <;> cases c1 <;> cases c2 <;> cases v <;> simp [sw]
    · simp only [ha, not_false_eq_true, if_true]
      constructor
      · intro h; cases h
      · rintro ⟨_, _, h⟩
        exact absurd (by tauto) ha

/-- C15: an empty list or a bad axis is a `ValueError`, mismatched shapes an `AssertionError`. -/
theorem Cat.mk'_error (l : List (Mat K)) (axis : ℤ) (e : Err) (h : Cat.mk' l axis = .error e) :
    (e = .valueError ↔ (l = [] ∨ ¬ (axis = 0 ∨ axis = 1 ∨ axis = -1 ∨ axis = -2))) := by
  cases l with
  | nil => simp only [Cat.mk'] at h; cases h; simp
  | cons A l =>
    simp only [Cat.mk'] at h
    by_cases ha : axis = 0 ∨ axis = 1 ∨ axis = -1 ∨ axis = -2
    · simp only [ha, not_true_eq_false, if_false] at h
      have : e = .assertionError := by
        revert h
        generalize (A :: l).all (fun B => B.cols == A.cols) = c1
        generalize (A :: l).all (fun B => B.rows == A.rows) = c2
        cases c1 <;> cases c2 <;> split_ifs <;> intro h <;> simp_all
      subst this
      simp [ha]
    · simp only [ha, not_false_eq_true, if_true] at h
      cases h
      simp [ha]

/-- C15: the dense matrix of a vertical concatenation stacks the parts. -/
theorem Cat.todense_vertical (l : List (Mat K)) (hne : l ≠ []) (w : ℕ) (hw : ∀ A ∈ l, A.cols = w) :
    ∃ D, (Cat.mk l true).todense = .ok D ∧ (D.rows, D.cols) = (Cat.mk l true).shape ∧
      ∀ p (hp : p < l.length) r, r < l[p].rows → ∀ j,
        D.entry (off (l.map Mat.rows) p + r) j = l[p].entry r j := by
  obtain ⟨h1, h2⟩ := concatRows_ok l hne w hw
  refine ⟨_, h1, ?_, fun p hp r hr j => vcatL_entry l p hp r hr j⟩
  cases l with
  | nil => exact absurd rfl hne
  | cons A l => simp only [Cat.shape, if_true, vcatL_rows, h2, List.headD_cons]; rw [hw A (by simp)]

/-- C15: the dense matrix of a horizontal concatenation puts the parts side by side. -/
theorem Cat.todense_horizontal (l : List (Mat K)) (hne : l ≠ []) (h : ℕ) (hh : ∀ A ∈ l, A.rows = h) :
    ∃ D, (Cat.mk l false).todense = .ok D ∧ (D.rows, D.cols) = (Cat.mk l false).shape ∧
      ∀ q (hq : q < l.length) c, c < l[q].cols → ∀ i,
        D.entry i (off (l.map Mat.cols) q + c) = l[q].entry i c := by
  obtain ⟨h1, h2⟩ := concatCols_ok l hne h hh
  refine ⟨_, h1, ?_, fun p hp r hr j => hcatL_entry l p hp r hr j⟩
  cases l with
  | nil => exact absurd rfl hne
  | cons A l => simp only [Cat.shape, hcatL_cols, h2, List.headD_cons]; rw [hh A (by simp)]; rfl

/-- C15: a concatenation acts as its dense matrix, along both axes. -/
theorem Cat.matmul_spec (l : List (Mat K)) (axis : ℤ) (c : Cat K) (hc : Cat.mk' l axis = .ok c) (x : Mat K)
    (hx : x.rows = c.shape.2) :
    ∃ y D, c.matmul x = .ok y ∧ c.todense = .ok D ∧ y.Eqv (D.mulSpec x) := by
  obtain ⟨hne, hl, h⟩ := (Cat.mk'_ok_iff l axis c).mp hc
  obtain ⟨lin, v⟩ := c
  simp only at hl
  subst hl
  rcases h with ⟨-, hv, w, hw⟩ | ⟨-, hv, hh, hr⟩
  · simp only at hv; subst hv
    have hxw : x.rows = w := by
      rw [hx]
      cases lin with
      | nil => exact absurd rfl hne
      | cons A l => exact hw A (by simp)
    obtain ⟨h1, h2⟩ := concatRows_ok lin hne w hw
    have hm : (Cat.mk lin true).matmul x = concatRows (lin.map fun A => A.mulSpec x) := by
      rw [Cat.matmul, if_pos hx.symm, if_pos rfl, mapM_ok _ (fun A => A.mulSpec x) lin fun A hA => by
        rw [Mat.matmul, if_pos (by rw [hw A hA, hxw])]]
      rfl
    obtain ⟨h3, h4⟩ := concatRows_ok (lin.map fun A => A.mulSpec x) (by simpa using hne) x.cols (by
      intro B hB; obtain ⟨A, _, rfl⟩ := List.mem_map.mp hB; rfl)
    refine ⟨_, _, hm.trans h3, h1, ?_, h4, ?_⟩
    · rw [vcatL_rows, List.map_map, Mat.mulSpec, vcatL_rows]; rfl
    · intro i hi j hj
      have := vcatL_map_entry (fun A => A.mulSpec x) (fun A => A)
        (fun u v => u j = ∑ k ∈ Finset.range w, v k * x.entry k j) lin (fun _ _ => rfl)
        (fun A hA i _ => by rw [Mat.mulSpec, hw A hA]) i hi
      rw [this, Mat.mulSpec, h2, List.map_id']
  · simp only at hv; subst hv
    obtain ⟨h1, h2⟩ := concatCols_ok lin hne hh hr
    have hsum : (lin.map Mat.cols).sum = x.rows := by rw [hx]; rfl
    have hm : (Cat.mk lin false).matmul x = .ok (sumL hh x.cols
        ((lin.zip (pieces x 0 (lin.map Mat.cols))).map fun p => p.1.mulSpec p.2)) := by
      rw [Cat.matmul, if_pos hx.symm, if_neg (by simp), Cat.splitInput,
        npSplit_eq x _ 0 (by simpa using hne) (by rw [Nat.zero_add]; exact hsum)]
      exact rowResult_eq x lin hne hh hr 0
    refine ⟨_, _, hm, h1, ?_, sumL_cols _ _ _, ?_⟩
    · rw [sumL_rows, Mat.mulSpec, h2]
    · intro i _ j _
      rw [sumL_zip, Mat.mulSpec]
      simp

/-- C15: the transpose is the concatenation of the transposes along the other axis and denotes the
transposed dense matrix. -/
theorem Cat.transpose_spec (l : List (Mat K)) (axis : ℤ) (c : Cat K) (hc : Cat.mk' l axis = .ok c) :
    ∃ cT D DT, c.transpose = .ok cT ∧ cT.linops = l.map Mat.T ∧ cT.vertical = !c.vertical ∧
      c.todense = .ok D ∧ cT.todense = .ok DT ∧ DT.Eqv D.T := by
  obtain ⟨hne, hl, h⟩ := (Cat.mk'_ok_iff l axis c).mp hc
  obtain ⟨lin, v⟩ := c
  simp only at hl
  subst hl
  have hne' : lin.map Mat.T ≠ [] := by simpa using hne
  rcases h with ⟨-, hv, w, hw⟩ | ⟨-, hv, hh, hr⟩
  · simp only at hv; subst hv
    have hw' : ∀ A ∈ lin.map Mat.T, A.rows = w := by
      intro B hB; obtain ⟨A, hA, rfl⟩ := List.mem_map.mp hB; exact hw A hA
    have h1 : (Cat.mk lin true).transpose = .ok ⟨lin.map Mat.T, false⟩ :=
      (Cat.mk'_ok_iff _ _ _).mpr ⟨hne', rfl, Or.inr ⟨by simp, rfl, w, hw'⟩⟩
    obtain ⟨D, d1, d2, d3⟩ := Cat.todense_vertical lin hne w hw
    obtain ⟨DT, e1, e2, e3⟩ := Cat.todense_horizontal _ hne' w hw'
    refine ⟨_, D, DT, h1, rfl, rfl, d1, e1, ?_⟩
    have hT : (lin.map Mat.T).map Mat.cols = lin.map Mat.rows := by rw [List.map_map]; rfl
    obtain ⟨A, lin', rfl⟩ := List.exists_cons_of_ne_nil hne
    simp only [Cat.shape, Prod.mk.injEq, if_true, Bool.false_eq_true, if_false] at d2 e2
    rw [hT] at e2 e3
    refine ⟨?_, ?_, ?_⟩
    · rw [e2.1]; simp [Mat.T, d2.2]
    · rw [Mat.T, d2.1]; exact e2.2
    · intro i _ j hj
      have hj' : j < ((A :: lin').map Mat.rows).sum := by
        have h5 : DT.cols = _ := e2.2
        rw [h5] at hj; exact hj
      obtain ⟨p, hp, r, hr, rfl⟩ := exists_off _ j hj'
      have hp' : p < (A :: lin').length := by simpa using hp
      have hr' : r < (A :: lin')[p].rows := by rwa [List.getElem_map] at hr
      rw [e3 p (by simpa using hp') r (by rw [List.getElem_map]; exact hr') i]
      simp only [Mat.T, List.getElem_map]
      exact (d3 p hp' r hr' i).symm
  · simp only at hv; subst hv
    have hw' : ∀ A ∈ lin.map Mat.T, A.cols = hh := by
      intro B hB; obtain ⟨A, hA, rfl⟩ := List.mem_map.mp hB; exact hr A hA
    have h1 : (Cat.mk lin false).transpose = .ok ⟨lin.map Mat.T, true⟩ :=
      (Cat.mk'_ok_iff _ _ _).mpr ⟨hne', rfl, Or.inl ⟨by simp, rfl, hh, hw'⟩⟩
    obtain ⟨D, d1, d2, d3⟩ := Cat.todense_horizontal lin hne hh hr
    obtain ⟨DT, e1, e2, e3⟩ := Cat.todense_vertical _ hne' hh hw'
    refine ⟨_, D, DT, h1, rfl, rfl, d1, e1, ?_⟩
    have hT : (lin.map Mat.T).map Mat.rows = lin.map Mat.cols := by rw [List.map_map]; rfl
    obtain ⟨A, lin', rfl⟩ := List.exists_cons_of_ne_nil hne
    simp only [Cat.shape, Prod.mk.injEq, if_true, Bool.false_eq_true, if_false] at d2 e2
    rw [hT] at e2 e3
    refine ⟨?_, ?_, ?_⟩
    · rw [Mat.T, e2.1]; exact d2.2.symm
    · rw [e2.2]; simp [Mat.T, d2.1]
    · intro i hi j _
      have hi' : i < ((A :: lin').map Mat.cols).sum := by rw [e2.1] at hi; exact hi
      obtain ⟨p, hp, r, hr, rfl⟩ := exists_off _ i hi'
      have hp' : p < (A :: lin').length := by simpa using hp
      have hr' : r < (A :: lin')[p].cols := by rwa [List.getElem_map] at hr
      rw [e3 p (by simpa using hp') r (by rw [List.getElem_map]; exact hr') j]
      simp only [Mat.T, List.getElem_map]
      exact (d3 p hp' r hr' j).symm

/-- Non-vacuity: three operators of different widths are concatenated along axis -1. -/
example : ∃ c, Cat.mk' (K := ℤ) [⟨2, 1, fun _ _ => 1⟩, ⟨2, 3, fun i j => i + j⟩, ⟨2, 0, fun _ _ => 0⟩] (-1) =
    .ok c ∧ c.shape = (2, 4) := by
  refine ⟨⟨_, false⟩, rfl, rfl⟩

end LinPDE.Grid
