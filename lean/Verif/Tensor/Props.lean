import Verif.Tensor.Model
import Mathlib.Algebra.BigOperators.Fin
import Mathlib.Tactic.NormNum

/-!
# Properties of tensor-product covariance functions: construction, evaluation, grids (C28)
-/

namespace LinPDE.Tensor
open LinPDE.Nd LinPDE.Grid LinPDE.Coeff

/-! ## Construction -/

/-- A tensor product is constructed exactly from at least one factor, all on scalar inputs and with common output
shapes; the factors are kept. -/
theorem mkTP_ok_iff (fs : List Fac) (t : TP) : mkTP fs = .ok t ↔
    t.factors = fs ∧ (∀ k ∈ fs, k.inS = []) ∧ ∀ k ∈ fs, k.out0 = t.head.out0 ∧ k.out1 = t.head.out1 := by
  unfold mkTP
  rw [if_neg (Nat.not_lt_zero _)]
  rcases fs with _ | ⟨f, fs⟩
  · simp [TP.factors]
  · have hd : ((f :: fs).head?) = some f := rfl
    simp only [hd, Option.any_some]
    by_cases h1 : ((f :: fs).all fun k => k.inS == []) = true
    · rw [h1]
      by_cases h2 : ((f :: fs).all fun k => (k.out0 == f.out0) && (k.out1 == f.out1)) = true
      · rw [h2]
        simp only [Bool.not_true, Bool.false_eq_true, ↓reduceIte, Except.ok.injEq]
        simp only [List.all_eq_true, beq_iff_eq, Bool.and_eq_true] at h1 h2
        constructor
        · rintro rfl
          exact ⟨rfl, h1, h2⟩
        · rintro ⟨h, -, -⟩
          obtain ⟨a, b⟩ := t
          simp only [TP.factors, List.cons.injEq] at h
          rw [h.1, h.2]
      · simp only [Bool.not_eq_true] at h2
        rw [h2]
        simp only [Bool.not_true, Bool.not_false, Bool.false_eq_true, ↓reduceIte, reduceCtorEq, false_iff, not_and]
        intro h _ h3
        obtain ⟨a, b⟩ := t
        simp only [TP.factors, List.cons.injEq] at h
        obtain ⟨rfl, rfl⟩ := h
        have : ((a :: b).all fun k => (k.out0 == a.out0) && (k.out1 == a.out1)) = true := by
          simp only [List.all_eq_true, beq_iff_eq, Bool.and_eq_true]
          exact h3
        rw [this] at h2
        cases h2
    · simp only [Bool.not_eq_true] at h1
      rw [h1]
      simp only [Bool.not_false, ↓reduceIte, reduceCtorEq, false_iff, not_and]
      intro _ h
      exfalso
      have : ((f :: fs).all fun k => k.inS == []) = true := by
        simp only [List.all_eq_true, beq_iff_eq]
        exact h
      rw [this] at h1
      cases h1

/-- The intended `ValueError` for an empty list of factors never occurs; the construction fails with an
`IndexError`. -/
theorem mkTP_empty_violated : mkTP [] = .error .indexError ∧ mkTP [] ≠ .error .valueError := by
  have h : mkTP [] = .error .indexError := by simp [mkTP]
  exact ⟨h, by rw [h]; simp⟩

/-! ## Evaluation -/

/-- Product of the factors over the dimensions. -/
def prodEv (o : List ℕ) : List Fac → List ℝ → List ℝ → ℝ
  | k :: ks, x :: xs, y :: ys => k.ev x y o * prodEv o ks xs ys
  | _, _, _ => 1

lemma prodEv_eq (o : List ℕ) : ∀ (ks : List Fac) (x y : List ℝ), x.length = ks.length → y.length = ks.length →
    prodEv o ks x y = ∏ i : Fin ks.length, (ks.get i).ev (x.getD i 0) (y.getD i 0) o
  | [], [], [], _, _ => by simp [prodEv]
  | k :: ks, x :: xs, y :: ys, hx, hy => by
    rw [prodEv, prodEv_eq o ks xs ys (by simpa using hx) (by simpa using hy)]
    simp only [List.length_cons]
    rw [Fin.prod_univ_succ]
    simp

lemma foldl_mul (l : List ℝ) : ∀ a : ℝ, l.foldl (· * ·) a = a * l.prod := by
  induction l with
  | nil => intro a; simp
  | cons b l ih => intro a; rw [List.foldl_cons, ih, List.prod_cons, mul_assoc]

/-- Evaluation is the product over the dimensions of the factors at the corresponding coordinates, for every number of
factors and every entry of the output. -/
theorem evaluate_eq_prod (t : TP) (x0 x1 : List ℝ) (o : List ℕ) :
    t.evaluate x0 (some x1) o = ∏ i : Fin t.factors.length, (t.factors.get i).ev (x0.getD i 0) (x1.getD i 0) o := by
  unfold TP.evaluate evaluateDimensionwise
  rw [show t.factors = t.head :: t.tail from rfl, List.mapIdx_cons]
  simp only [reduce, Option.getD_some, foldl_mul]
  have h : (List.mapIdx (fun i (k : Fac) => k.ev (x0.getD (i + 1) 0) (x1.getD (i + 1) 0) o) t.tail).prod =
      ∏ i : Fin t.tail.length, (t.tail.get i).ev (x0.getD (i.1 + 1) 0) (x1.getD (i.1 + 1) 0) o := by
    rw [← List.prod_ofFn]
    congr 1
    refine List.ext_getElem (by simp) fun i _ _ => by simp
  rw [h]
  simp only [List.length_cons]
  rw [Fin.prod_univ_succ]
  simp

/-- With `x1 = None` the second argument is the first. -/
theorem evaluate_none (t : TP) (x0 : List ℝ) (o : List ℕ) : t.evaluate x0 none o = t.evaluate x0 (some x0) o := rfl

/-- The public call refuses points of the wrong dimension and otherwise returns that product. -/
theorem call_spec (t : TP) (x0 x1 : List ℝ) (o : List ℕ) : t.call x0 (some x1) o =
    if x0.length = t.factors.length ∧ x1.length = t.factors.length then
      .ok (∏ i : Fin t.factors.length, (t.factors.get i).ev (x0.getD i 0) (x1.getD i 0) o)
    else .error .valueError := by
  unfold TP.call
  rw [evaluate_eq_prod]
  simp only [Option.getD_some]
  split_ifs with h h' h'
  · exact absurd h' (by tauto)
  · rfl
  · rfl
  · exact absurd h' (by tauto)

example : ∃ t, mkTP [⟨[], [], [], fun s t _ => s * t⟩, ⟨[], [], [], fun s t _ => s + t⟩] = .ok t ∧
    t.call [2, 3] (some [5, 7]) [] = .ok 100 := by
  refine ⟨_, rfl, ?_⟩
  rw [call_spec]
  simp only [TP.factors, List.length_cons, List.length_nil, Nat.reduceAdd, and_self, ↓reduceIte, Except.ok.injEq]
  show ∏ i : Fin 2, _ = _
  rw [Fin.prod_univ_two]
  norm_num

/-! ## Kronecker structure -/

lemma evaluate_eq_prodEv (t : TP) (x0 x1 : List ℝ) (o : List ℕ) (h0 : x0.length = t.factors.length)
    (h1 : x1.length = t.factors.length) : t.evaluate x0 (some x1) o = prodEv o t.factors x0 x1 := by
  rw [evaluate_eq_prod, prodEv_eq o _ _ _ h0 h1]

/-- Multi-index of a position, without assuming that the position is in range. -/
def umod : Shp → ℕ → List ℕ
  | [], _ => []
  | s :: ss, n => (n / ss.prod % s) :: umod ss n

lemma umod_mod : ∀ (s : Shp) (n : ℕ), umod s (n % s.prod) = umod s n
  | [], _ => rfl
  | s :: ss, n => by
    rw [umod, umod, List.prod_cons]
    congr 1
    · rw [Nat.mul_comm, Nat.mod_mul_right_div_self, Nat.mod_mod]
    · rw [← umod_mod ss, Nat.mod_mod_of_dvd _ (Dvd.intro_left s rfl), umod_mod ss]

lemma umod_eq : ∀ (s : Shp) (n : ℕ), n < s.prod → umod s n = unravel s n
  | [], _, _ => rfl
  | s :: ss, n, h => by
    rw [List.prod_cons] at h
    have hpos : 0 < ss.prod := by
      rcases Nat.eq_zero_or_pos ss.prod with h0 | h0
      · rw [h0] at h; simp at h
      · exact h0
    rw [umod, unravel, ← umod_eq ss _ (Nat.mod_lt _ hpos), umod_mod]
    congr 1
    exact Nat.mod_eq_of_lt ((Nat.div_lt_iff_lt_mul hpos).mpr h)

/-- Entry of an iterated Kronecker product. -/
def kronEntry : List (Mat ℝ) → ℕ → ℕ → ℝ
  | [], _, _ => 1
  | m :: ms, i, j => m.entry (i / (ms.map Mat.rows).prod % m.rows) (j / (ms.map Mat.cols).prod % m.cols) * kronEntry ms i j

lemma foldl_kron (ms : List (Mat ℝ)) : ∀ A : Mat ℝ,
    (ms.foldl kron A).rows = A.rows * (ms.map Mat.rows).prod ∧ (ms.foldl kron A).cols = A.cols * (ms.map Mat.cols).prod ∧
    ∀ i j, (ms.foldl kron A).entry i j =
      A.entry (i / (ms.map Mat.rows).prod) (j / (ms.map Mat.cols).prod) * kronEntry ms i j := by
  induction ms with
  | nil => intro A; simp [kronEntry]
  | cons m ms ih =>
    intro A
    obtain ⟨h1, h2, h3⟩ := ih (kron A m)
    rw [List.foldl_cons]
    refine ⟨?_, ?_, fun i j => ?_⟩
    · rw [h1]; simp [kron, mul_assoc]
    · rw [h2]; simp [kron, mul_assoc]
    · rw [h3]
      simp only [kron, kronEntry, List.map_cons, List.prod_cons, Nat.div_div_eq_div_mul]
      rw [Nat.mul_comm m.rows, Nat.mul_comm m.cols]
      ring

/-- Matrices of the factors on the factors of two grids. -/
def facMats : List Fac → List (List ℝ) → List (List ℝ) → List (Mat ℝ)
  | k :: ks, a :: as, b :: bs => k.linop a (some b) :: facMats ks as bs
  | _, _, _ => []

lemma kronFactors_some : ∀ (ks : List Fac) (F0 F1 : List (List ℝ)), F0.length = ks.length → F1.length = ks.length →
    kronFactors ks (F0.zip (F1.map some)) = .ok (facMats ks F0 F1)
  | [], [], [], _, _ => rfl
  | k :: ks, a :: as, b :: bs, h0, h1 => by
    have ih := kronFactors_some ks as bs (by simpa using h0) (by simpa using h1)
    simp only [List.map_cons, List.zip_cons_cons, kronFactors, facMats, ih, bind, Except.bind]

lemma kronFactors_none : ∀ (ks : List Fac) (F0 : List (List ℝ)),
    kronFactors ks (F0.zip (F0.map fun _ => none)) = kronFactors ks (F0.zip (F0.map some))
  | _, [] => rfl
  | [], a :: as => rfl
  | k :: ks, a :: as => by
    simp only [List.map_cons, List.zip_cons_cons, kronFactors, kronFactors_none ks as]
    rfl

lemma facMats_shape : ∀ (ks : List Fac) (F0 F1 : List (List ℝ)), F0.length = ks.length → F1.length = ks.length →
    (∀ k ∈ ks, k.out0 = [] ∧ k.out1 = []) →
    (facMats ks F0 F1).map Mat.rows = F0.map List.length ∧ (facMats ks F0 F1).map Mat.cols = F1.map List.length
  | [], [], [], _, _, _ => ⟨rfl, rfl⟩
  | k :: ks, a :: as, b :: bs, h0, h1, hs => by
    have ih := facMats_shape ks as bs (by simpa using h0) (by simpa using h1) fun k hk => hs k (by simp [hk])
    obtain ⟨e0, e1⟩ := hs k (by simp)
    simp [facMats, ih, Fac.linop, dense, e0, e1]

/-- Coordinates picked from the factors of a grid. -/
def pick (F : List (List ℝ)) (idx : List ℕ) : List ℝ := List.zipWith (fun (f : List ℝ) i => f.getD i 0) F idx

lemma kronEntry_facMats : ∀ (ks : List Fac) (F0 F1 : List (List ℝ)), F0.length = ks.length → F1.length = ks.length →
    (∀ k ∈ ks, k.out0 = [] ∧ k.out1 = []) → ∀ i j, kronEntry (facMats ks F0 F1) i j =
      prodEv [] ks (pick F0 (umod (F0.map List.length) i)) (pick F1 (umod (F1.map List.length) j))
  | [], [], [], _, _, _ => fun _ _ => rfl
  | k :: ks, a :: as, b :: bs, h0, h1, hs => fun i j => by
    have ih := kronEntry_facMats ks as bs (by simpa using h0) (by simpa using h1) (fun k hk => hs k (by simp [hk])) i j
    obtain ⟨s0, s1⟩ := facMats_shape ks as bs (by simpa using h0) (by simpa using h1) fun k hk => hs k (by simp [hk])
    obtain ⟨e0, e1⟩ := hs k (by simp)
    simp only [facMats, kronEntry, ih, s0, s1, List.map_cons, umod, pick, List.zipWith_cons_cons, prodEv]
    congr 1
    simp [Fac.linop, dense, e0, e1, unravel]

lemma umod_length (s : Shp) (n : ℕ) : (umod s n).length = s.length := by
  induction s with
  | nil => rfl
  | cons a s ih => simp [umod, ih]

lemma pick_length (F : List (List ℝ)) (n : ℕ) : (pick F (umod (F.map List.length) n)).length = F.length := by
  simp [pick, umod_length]

/-- Reduce over the factor matrices. -/
lemma reduce_facMats (ks : List Fac) (F0 F1 : List (List ℝ)) (hne : ks ≠ []) (h0 : F0.length = ks.length) (h1 : F1.length = ks.length)
    (hs : ∀ k ∈ ks, k.out0 = [] ∧ k.out1 = []) : ∃ A, reduceE kron (facMats ks F0 F1) = .ok A ∧
      A.rows = (F0.map List.length).prod ∧ A.cols = (F1.map List.length).prod ∧
      ∀ i < A.rows, ∀ j < A.cols, A.entry i j =
        prodEv [] ks (pick F0 (umod (F0.map List.length) i)) (pick F1 (umod (F1.map List.length) j)) := by
  obtain ⟨k, ks, rfl⟩ := List.exists_cons_of_ne_nil hne
  obtain ⟨a, as, rfl⟩ := List.exists_cons_of_length_eq_add_one h0
  obtain ⟨b, bs, rfl⟩ := List.exists_cons_of_length_eq_add_one h1
  have h0' : as.length = ks.length := by simpa using h0
  have h1' : bs.length = ks.length := by simpa using h1
  have hs' : ∀ k ∈ ks, k.out0 = [] ∧ k.out1 = [] := fun k hk => hs k (by simp [hk])
  obtain ⟨s0, s1⟩ := facMats_shape ks as bs h0' h1' hs'
  obtain ⟨e0, e1⟩ := hs k (by simp)
  obtain ⟨r, c, e⟩ := foldl_kron (facMats ks as bs) (k.linop a (some b))
  have lr : (k.linop a (some b)).rows = a.length := by simp [Fac.linop, dense, e0]
  have lc : (k.linop a (some b)).cols = b.length := by simp [Fac.linop, dense, e1]
  refine ⟨_, rfl, ?_, ?_, ?_⟩
  · show (List.foldl kron _ _).rows = _
    rw [r, s0, lr]; simp
  · show (List.foldl kron _ _).cols = _
    rw [c, s1, lc]; simp
  · show ∀ i < (List.foldl kron _ _).rows, ∀ j < (List.foldl kron _ _).cols, (List.foldl kron _ _).entry i j = _
    intro i hi j hj
    rw [e, kronEntry_facMats ks as bs h0' h1' hs', s0, s1]
    rw [r, s0, lr] at hi
    rw [c, s1, lc] at hj
    simp only [List.map_cons, umod, pick, List.zipWith_cons_cons, prodEv]
    congr 1
    have hp0 : 0 < (as.map List.length).prod := Nat.pos_of_ne_zero fun h => by rw [h] at hi; simp at hi
    have hp1 : 0 < (bs.map List.length).prod := Nat.pos_of_ne_zero fun h => by rw [h] at hj; simp at hj
    have hi' : i / (as.map List.length).prod < a.length := (Nat.div_lt_iff_lt_mul hp0).mpr hi
    have hj' : j / (bs.map List.length).prod < b.length := (Nat.div_lt_iff_lt_mul hp1).mpr hj
    simp [Fac.linop, dense, e0, e1, unravel, Nat.mod_eq_of_lt hi']

/-- Points of a grid in "ij" order. -/
lemma ij_points (F : List (List ℝ)) (i : ℕ) (hi : i < (F.map List.length).prod) :
    (TPGrid.points ⟨F, false⟩).length = (F.map List.length).prod ∧
    (TPGrid.points ⟨F, false⟩).getD i [] = pick F (umod (F.map List.length) i) := by
  refine ⟨by simp [TPGrid.points, TPGrid.shape], ?_⟩
  rw [umod_eq _ _ hi]
  simp [TPGrid.points, TPGrid.shape, TPGrid.point, pick, List.getElem?_range hi]

/-- Whatever the indexing of the grids, the operator built from grids is the Kronecker product, whose entries are the
kernel values at the points enumerated in "ij" order. -/
theorem linop_grid_entries (t : TP) (g0 g1 : TPGrid) (h0 : g0.factors.length = t.factors.length)
    (h1 : g1.factors.length = t.factors.length) (hs : ∀ k ∈ t.factors, k.out0 = [] ∧ k.out1 = []) :
    ∃ A, t.linop (.grid g0) (some (.grid g1)) = .ok A ∧
      A.rows = (TPGrid.points ⟨g0.factors, false⟩).length ∧ A.cols = (TPGrid.points ⟨g1.factors, false⟩).length ∧
      ∀ i < A.rows, ∀ j < A.cols, A.entry i j =
        t.evaluate ((TPGrid.points ⟨g0.factors, false⟩).getD i []) (some ((TPGrid.points ⟨g1.factors, false⟩).getD j [])) [] := by
  obtain ⟨A, hA, r, c, e⟩ := reduce_facMats t.factors g0.factors g1.factors (by simp [TP.factors]) h0 h1 hs
  refine ⟨A, ?_, ?_, ?_, ?_⟩
  · show TP.linopKron t g0 (some g1) = _
    simp only [TP.linopKron, kronFactors_some _ _ _ h0 h1, bind, Except.bind, hA]
  · rw [r]; simp [TPGrid.points, TPGrid.shape]
  · rw [c]; simp [TPGrid.points, TPGrid.shape]
  · intro i hi j hj
    rw [e i hi j hj]
    rw [r] at hi
    rw [c] at hj
    rw [(ij_points _ _ hi).2, (ij_points _ _ hj).2, evaluate_eq_prodEv]
    · rw [pick_length, h0]
    · rw [pick_length, h1]

/-- On grids the second argument `None` means the first grid. -/
theorem linop_grid_none (t : TP) (g : TPGrid) : t.linop (.grid g) none = t.linop (.grid g) (some (.grid g)) := by
  show TP.linopKron t g none = TP.linopKron t g (some g)
  simp only [TP.linopKron, kronFactors_none]

lemma points_dim (F : List (List ℝ)) (p : List ℝ) (hp : p ∈ TPGrid.points ⟨F, false⟩) : p.length = F.length := by
  simp only [TPGrid.points, TPGrid.shape, List.mem_map, List.mem_range] at hp
  obtain ⟨n, hn, rfl⟩ := hp
  have : (unravel (F.map List.length) n).length = F.length := by
    rw [(fits_unravel (by simpa using hn)).length]; simp
  simp [TPGrid.point, this]

/-- Scalar-valued factors, grids in the default "ij" indexing: the Kronecker operator is the dense kernel matrix of
the grid's points, in the order of the points of the grid array, for every number of factors and all grids. -/
theorem linop_grid_eq_dense_partial (t : TP) (F0 F1 : List (List ℝ)) (h0 : F0.length = t.factors.length)
    (h1 : F1.length = t.factors.length) (hs : ∀ k ∈ t.factors, k.out0 = [] ∧ k.out1 = []) :
    ∃ A B, t.linop (.grid ⟨F0, false⟩) (some (.grid ⟨F1, false⟩)) = .ok A ∧
      t.linop (.plain (TPGrid.points ⟨F0, false⟩)) (some (.plain (TPGrid.points ⟨F1, false⟩))) = .ok B ∧ A.Eqv B := by
  obtain ⟨A, hA, r, c, e⟩ := linop_grid_entries t ⟨F0, false⟩ ⟨F1, false⟩ h0 h1 hs
  obtain ⟨e0, e1⟩ := hs t.head (by simp [TP.factors])
  have v : (!((TPGrid.points ⟨F0, false⟩).all fun p => p.length == t.factors.length) ||
      !((TPGrid.points ⟨F1, false⟩).all fun p => p.length == t.factors.length)) = false := by
    simp only [Bool.or_eq_false_iff, Bool.not_eq_false', List.all_eq_true, beq_iff_eq]
    exact ⟨fun p hp => by rw [points_dim _ p hp, h0], fun p hp => by rw [points_dim _ p hp, h1]⟩
  refine ⟨A, dense t.head.out0 t.head.out1 (fun p q o => t.evaluate p (some q) o) [] (TPGrid.points ⟨F0, false⟩)
      (TPGrid.points ⟨F1, false⟩), hA, ?_, ?_⟩
  · show TP.linopDense t _ (some _) = _
    unfold TP.linopDense
    simp only [Pts.points, Option.getD_some, v, Bool.false_eq_true, ↓reduceIte]
  · refine ⟨by rw [r]; simp [dense, e0], by rw [c]; simp [dense, e1], fun i hi j hj => ?_⟩
    rw [e i hi j hj]
    rw [r] at hi
    rw [c] at hj
    simp only [dense, e0, e1, Nat.mod_eq_of_lt hi, Nat.mod_eq_of_lt hj, unravel, List.append_nil]

example : ∃ t : TP, (∀ k ∈ t.factors, k.out0 = [] ∧ k.out1 = []) ∧ ([[1, 2], [3, 4, 5]] : List (List ℝ)).length = t.factors.length :=
  ⟨⟨⟨[], [], [], fun s t _ => s * t⟩, [⟨[], [], [], fun s t _ => s + t⟩]⟩, by simp [TP.factors], by simp [TP.factors]⟩

/-- Flattening a two-dimensional array in C order. -/
lemma range_prod_map (A B : List ℝ) (f : ℝ → ℝ → List ℝ) :
    (List.range (A.length * B.length)).map (fun n => f (A.getD (n / B.length) 0) (B.getD (n % B.length) 0)) =
      A.flatMap fun a => B.map fun b => f a b := by
  induction A with
  | nil => simp
  | cons a A ih =>
    rw [List.length_cons, Nat.add_mul, one_mul, Nat.add_comm, List.range_add, List.map_append, List.flatMap_cons, ← ih]
    congr 1
    · apply List.ext_getElem
      · simp
      · intro i h1 h2
        simp at h1
        simp [Nat.div_eq_of_lt h1, Nat.mod_eq_of_lt h1, List.getD_eq_getElem?_getD, h1]
    · rw [List.map_map]
      apply List.map_congr_left
      intro n hn
      have hB : 0 < B.length := by
        by_contra h0
        simp [show B.length = 0 by omega] at hn
      simp [Function.comp, Nat.add_div_left _ hB, Nat.add_mod_left]

/-- The points of a planar grid, in the order in which the array is flattened: `"ij"` runs through the second factor fastest, `"xy"`
through the first one. -/
theorem grid_points_planar (A B : List ℝ) :
    (∀ g, mkGrid [A, B] "ij" = .ok g → g.points = A.flatMap fun a => B.map fun b => [a, b]) ∧
      ∀ g, mkGrid [A, B] "xy" = .ok g → g.points = B.flatMap fun b => A.map fun a => [a, b] := by
  constructor
  · intro g hg
    simp [mkGrid] at hg
    subst hg
    simp only [TPGrid.points, TPGrid.shape, TPGrid.point]
    simpa [unravel] using range_prod_map A B fun a b => [a, b]
  · intro g hg
    simp [mkGrid] at hg
    subst hg
    simp only [TPGrid.points, TPGrid.shape, TPGrid.point]
    simpa [unravel, swap01] using range_prod_map B A fun b a => [a, b]

example : ∃ g, mkGrid [[1, 2], [3, 4, 5]] "xy" = .ok g ∧ g.points = [[1, 3], [2, 3], [1, 4], [2, 4], [1, 5], [2, 5]] := by
  obtain ⟨g, hg⟩ : ∃ g, mkGrid [[1, 2], [3, 4, 5]] "xy" = .ok g := ⟨_, by simp [mkGrid]; rfl⟩
  exact ⟨g, hg, by rw [(grid_points_planar _ _).2 g hg]; simp⟩

/-- A grid with `indexing="xy"`: the Kronecker operator is not the kernel matrix in the grid's point order. -/
theorem linop_xy_violated : ∃ (t : TP) (g : TPGrid) (A B : Mat ℝ), mkGrid g.factors "xy" = .ok g ∧
    g.factors.length = t.factors.length ∧ (∀ k ∈ t.factors, k.out0 = [] ∧ k.out1 = []) ∧
    t.linop (.grid g) none = .ok A ∧ t.linop (.plain g.points) none = .ok B ∧ ¬ A.Eqv B := by
  let t : TP := ⟨⟨[], [], [], fun s t _ => s * t⟩, [⟨[], [], [], fun _ _ _ => 1⟩]⟩
  let g : TPGrid := ⟨[[1, 2], [1, 3]], true⟩
  have hp : g.points = [[1, 1], [2, 1], [1, 3], [2, 3]] := by
    simp [g, TPGrid.points, TPGrid.shape, TPGrid.point, swap01, unravel, List.range_succ]
  obtain ⟨A, hA, r, c, e⟩ := linop_grid_entries t g g rfl rfl (by simp [t, TP.factors])
  refine ⟨t, g, A, dense [] [] (fun p q o => t.evaluate p (some q) o) [] g.points g.points, by simp [mkGrid, g], rfl,
    by simp [t, TP.factors], by rw [linop_grid_none]; exact hA, ?_, ?_⟩
  · show TP.linopDense t g.points none = _
    unfold TP.linopDense
    simp only [Option.getD_none]
    have v : (!(g.points.all fun p => p.length == t.factors.length) ||
      !(g.points.all fun p => p.length == t.factors.length)) = false := by
      rw [hp]
      simp [t, TP.factors]
    rw [v]
    rfl
  · rintro ⟨-, -, h⟩
    have hr : A.rows = 4 := by rw [r]; simp [TPGrid.points, TPGrid.shape, g]
    have hc : A.cols = 4 := by rw [c]; simp [TPGrid.points, TPGrid.shape, g]
    have := h 0 (by omega) 1 (by omega)
    rw [e 0 (by omega) 1 (by omega)] at this
    have hq : TPGrid.points ⟨g.factors, false⟩ = [[1, 1], [1, 3], [2, 1], [2, 3]] := by
      simp [g, TPGrid.points, TPGrid.shape, TPGrid.point, unravel, List.range_succ]
    rw [hq] at this
    simp only [dense, hp] at this
    norm_num [TP.evaluate, evaluateDimensionwise, TP.factors, t, reduce] at this

/-- Factors with vector-valued outputs are accepted, but on grids the operator has the wrong size. -/
theorem linop_multi_output_violated : ∃ (fs : List Fac) (t : TP) (F : List (List ℝ)) (A B : Mat ℝ), mkTP fs = .ok t ∧
    F.length = t.factors.length ∧ t.linop (.grid ⟨F, false⟩) none = .ok A ∧
    t.linop (.plain (TPGrid.points ⟨F, false⟩)) none = .ok B ∧ A.rows ≠ B.rows := by
  let k : Fac := ⟨[], [2], [2], fun s t o => if o = [0, 0] then s * t else 1⟩
  refine ⟨[k, k], ⟨k, [k]⟩, [[1], [1]], _, dense [2] [2] (fun p q o => TP.evaluate ⟨k, [k]⟩ p (some q) o) []
    (TPGrid.points ⟨[[1], [1]], false⟩) (TPGrid.points ⟨[[1], [1]], false⟩), by simp [mkTP, k], rfl, rfl, ?_, ?_⟩
  · show TP.linopDense _ _ none = _
    unfold TP.linopDense
    have hq : TPGrid.points ⟨[[1], [1]], false⟩ = [[1, 1]] := by
      simp [TPGrid.points, TPGrid.shape, TPGrid.point, unravel, List.range_succ]
    simp only [Pts.points, Option.getD_none, hq]
    simp [TP.factors, k]
  · simp [reduce, kron, Fac.linop, dense, k, TPGrid.points, TPGrid.shape]

/-- A grid with fewer factors than the covariance function is not refused, although its points are. -/
theorem linop_grid_dim_violated : ∃ (t : TP) (F : List (List ℝ)), F.length ≠ t.factors.length ∧
    (∃ A, t.linop (.grid ⟨F, false⟩) none = .ok A) ∧
    t.linop (.plain (TPGrid.points ⟨F, false⟩)) none = .error .valueError := by
  let k : Fac := ⟨[], [], [], fun s t _ => s * t⟩
  refine ⟨⟨k, [k]⟩, [[1]], by simp [TP.factors], ⟨_, rfl⟩, ?_⟩
  show TP.linopDense _ _ none = _
  unfold TP.linopDense
  have hq : TPGrid.points ⟨[[1]], false⟩ = [[1]] := by
    simp [TPGrid.points, TPGrid.shape, TPGrid.point, unravel, List.range_succ]
  simp [Pts.points, hq, TP.factors]

lemma kronFactors_too_many : ∀ (ks : List Fac) (r : List (List ℝ × Option (List ℝ))), ks.length < r.length →
    kronFactors ks r = .error .indexError
  | [], _ :: _, _ => rfl
  | k :: ks, (a, b) :: r, h => by
    simp only [kronFactors, kronFactors_too_many ks r (by simpa using h), bind, Except.bind]

/-- Grids with more factors than the covariance function give an `IndexError`. -/
theorem linop_grid_too_many (t : TP) (g : TPGrid) (h : t.factors.length < g.factors.length) :
    t.linop (.grid g) none = .error .indexError := by
  show TP.linopKron t g none = _
  simp only [TP.linopKron]
  rw [kronFactors_too_many _ _ (by simpa using h)]
  rfl

end LinPDE.Tensor
