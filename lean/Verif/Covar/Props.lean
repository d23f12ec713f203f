import Verif.Covar.Model

/-! # Properties of covariance objects (C47) -/

namespace LinPDE.Covar
open LinPDE.Nd

/-! ### Multi-indices in lexicographic order -/

/-- All multi-indices of a shape, last index fastest. -/
def allIdx : Shp → List (List ℕ)
  | [] => [[]]
  | s :: ss => (List.range s).flatMap fun i => (allIdx ss).map fun is => i :: is

lemma range_mul (P : ℕ) : ∀ s : ℕ, List.range (s * P) = (List.range s).flatMap fun i => (List.range P).map fun j => i * P + j
  | 0 => by simp
  | s + 1 => by
    rw [Nat.add_mul, Nat.one_mul, List.range_add, range_mul P s, List.range_succ, List.flatMap_append]
    simp

lemma range_map_unravel : ∀ s : Shp, (List.range s.prod).map (unravel s) = allIdx s
  | [] => by simp [allIdx, unravel]
  | s :: ss => by
    rw [allIdx, ← range_map_unravel ss, List.prod_cons, range_mul, List.map_flatMap]
    congr 1
    funext i
    rw [List.map_map, List.map_map]
    apply List.map_congr_left
    intro j hj
    rw [List.mem_range] at hj
    have hpos : 0 < ss.prod := by omega
    simp only [Function.comp, unravel]
    rw [Nat.mul_comm i, Nat.mul_add_div hpos, Nat.div_eq_of_lt hj, Nat.mul_add_mod, Nat.mod_eq_of_lt hj, Nat.add_zero]

lemma mem_allIdx {s : Shp} {i : List ℕ} (h : i ∈ allIdx s) : Fits s i := by
  rw [← range_map_unravel, List.mem_map] at h
  obtain ⟨p, hp, rfl⟩ := h
  exact fits_unravel (List.mem_range.mp hp)

/-! ### Views -/

lemma prod2 (a b : ℕ) : List.prod [a, b] = a * b := by simp

lemma ravel2 (a b p q : ℕ) : ravel [a, b] [p, q] = p * b + q := by simp [ravel]

lemma unravel2 {a b p q : ℕ} (hq : q < b) : unravel [a, b] (p * b + q) = [p, q] := by
  have hb : 0 < b := by omega
  simp [unravel, Nat.mul_comm p b, Nat.mul_add_div hb, Nat.div_eq_of_lt hq, Nat.mod_eq_of_lt hq]

lemma unravel_app {s0 s1 : Shp} {p q : ℕ} (hp : p < s0.prod) (hq : q < s1.prod) :
    unravel (s0 ++ s1) (p * s1.prod + q) = unravel s0 p ++ unravel s1 q := by
  have f0 := fits_unravel hp
  have f1 := fits_unravel hq
  have hl := f0.length
  have : ravel (s0 ++ s1) (unravel s0 p ++ unravel s1 q) = p * s1.prod + q := by
    rw [ravel_append hl, ravel_unravel hp, ravel_unravel hq]
  rw [← this, unravel_ravel ((fits_append hl).mpr ⟨f0, f1⟩)]

lemma reshape_ok {a : Arr ℝ} {s : Shp} (h : s.prod = a.shape.prod) :
    reshape a s = .ok ⟨s, fun idx => a.get (unravel a.shape (ravel s idx))⟩ := by
  simp [reshape, Arr.reshape, h]

/-- C47: the constructors accept exactly arrays and operators of the announced size. -/
theorem mkArray_ok_iff (a : Arr ℝ) (s0 s1 : Shp) :
    (∃ c, mkArray a s0 s1 = .ok c ∧ c.Valid ∧ c.arrayView = .ok a) ↔ a.shape = s0 ++ s1 := by
  unfold mkArray
  constructor
  · rintro ⟨c, h, -⟩
    by_contra h0
    rw [if_neg h0] at h
    cases h
  · intro h
    exact ⟨_, if_pos h, h, rfl⟩

/-- C47. -/
theorem mkArray_error_iff (a : Arr ℝ) (s0 s1 : Shp) :
    mkArray a s0 s1 = .error .valueError ↔ a.shape ≠ s0 ++ s1 := by
  unfold mkArray; split_ifs with h <;> simp [h]

/-- C47. -/
theorem mkLinop_ok_iff (m : Arr ℝ) (s0 s1 : Shp) :
    (∃ c, mkLinop m s0 s1 = .ok c ∧ c.Valid ∧ c.matrixView = .ok m) ↔ m.shape = [s0.prod, s1.prod] := by
  unfold mkLinop
  constructor
  · rintro ⟨c, h, -⟩
    by_contra h0
    rw [if_neg h0] at h
    cases h
  · intro h
    exact ⟨_, if_pos h, h, rfl⟩

/-- C47. -/
theorem mkLinop_error_iff (m : Arr ℝ) (s0 s1 : Shp) :
    mkLinop m s0 s1 = .error .valueError ↔ m.shape ≠ [s0.prod, s1.prod] := by
  unfold mkLinop; split_ifs with h <;> simp [h]

/-- C47: array, matrix and operator views exist and enumerate the same numbers in C order:
`array[i, j] = matrix[ravel i, ravel j]`. -/
theorem views_agree (c : Cov) (hv : c.Valid) :
    ∃ a m, c.arrayView = .ok a ∧ c.matrixView = .ok m ∧ c.linopView = .ok m ∧
      a.shape = c.shape0 ++ c.shape1 ∧ m.shape = [c.size0, c.size1] ∧
      (∀ i j, Fits c.shape0 i → Fits c.shape1 j →
        a.get (i ++ j) = m.get [ravel c.shape0 i, ravel c.shape1 j]) ∧
      (∀ p q, p < c.size0 → q < c.size1 →
        m.get [p, q] = a.get (unravel c.shape0 p ++ unravel c.shape1 q)) := by
  cases c with
  | array s0 s1 a =>
    have hv : a.shape = s0 ++ s1 := hv
    have hr := reshape_ok (a := a) (s := [s0.prod, s1.prod]) (by rw [hv, prod2, List.prod_append])
    refine ⟨a, _, rfl, hr, hr, hv, rfl, ?_, ?_⟩
    · intro i j hi hj
      simp only [Cov.shape0, Cov.shape1] at *
      rw [ravel2, hv, unravel_app (ravel_lt hi) (ravel_lt hj), unravel_ravel hi, unravel_ravel hj]
    · intro p q hp hq
      simp only [Cov.shape0, Cov.shape1, Cov.size0, Cov.size1] at *
      rw [ravel2, hv, unravel_app hp hq]
  | linop s0 s1 m =>
    have hv : m.shape = [s0.prod, s1.prod] := hv
    have hr := reshape_ok (a := m) (s := s0 ++ s1) (by rw [hv, prod2, List.prod_append])
    refine ⟨_, m, hr, rfl, rfl, rfl, hv, ?_, ?_⟩
    · intro i j hi hj
      simp only [Cov.shape0, Cov.shape1] at *
      rw [ravel_append hi.length, hv, unravel2 (ravel_lt hj)]
    · intro p q hp hq
      simp only [Cov.shape0, Cov.shape1, Cov.size0, Cov.size1] at *
      rw [ravel_append (fits_unravel hp).length, ravel_unravel hp, ravel_unravel hq, hv, unravel2 hq]

/-- C47: `flatten0`/`flatten1` reject other shapes and list the entries in lexicographic order. -/
theorem flatten_spec (c : Cov) (x : Arr ℝ) :
    (c.flatten0 x = .ok ((allIdx c.shape0).map x.get) ↔ x.shape = c.shape0) ∧
    (c.flatten0 x = .error .valueError ↔ x.shape ≠ c.shape0) ∧
    (c.flatten1 x = .ok ((allIdx c.shape1).map x.get) ↔ x.shape = c.shape1) ∧
    (c.flatten1 x = .error .valueError ↔ x.shape ≠ c.shape1) := by
  have h : x.flatten = (allIdx x.shape).map x.get := by
    rw [← range_map_unravel, List.map_map]; rfl
  unfold Cov.flatten0 Cov.flatten1
  refine ⟨?_, ?_, ?_, ?_⟩ <;> split_ifs with h' <;> simp_all

/-- Matrix in the sense of nested lists: row `p` of a two-axis array. -/
def rowsOf (m : Arr ℝ) (r k : ℕ) : List (List ℝ) := (List.range r).map fun p => (List.range k).map fun q => m.get [p, q]

/-- Inner product of lists. -/
def dot (u v : List ℝ) : ℝ := (List.zipWith (· * ·) u v).sum

lemma dot_map {ι : Type} (l : List ι) (f g : ι → ℝ) : dot (l.map f) (l.map g) = (l.map fun i => f i * g i).sum := by
  unfold dot
  congr 1
  induction l with
  | nil => rfl
  | cons a l ih => simp [ih]

lemma mul_sum_map {ι : Type} (r : ℝ) (f : ι → ℝ) : ∀ l : List ι, r * (l.map f).sum = (l.map fun i => r * f i).sum
  | [] => by simp
  | a :: l => by simp [mul_add, mul_sum_map r f l]

/-- C47: the covariance of two linear functionals can be computed from the matrix and flattened
coefficient arrays: `flatten0(u) · matrix · flatten1(v) = Σ_{i,j} u[i] Cov(x0[i], x1[j]) v[j]`. -/
theorem bilinear_flatten (c : Cov) (hv : c.Valid) (u v : Arr ℝ) (hu : u.shape = c.shape0) (hw : v.shape = c.shape1) :
    ∃ a m fu fv, c.arrayView = .ok a ∧ c.matrixView = .ok m ∧ c.flatten0 u = .ok fu ∧ c.flatten1 v = .ok fv ∧
      dot fu ((rowsOf m c.size0 c.size1).map fun row => dot row fv) =
        ((allIdx c.shape0).map fun i => ((allIdx c.shape1).map fun j => u.get i * a.get (i ++ j) * v.get j).sum).sum := by
  obtain ⟨a, m, ha, hm, -, -, -, -, h2⟩ := views_agree c hv
  refine ⟨a, m, _, _, ha, hm, (flatten_spec c u).1.mpr hu, (flatten_spec c v).2.2.1.mpr hw, ?_⟩
  rw [← range_map_unravel, ← range_map_unravel, List.map_map, List.map_map, rowsOf, List.map_map]
  have hrow : (List.range c.size0).map ((fun row => dot row ((List.range c.shape1.prod).map (v.get ∘ unravel c.shape1))) ∘
        fun p => (List.range c.size1).map fun q => m.get [p, q]) =
      (List.range c.size0).map fun p => ((List.range c.shape1.prod).map fun q =>
        a.get (unravel c.shape0 p ++ unravel c.shape1 q) * v.get (unravel c.shape1 q)).sum := by
    apply List.map_congr_left
    intro p hp
    rw [List.mem_range] at hp
    show dot ((List.range c.shape1.prod).map _) ((List.range c.shape1.prod).map _) = _
    rw [dot_map]
    congr 1
    apply List.map_congr_left
    intro q hq
    rw [List.mem_range] at hq
    rw [h2 p q hp hq]; rfl
  rw [hrow]
  show dot ((List.range c.shape0.prod).map _) ((List.range c.shape0.prod).map _) = _
  rw [dot_map, List.map_map]
  congr 1
  apply List.map_congr_left
  intro p _
  simp only [Function.comp, List.map_map]
  rw [mul_sum_map]
  congr 1
  apply List.map_congr_left
  intro q _
  simp only [Function.comp]
  ring

/-! ### Arithmetic -/

lemma represents_matrix {c : Cov} (hv : c.Valid) {K} (h : c.Represents c.shape0 c.shape1 K) :
    ∃ m, c.linopView = .ok m ∧ m.shape = [c.size0, c.size1] ∧
      ∀ i j, Fits c.shape0 i → Fits c.shape1 j → m.get [ravel c.shape0 i, ravel c.shape1 j] = K i j := by
  obtain ⟨a, m, h1, h2, h3, h4, h5, h6, h7⟩ := views_agree c hv
  obtain ⟨-, -, a', ha', -, hK⟩ := h
  rw [h1] at ha'
  cases ha'
  exact ⟨m, h3, h5, fun i j hi hj => by rw [← h6 i j hi hj, hK i j hi hj]⟩

lemma linop_represents {s0 s1 : Shp} {m : Arr ℝ} (hm : m.shape = [s0.prod, s1.prod]) {K}
    (h : ∀ i j, Fits s0 i → Fits s1 j → m.get [ravel s0 i, ravel s1 j] = K i j) :
    (Cov.linop s0 s1 m).Represents s0 s1 K := by
  obtain ⟨a, m', h1, h2, h3, h4, h5, h6, h7⟩ := views_agree (.linop s0 s1 m) hm
  have : m' = m := by
    have h2' : Except.ok m = (Except.ok m' : Except Err _) := h2
    cases h2'; rfl
  subst this
  exact ⟨rfl, rfl, a, h1, h4, fun i j hi hj => (h6 i j hi hj).trans (h i j hi hj)⟩

/-- C47: every covariance object represents exactly one covariance. -/
theorem represents_exists (c : Cov) (hv : c.Valid) :
    ∃ K, c.Represents c.shape0 c.shape1 K ∧
      ∀ L, c.Represents c.shape0 c.shape1 L → ∀ i j, Fits c.shape0 i → Fits c.shape1 j → K i j = L i j := by
  obtain ⟨a, m, h1, -, -, h4, -, -, -⟩ := views_agree c hv
  refine ⟨fun i j => a.get (i ++ j), ⟨rfl, rfl, a, h1, h4, fun i j _ _ => rfl⟩, ?_⟩
  rintro L ⟨-, -, a', ha', -, hL⟩ i j hi hj
  rw [h1] at ha'
  cases ha'
  exact hL i j hi hj

/-- C47: covariances of scalars. -/
theorem fromScalar_represents (v : ℝ) : ∃ c, fromScalar v = .ok c ∧ c.Valid ∧ c.Represents [] [] (fun _ _ => v) ∧
    ∃ m, c.matrixView = .ok m ∧ m.shape = [1, 1] ∧ m.get [0, 0] = v :=
  ⟨.array [] [] ⟨[], fun _ => v⟩, rfl, rfl, ⟨rfl, rfl, _, rfl, rfl, fun _ _ _ _ => rfl⟩, _, rfl, rfl, rfl⟩

/-- C47: scaling scales every covariance. -/
theorem smul_represents (s : ℝ) (c : Cov) (hv : c.Valid) {s0 s1 K} (h : c.Represents s0 s1 K) :
    ∃ e, c.smul s = .ok e ∧ e.Valid ∧ e.Represents s0 s1 (fun i j => s * K i j) := by
  obtain ⟨rfl, rfl, a, ha, hs, hK⟩ := h
  cases c with
  | array s0 s1 b =>
    obtain rfl : b = a := by simpa [Cov.arrayView] using ha
    have hb : (smulArr s b).shape = s0 ++ s1 := hv
    exact ⟨.array s0 s1 (smulArr s b), if_pos hb, hb, rfl, rfl, _, rfl, hb, fun i j hi hj => by
      show s * b.get (i ++ j) = _; rw [hK i j hi hj]⟩
  | linop s0 s1 m =>
    obtain ⟨m', h1, h2, h3⟩ := represents_matrix hv (K := K) ⟨rfl, rfl, a, ha, hs, hK⟩
    cases h1
    have hb : (smulArr s m).shape = [s0.prod, s1.prod] := hv
    exact ⟨.linop s0 s1 (smulArr s m), if_pos hb, hb, linop_represents hb fun i j hi hj => by
      show s * m.get _ = _; rw [← h3 i j hi hj]; rfl⟩

/-- C47: the sum of covariance objects (in any mixture of representations) is the entrywise sum. -/
theorem add_represents (c d : Cov) (hc : c.Valid) (hd : d.Valid) {s0 s1 K L} (h : c.Represents s0 s1 K)
    (h' : d.Represents s0 s1 L) :
    ∃ e, c.add d = .ok e ∧ e.Valid ∧ e.Represents s0 s1 (fun i j => K i j + L i j) := by
  have aux : ∀ (m : Arr ℝ) (M : List ℕ → List ℕ → ℝ) (o : Cov) (_ : o.Valid) (N : List ℕ → List ℕ → ℝ),
      m.shape = [s0.prod, s1.prod] → (Cov.linop s0 s1 m).Represents s0 s1 M → o.Represents s0 s1 N →
      ∃ e, addLinop s0 s1 m o = .ok e ∧ e.Valid ∧ e.Represents s0 s1 (fun i j => M i j + N i j) := by
    intro m M o ho N hm hM hN
    obtain ⟨m', h1, h2, h3⟩ := represents_matrix (c := .linop s0 s1 m) hm hM
    cases h1
    obtain ⟨ho0, ho1, -⟩ := id hN
    subst ho0; subst ho1
    obtain ⟨o', g1, g2, g3⟩ := represents_matrix ho hN
    have hb : (addArr m o').shape = [o.shape0.prod, o.shape1.prod] := hm
    refine ⟨.linop o.shape0 o.shape1 (addArr m o'), ?_, hb, linop_represents hb fun i j hi hj => ?_⟩
    · rw [addLinop, if_pos ⟨rfl, rfl⟩, g1]
      exact if_pos hb
    · show m.get _ + o'.get _ = _
      rw [g3 i j hi hj, ← h3 i j hi hj]; rfl
  cases c with
  | array u0 u1 a =>
    obtain ⟨rfl, rfl, _⟩ := id h
    cases d with
    | array t0 t1 b =>
      obtain ⟨e0, e1, b', hb', hbs, hL⟩ := h'
      cases hb'
      obtain ⟨-, -, a', ha', has, hK⟩ := h
      cases ha'
      have e0 : t0 = u0 := e0
      have e1 : t1 = u1 := e1
      subst e0; subst e1
      have hb : (addArr a b).shape = t0 ++ t1 := hc
      refine ⟨.array t0 t1 (addArr a b), ?_, hb, rfl, rfl, _, rfl, hb, fun i j hi hj => ?_⟩
      · rw [Cov.add, if_pos ⟨rfl, rfl⟩]; exact if_pos hb
      · show a.get _ + b.get _ = _
        rw [hK i j hi hj, hL i j hi hj]
    | linop t0 t1 m =>
      obtain ⟨e0, e1, _⟩ := id h'
      have e0 : t0 = u0 := e0
      have e1 : t1 = u1 := e1
      subst e0; subst e1
      obtain ⟨e, he, hev, her⟩ := aux m L _ hc K hd h' h
      refine ⟨e, he, hev, ?_⟩
      have : (fun i j => K i j + L i j) = fun i j => L i j + K i j := by funext i j; ring
      rw [this]; exact her
  | linop u0 u1 m =>
    obtain ⟨rfl, rfl, _⟩ := id h
    exact aux m K d hd L hc h h'

/-- C47: negation and difference. -/
theorem sub_represents (c d : Cov) (hc : c.Valid) (hd : d.Valid) {s0 s1 K L} (h : c.Represents s0 s1 K)
    (h' : d.Represents s0 s1 L) :
    ∃ e, c.sub d = .ok e ∧ e.Valid ∧ e.Represents s0 s1 (fun i j => K i j - L i j) := by
  obtain ⟨n, hn, hnv, hnr⟩ := smul_represents (-1) d hd h'
  obtain ⟨e, he, hev, her⟩ := add_represents c n hc hnv h hnr
  refine ⟨e, ?_, hev, ?_⟩
  · show (d.smul (-1) >>= fun nd => c.add nd) = _
    rw [hn]; exact he
  · have : (fun i j => K i j - L i j) = fun i j => K i j + -1 * L i j := by funext i j; ring
    rw [this]; exact her

/-- C47: adding covariances of different shapes is refused (no broadcasting). -/
theorem add_mismatch (c d : Cov) (h : ¬ (c.shape0 = d.shape0 ∧ c.shape1 = d.shape1)) :
    c.add d = .error .typeError := by
  cases c with
  | array s0 s1 a =>
    cases d with
    | array t0 t1 b => exact if_neg h
    | linop t0 t1 m => exact if_neg fun hh => h ⟨hh.1.symm, hh.2.symm⟩
  | linop s0 s1 m => exact if_neg h

/-- Non-vacuity: a covariance between a `2`-vector and a `(1, 2)`-array. -/
example : ∃ c, mkArray ⟨[2, 1, 2], fun i => (ravel [2, 1, 2] i : ℝ)⟩ [2] [1, 2] = .ok c ∧ c.Valid ∧ c.shape1 = [1, 2] :=
  ⟨_, if_pos rfl, rfl, rfl⟩

end LinPDE.Covar
