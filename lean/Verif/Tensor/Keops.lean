import Verif.Tensor.DiffProps

/-!
# KeOps view of tensor products

A lazy tensor is the matrix of its entries.  The lazy tensor of a factor has the entries of its NumPy evaluation (C68).
-/

namespace LinPDE.Tensor
open LinPDE.Nd LinPDE.Grid LinPDE.Coeff LinPDE.Calc

/-- A lazy tensor, by its entries. -/
abbrev Lazy := ℕ → ℕ → ℝ

/-- `k._keops_lazy_tensor(x0, x1)` of a factor with scalar outputs. -/
def Fac.lazy (k : Fac) (x0 : List ℝ) (x1 : Option (List ℝ)) : Lazy := fun i j => k.ev (x0.getD i 0) ((x1.getD x0).getD j 0) []

/-- `covfuncs/_tensor_product.py:122-130` (`split_outputs_contiguous`): the columns of the point arrays. -/
def splitOutputs (x0 : List (List ℝ)) (x1 : Option (List (List ℝ))) (d : ℕ) : List (List ℝ) × List (Option (List ℝ)) :=
  ((List.range d).map fun i => x0.map fun p => p.getD i 0, (List.range d).map fun i => x1.map fun y => y.map fun p => p.getD i 0)

/-- `covfuncs/_tensor_product.py:111-119` (`lazy_tensor_dimensionwise`). -/
def lazyDimensionwise (ks : List Fac) (x0s : List (List ℝ)) (x1s : List (Option (List ℝ))) : List Lazy :=
  ks.mapIdx fun i k => k.lazy (x0s.getD i []) (x1s.getD i none)

/-- Product of lazy tensors. -/
def lazyMul (a b : Lazy) : Lazy := fun i j => a i j * b i j

/-- `covfuncs/_tensor_product.py:56-62` (`_keops_lazy_tensor`). -/
def TP.keops (t : TP) (x0 : List (List ℝ)) (x1 : Option (List (List ℝ))) : Except Err Lazy :=
  let s := splitOutputs x0 x1 t.factors.length
  reduceE lazyMul (lazyDimensionwise t.factors s.1 s.2)

/-- `diffops/_tensor_product.py:128-138` (`_keops_lazy_tensor`). -/
noncomputable def TPLL.keops (K : TPLL) (x0 : List (List ℝ)) (x1 : Option (List (List ℝ))) : Except Err Lazy :=
  let s := splitOutputs x0 x1 K.k.factors.length
  K.computeRes (fun f i => .ok (f.lazy (s.1.getD i []) (s.2.getD i none))) lazyMul (fun c v res => fun i j => res i j + c * v i j)
    fun _ _ => 0

lemma lazy_foldl (l : List Lazy) : ∀ (a : Lazy) i j, l.foldl lazyMul a i j = (l.map fun b => b i j).foldl (· * ·) (a i j) := by
  induction l with
  | nil => intro a i j; rfl
  | cons b l ih => intro a i j; rw [List.foldl_cons, ih]; rfl

lemma split_lazy (f : Fac) {x0 : List (List ℝ)} {x1 : Option (List (List ℝ))} {d n i j : ℕ} (hn : n < d) (hi : i < x0.length)
    (hj : j < (x1.getD x0).length) :
    f.lazy ((splitOutputs x0 x1 d).1.getD n []) ((splitOutputs x0 x1 d).2.getD n none) i j =
      f.ev ((x0.getD i []).getD n 0) (((x1.getD x0).getD j []).getD n 0) [] := by
  unfold Fac.lazy splitOutputs
  have e1 : (List.map (fun i => List.map (fun p : List ℝ => p.getD i 0) x0) (List.range d)).getD n [] = x0.map fun p => p.getD n 0 := by
    simp [List.getD_eq_getElem?_getD, hn]
  have e2 : (List.map (fun i => Option.map (fun y => List.map (fun p : List ℝ => p.getD i 0) y) x1) (List.range d)).getD n none =
      x1.map fun y => y.map fun p => p.getD n 0 := by
    simp [List.getD_eq_getElem?_getD, hn]
  have e3 : (Option.map (fun y => List.map (fun p : List ℝ => p.getD n 0) y) x1).getD (x0.map fun p => p.getD n 0) =
      (x1.getD x0).map fun p => p.getD n 0 := by cases x1 <;> rfl
  have e4 : ∀ (l : List (List ℝ)) (m : ℕ), m < l.length → (l.map fun p => p.getD n 0).getD m 0 = (l.getD m []).getD n 0 := by
    intro l m hm
    simp [List.getD_eq_getElem?_getD, hm]
  simp only [e1, e2, e3]
  rw [e4 _ _ hi, e4 _ _ hj]

/-- C28, C68: the lazy tensor of a tensor product has the entries of its NumPy evaluation at all pairs of points. -/
theorem tp_keops (t : TP) (x0 : List (List ℝ)) (x1 : Option (List (List ℝ))) :
    ∃ A, t.keops x0 x1 = .ok A ∧ ∀ i j, i < x0.length → j < (x1.getD x0).length →
      A i j = t.evaluate (x0.getD i []) (some ((x1.getD x0).getD j [])) [] := by
  unfold TP.keops lazyDimensionwise TP.evaluate evaluateDimensionwise
  rw [show t.factors = t.head :: t.tail from rfl]
  simp only []
  rw [List.mapIdx_cons]
  refine ⟨_, rfl, fun i j hi hj => ?_⟩
  rw [show reduce lazyMul _ _ i j = _ from lazy_foldl _ _ i j]
  simp only [List.length_cons]
  rw [split_lazy t.head (by omega) hi hj, List.mapIdx_cons]
  simp only [reduce, Option.getD_some]
  congr 1
  refine List.ext_getElem (by simp) fun n h1 h2 => ?_
  simp only [List.length_map, List.length_mapIdx] at h1
  simp only [List.getElem_map, List.getElem_mapIdx]
  rw [split_lazy _ (by omega) hi hj]

/-- C28, C68: the lazy tensor of a transformed tensor product has the entries of its NumPy evaluation at all pairs of points. -/
theorem tpll_keops (pd : PDFac) (k : TP) (L0 L1 : DOp) (K : TPLL) (h : mkTPLL pd k L0 L1 = .ok K)
    (hr : ∀ r, coeffRow L0 = .ok r → RowOK k.factors.length r) (x0 : List (List ℝ)) (x1 : Option (List (List ℝ))) :
    ∃ A, K.keops x0 x1 = .ok A ∧ ∀ i j, i < x0.length → j < (x1.getD x0).length →
      K.evaluate (x0.getD i []) (some ((x1.getD x0).getD j [])) [] = .ok (A i j) := by
  obtain ⟨r0, r1, hB⟩ := mkTPLL_built h hr
  unfold TPLL.keops
  rw [computeRes_built hB _ _ _ _ (fun n key => (facD pd k.factors n key).lazy ((splitOutputs x0 x1 k.factors.length).1.getD n [])
    ((splitOutputs x0 x1 k.factors.length).2.getD n none)) (fun p _ n _ => by rw [hB.hk])]
  refine ⟨_, rfl, fun i j hi hj => ?_⟩
  unfold TPLL.evaluate
  rw [computeRes_built hB _ _ _ _ (fun n key => (facD pd k.factors n key).ev ((x0.getD i []).getD n 0)
    (((x1.getD x0).getD j []).getD n 0) []) (fun p _ n _ => rfl)]
  congr 1
  have ht : ∀ p, termVal lazyMul (fun n key => (facD pd k.factors n key).lazy ((splitOutputs x0 x1 k.factors.length).1.getD n [])
      ((splitOutputs x0 x1 k.factors.length).2.getD n none)) k.factors.length p i j =
      termVal (· * ·) (fun n key => (facD pd k.factors n key).ev ((x0.getD i []).getD n 0)
        (((x1.getD x0).getD j []).getD n 0) []) k.factors.length p := by
    intro p
    have hd : k.factors.length = k.tail.length + 1 := rfl
    unfold termVal
    simp only [hd, List.range_succ_eq_map, List.map_cons]
    rw [show reduce lazyMul _ _ i j = _ from lazy_foldl _ _ i j, split_lazy _ (by omega) hi hj]
    unfold reduce
    congr 1
    rw [List.map_map, List.map_map, List.map_map]
    refine List.map_congr_left fun n hn => ?_
    have := List.mem_range.mp hn
    exact split_lazy _ (by omega) hi hj
  have key : ∀ (l : List ((MI × ℝ) × (MI × ℝ))) (res : Lazy) (v : ℝ), v = res i j →
      l.foldl (fun r p => r + p.1.2 * p.2.2 * termVal (· * ·) (fun n key => (facD pd k.factors n key).ev ((x0.getD i []).getD n 0)
        (((x1.getD x0).getD j []).getD n 0) []) k.factors.length p) v =
      l.foldl (fun (r : Lazy) p => fun i j => r i j + p.1.2 * p.2.2 * termVal lazyMul (fun n key => (facD pd k.factors n key).lazy
        ((splitOutputs x0 x1 k.factors.length).1.getD n []) ((splitOutputs x0 x1 k.factors.length).2.getD n none)) k.factors.length p i j)
        res i j := by
    intro l
    induction l with
    | nil => intro res v hv; exact hv
    | cons p l ih =>
      intro res v hv
      rw [List.foldl_cons, List.foldl_cons]
      exact ih _ _ (by rw [ht, hv])
  exact key _ _ _ rfl

/-- A product of three factors on two and one points. -/
example : ∃ A, (⟨⟨[], [], [], fun x y _ => x * y⟩, [⟨[], [], [], fun x y _ => x + y⟩, ⟨[], [], [], fun x y _ => x - y⟩]⟩ : TP).keops [[1, 2, 3], [4, 5, 6]]
    (some [[7, 8, 9]]) = .ok A ∧ A 1 0 = 4 * 7 * (5 + 8) * (6 - 9) := by
  obtain ⟨A, h1, h2⟩ := tp_keops ⟨⟨[], [], [], fun x y _ => x * y⟩, [⟨[], [], [], fun x y _ => x + y⟩, ⟨[], [], [], fun x y _ => x - y⟩]⟩
    [[1, 2, 3], [4, 5, 6]] (some [[7, 8, 9]])
  refine ⟨A, h1, ?_⟩
  rw [h2 1 0 (by simp) (by simp)]
  simp [TP.factors, TP.evaluate, evaluateDimensionwise, reduce]

end LinPDE.Tensor
