import Verif.GP.Examples

/-!
# The three evaluation paths of the posterior covariance (`_conditional.py:223-251`, C08)

For a process with `p` outputs the input set is `D × Fin p`.
-/

namespace LinPDE.GP
open Matrix LinPDE.Block

variable {X D : Type} {p : ℕ}

/-- `_conditional.py:223-231` (`_evaluate`) for outputs of shape `(p,)` at one pair of points.
`kLas_x[..., None, :] @ solve(kLas_x1[..., None])` is taken per output, giving an array of shape
`(p,)`, which is subtracted from the `(p, p)` prior covariance with NumPy broadcasting (along the last
axis). -/
noncomputable def Core.covNumpyVec (e : Env) {P : Prior (D × Fin p)} (c : Core P) (x0 x1 : D) :
    Except Err (Matrix (Fin p) (Fin p) ℝ) := do
  let z ← c.gram.solve e (Matrix.of fun j o => (c.kLas j).1 (x1, o) : Matrix c.s.Idx (Fin p) ℝ)
  let covUpdate := fun o => ∑ j, (c.kLas j).1 (x0, o) * z j o
  return Matrix.of fun o0 o1 => P.k (x0, o0) (x1, o1) - covUpdate o1

/-- `_conditional.py:245-251` (`_evaluate_linop`): rows and columns are indexed by evaluation points
(and output indices). -/
noncomputable def Core.covLinop (e : Env) {P : Prior X} (c : Core P) {n0 n1 : Type} (xs0 : n0 → X)
    (xs1 : n1 → X) : Except Err (Matrix n0 n1 ℝ) := do
  let K0 : Matrix n0 c.s.Idx ℝ := Matrix.of fun i j => (c.kLas j).1 (xs0 i)
  let K1 : Matrix n1 c.s.Idx ℝ := Matrix.of fun i j => (c.kLas j).1 (xs1 i)
  let z ← c.gram.solve e K1ᵀ
  return (Matrix.of fun i j => P.k (xs0 i) (xs1 j)) - K0 * z

/-- Enumeration of the flat observation index. -/
def idxs : (s : Shape) → List s.Idx
  | .leaf n => List.finRange n
  | .node a b => (idxs a).map Sum.inl ++ (idxs b).map Sum.inr

/-- `_conditional.py:233-243` (`_evaluate_jax`) for scalar outputs, inputs without batch axes:
`solve(kLas_x1[..., None])[..., 0, 0]` is a scalar array, and `matmul` rejects it. -/
noncomputable def Core.covJaxPoint (e : Env) {P : Prior X} (c : Core P) (x0 x1 : X) : Except Err ℝ := do
  let z ← c.gram.solve e (col fun j => (c.kLas j).1 x1)
  match (idxs c.s).head? with
  | none => .error .valueError
  | some j0 =>
    let _scalar := P.k x0 x1 - z j0 ()
    .error .valueError

/-- `_conditional.py:233-243` (`_evaluate_jax`) for scalar outputs and inputs with one batch axis of
length `B`: `[..., 0, 0]` binds to the result of `solve`, so that `kLas_x0[..., None, :]` of shape
`(B, 1, n)` is multiplied with an array of shape `(B,)`.  This needs `n = B`; the product has shape
`(B, 1)` and is subtracted from the `(B,)` prior covariances with broadcasting to `(B, B)`. -/
noncomputable def Core.covJaxBatch (e : Env) {P : Prior X} (c : Core P) {B : ℕ} (xs0 xs1 : Fin B → X) :
    Except Err (Matrix (Fin B) (Fin B) ℝ) := do
  let z ← c.gram.solve e (Matrix.of fun j i => (c.kLas j).1 (xs1 i) : Matrix c.s.Idx (Fin B) ℝ)
  match (idxs c.s).head? with
  | none => .error .valueError
  | some j0 =>
    if h : (idxs c.s).length = B then
      let u := fun i : Fin B => ∑ m : Fin B, (c.kLas ((idxs c.s).get (Fin.cast h.symm m))).1 (xs0 i) * z j0 m
      return Matrix.of fun i j => P.k (xs0 j) (xs1 j) - u i
    else .error .valueError

lemma idxs_length : ∀ s : Shape, (idxs s).length = Fintype.card s.Idx
  | .leaf n => (List.length_finRange (n := n)).trans (Fintype.card_fin n).symm
  | .node a b => by
    have h : (idxs (.node a b)).length = (idxs a).length + (idxs b).length := by
      show ((idxs a).map Sum.inl ++ (idxs b).map Sum.inr).length = _
      rw [List.length_append, List.length_map, List.length_map]
    rw [h, idxs_length a, idxs_length b]
    exact (Fintype.card_sum (α := a.Idx) (β := b.Idx)).symm

/-- The state after the first batch. -/
lemma fromObservations_core (e : Env) (he : e.CholOK) {P : Prior X} (b : Batch P) (hG : (jG [b]).PosDef) :
    ∃ w, Core.fromObservations e b =
      .ok { s := .leaf b.n, kLas := fun i => P.cross (b.L i), gram := b.gramOp, w := w } := by
  have hpd : b.gramOp.toMat.PosDef := by
    rw [gramOp_single]; exact hG.submatrix (singleEquiv b).injective
  obtain ⟨w, h1, -⟩ := solve_spec e he b.gramOp (gramOp_spd b hpd).valid (col fun i => b.Y i - b.predMean i)
  exact ⟨w, by unfold Core.fromObservations; rw [h1]; rfl⟩

lemma solve_one (e : Env) (he : e.CholOK) {s : Shape} {κ : Type} (op : Op s) (h : op.Valid)
    (h1 : op.toMat = 1) (y : Matrix s.Idx κ ℝ) : op.solve e y = .ok y := by
  obtain ⟨x, hx, hy⟩ := solve_spec e he op h y
  rw [h1, Matrix.one_mul] at hy
  rw [hx, hy]

/-- The core of a run. -/
lemma run_nil_core (e : Env) {P : Prior X} (b : Batch P) :
    (run e b []).map Cond.toCore = Core.fromObservations e b := by
  have h : run e b [] = (Cond.fromObservations e b >>= fun c => pure c) := rfl
  rw [h]
  unfold Cond.fromObservations Core.fromObservations
  cases b.gramOp.solve e (col fun i => b.Y i - b.predMean i) <;> rfl

/-- Exact observations of the white process at the given points, as one batch. -/
noncomputable def exactN {Z : Type} [DecidableEq Z] {n : ℕ} (pts : Fin n → Z) (y : Fin n → ℝ) : Batch (white Z) where
  n := n
  L i := (white_regular Z).ev (pts i)
  noise := none
  Y := y

lemma exactN_gram {Z : Type} [DecidableEq Z] {n : ℕ} (pts : Fin n → Z) (hp : Function.Injective pts) (y : Fin n → ℝ) :
    (exactN pts y).gramOp.toMat = (1 : Matrix (Fin (exactN pts y).n) (Fin (exactN pts y).n) ℝ) := by
  rw [gramOp_toMat]
  have key : ∀ i j : Fin n, (white Z).k (pts i) (pts j) + 0 = (1 : Matrix (Fin n) (Fin n) ℝ) i j := by
    intro i j
    rw [add_zero]
    by_cases h : i = j
    · subst h; simp [white, ofKernel]
    · rw [Matrix.one_apply_ne h]
      have : pts i ≠ pts j := fun h' => h (hp h')
      simp [white, ofKernel, this]
  ext i j
  exact key i j

lemma exactN_posDef {Z : Type} [DecidableEq Z] {n : ℕ} (pts : Fin n → Z) (hp : Function.Injective pts) (y : Fin n → ℝ) :
    (jG [exactN pts y]).PosDef := by
  have h := gramOp_single (exactN pts y)
  rw [exactN_gram pts hp y] at h
  have h2 : jG [exactN pts y] = (1 : Matrix (Fin (exactN pts y).n) (Fin (exactN pts y).n) ℝ).submatrix
      (singleEquiv (exactN pts y)).symm (singleEquiv (exactN pts y)).symm := by
    rw [h, Matrix.submatrix_submatrix]
    simp
  rw [h2]
  exact Matrix.PosDef.one.submatrix (singleEquiv (exactN pts y)).symm.injective

lemma exactN_cross {Z : Type} [DecidableEq Z] {n : ℕ} (pts : Fin n → Z) (y : Fin n → ℝ) (i : Fin n) (x : Z) :
    ((white Z).cross ((exactN pts y).L i)).1 x = if x = pts i then 1 else 0 := rfl

end LinPDE.GP
