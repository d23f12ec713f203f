import Verif.Rounding.TensorFl
import Verif.Rounding.SolveCov

/-!
# C93: histories of observations of sums of differential operators of tensor product processes in floating point
-/

namespace LinPDE.Rounding
open Finset Matrix LinPDE.GP LinPDE.Block LinPDE.PosDef
open LinPDE.Coeff (MI Row)

variable {F : Fmt} {d a : ℕ} {T : ℕ → Tree (Fin 1)} {s : Fin d → ℝ} {p : Fin d → ℕ} {ρ : Fin d → ℝ} {tr : ∀ n m, Option (Tree (Fin n × Fin m))}

/-! ## Sums of operators -/

/-- The bound for one operator and one summand. -/
noncomputable def bErr (F : Fmt) (a : ℕ) (p : Fin d → ℕ) (ρ : Fin d → ℝ) (r0 : Row) (x : Fin d → ℝ) (b : Option ℝ × Row) (y : Fin d → ℝ) : ℝ :=
  match b.1 with
  | none => tErr F a p ρ r0 x b.2 y
  | some c => |c| * (tErr F a p ρ r0 x b.2 y + ((1 + F.u) ^ 2 - 1) * (tErr F a p ρ r0 x b.2 y + tMag p ρ r0 x b.2 y))

/-- The magnitude for one operator and one summand. -/
noncomputable def bMag (p : Fin d → ℕ) (ρ : Fin d → ℝ) (r0 : Row) (x : Fin d → ℝ) (b : Option ℝ × Row) (y : Fin d → ℝ) : ℝ :=
  match b.1 with
  | none => tMag p ρ r0 x b.2 y
  | some c => |c| * tMag p ρ r0 x b.2 y

/-- The exact value for one operator and one summand. -/
noncomputable def bVal (p : Fin d → ℕ) (ρ : Fin d → ℝ) (r0 : Row) (x : Fin d → ℝ) (b : Option ℝ × Row) (y : Fin d → ℝ) : ℝ :=
  match b.1 with
  | none => tVal p ρ r0 x b.2 y
  | some c => c * tVal p ρ r0 x b.2 y

/-- The bound for sums of operators. -/
noncomputable def oErr (F : Fmt) (a : ℕ) (p : Fin d → ℕ) (ρ : Fin d → ℝ) (l0 : List Row) (x : Fin d → ℝ) (l1 : List Row) (y : Fin d → ℝ) : ℝ :=
  ∑ q : Fin l0.length × Fin (blocks l1).length, (bErr F a p ρ (l0.get q.1) x ((blocks l1).get q.2) y +
    ((1 + F.u) ^ (l0.length * (blocks l1).length - 1) - 1) * (bErr F a p ρ (l0.get q.1) x ((blocks l1).get q.2) y + bMag p ρ (l0.get q.1) x ((blocks l1).get q.2) y))

/-- The magnitude for sums of operators. -/
noncomputable def oMag (p : Fin d → ℕ) (ρ : Fin d → ℝ) (l0 : List Row) (x : Fin d → ℝ) (l1 : List Row) (y : Fin d → ℝ) : ℝ :=
  ∑ q : Fin l0.length × Fin (blocks l1).length, bMag p ρ (l0.get q.1) x ((blocks l1).get q.2) y

/-- Operators that can be applied. -/
def RowFine (p : Fin d → ℕ) (r : Row) : Prop := RowIn (box fun j => (p j : ℕ∞)) r ∧ Second r

lemma blocks_fine {l : List Row} (h : ∀ r ∈ l, RowFine p r) : ∀ b ∈ blocks l, RowFine p b.2 := by
  intro b hb
  have key : ∀ b ∈ l.flatten.map fun b : MI × ℝ => (some b.2, [(b.1, (1 : ℝ))]), RowFine p b.2 := fun b hb => by
    obtain ⟨c, hc, rfl⟩ := List.mem_map.1 hb
    obtain ⟨r, hr, hc⟩ := List.mem_flatten.1 hc
    refine ⟨fun mc hmc => ?_, fun mc hmc i => ?_⟩
    · rw [List.mem_singleton.1 hmc]
      exact (h r hr).1 c hc
    · rw [List.mem_singleton.1 hmc]
      exact (h r hr).2 c hc i
  unfold blocks at hb
  split at hb
  · rw [List.mem_singleton.1 hb]
    exact h _ (by simp)
  · exact key b hb

lemma block_close (hd : 0 < d) (hT : ∀ n, (T n).Full) (hs : ∀ i, F.Near a (s i) (ρ i)) {r0 : Row} (h0 : RowFine p r0) {b : Option ℝ × Row}
    (hb : RowFine p b.2) (x y : Fin d → ℝ) :
    |blockFl F T s p ρ r0 x b y - bVal p ρ r0 x b y| ≤ bErr F a p ρ r0 x b y ∧ |bVal p ρ r0 x b y| ≤ bMag p ρ r0 x b y := by
  obtain ⟨h1, h2⟩ := tensor_close hd hT hs h0.1 hb.1 h0.2 hb.2 x y
  obtain ⟨c, r1⟩ := b
  cases c with
  | none => exact ⟨h1, h2⟩
  | some c =>
    simp only [blockFl, bVal, bErr, bMag] at h1 h2 ⊢
    set v := tensorFl F T s p ρ r0 x r1 y
    set w := tVal p ρ r0 x r1 y
    set E := tErr F a p ρ r0 x r1 y
    set M := tMag p ρ r0 x r1 y
    refine ⟨?_, by rw [abs_mul]; exact mul_le_mul_of_nonneg_left h2 (abs_nonneg c)⟩
    have hn : F.Near 2 (F.rd (F.rd (1 * c) * v)) (c * v) := by
      have e1 : F.Near 1 (F.rd (1 * c)) c := by rw [one_mul]; exact rd_fac F c
      have := (e1.mul (near_refl F 0 v)).rd
      exact this.mono (by omega)
    have h3 : |v| ≤ E + M := by
      have e : v = (v - w) + w := by ring
      rw [e]
      exact (abs_add_le _ _).trans (add_le_add h1 h2)
    have e : F.rd (F.rd (1 * c) * v) - c * w = (F.rd (F.rd (1 * c) * v) - c * v) + c * (v - w) := by ring
    have h4 := hn.abs
    rw [abs_mul] at h4
    rw [e]
    refine (abs_add_le _ _).trans ?_
    rw [abs_mul c]
    have h5 := mul_le_mul_of_nonneg_left h1 (abs_nonneg c)
    have h6 := mul_le_mul_of_nonneg_left (mul_le_mul_of_nonneg_left h3 (abs_nonneg c)) (eps_nonneg F 2)
    linarith

/-- Sums in any order of terms with errors. -/
lemma tree_er {ι : Type} [Fintype ι] {t : Option (Tree ι)} (ht : FullOpt t) {v w E M : ι → ℝ} (h : ∀ i, |v i - w i| ≤ E i ∧ |w i| ≤ M i) :
    |sumFl F v t - ∑ i, w i| ≤ ∑ i, (E i + ((1 + F.u) ^ (Fintype.card ι - 1) - 1) * (E i + M i)) ∧ |∑ i, w i| ≤ ∑ i, M i := by
  cases t with
  | none =>
    have : IsEmpty ι := ht
    simp [sumFl]
  | some t =>
  obtain ⟨θ, h1, h2⟩ := Tree.Full.fl_eq ht F v
  show |t.fl F v - ∑ i, w i| ≤ _ ∧ _
  refine ⟨?_, (abs_sum_le_sum_abs _ _).trans (sum_le_sum fun i _ => (h i).2)⟩
  rw [h2, ← sum_sub_distrib]
  refine (abs_sum_le_sum_abs _ _).trans (sum_le_sum fun i _ => ?_)
  have e : θ i * v i - w i = (θ i - 1) * v i + (v i - w i) := by ring
  have h3 : |v i| ≤ E i + M i := by
    have e : v i = (v i - w i) + w i := by ring
    rw [e]
    exact (abs_add_le _ _).trans (add_le_add (h i).1 (h i).2)
  have h4 : |θ i - 1| ≤ (1 + F.u) ^ (Fintype.card ι - 1) - 1 := fac_abs (h1 i)
  have h5 := mul_le_mul h4 h3 (abs_nonneg _) (eps_nonneg F _)
  rw [e]
  refine (abs_add_le _ _).trans ?_
  rw [abs_mul]
  linarith [(h i).1]

lemma tVal_flatten (l : List Row) (x : Fin d → ℝ) (r1 : Row) (y : Fin d → ℝ) : tVal p ρ l.flatten x r1 y = (l.map fun r => tVal p ρ r x r1 y).sum := by
  induction l with
  | nil => simp [tVal]
  | cons r l ih =>
    rw [List.map_cons, List.sum_cons, ← ih]
    simp [tVal]

lemma bVal_blocks (r0 : Row) (x : Fin d → ℝ) (l : List Row) (y : Fin d → ℝ) :
    ((blocks l).map fun b => bVal p ρ r0 x b y).sum = tVal p ρ r0 x l.flatten y := by
  have key : ∀ r : Row, ((r.map fun b : MI × ℝ => (some b.2, [(b.1, (1 : ℝ))])).map fun b => bVal p ρ r0 x b y).sum = tVal p ρ r0 x r y := fun r => by
    unfold tVal
    rw [sum_swap r0 r fun a b => matK p ρ (miIx d a) x (miIx d b) y, List.map_map]
    congr 1
    refine List.map_congr_left fun b _ => ?_
    simp [bVal, tVal]
  unfold blocks
  split
  · simp [bVal]
  · exact key _

lemma val_sum (l0 : List Row) (x : Fin d → ℝ) (l1 : List Row) (y : Fin d → ℝ) :
    ∑ q : Fin l0.length × Fin (blocks l1).length, bVal p ρ (l0.get q.1) x ((blocks l1).get q.2) y = tVal p ρ l0.flatten x l1.flatten y := by
  rw [Fintype.sum_prod_type, tVal_flatten]
  simp only [← bVal_blocks, ← Fin.sum_univ_fun_getElem]
  rfl

lemma flat_in {l : List Row} (h : ∀ r ∈ l, RowFine p r) : RowIn (box fun j => (p j : ℕ∞)) l.flatten := fun mc hmc => by
  obtain ⟨r, hr, hmc⟩ := List.mem_flatten.1 hmc
  exact (h r hr).1 mc hmc

/-- C93: the computed covariances of sums of differential operators of a tensor product of Matérn processes. -/
theorem operators_error (hd : 0 < d) (hT : ∀ n, (T n).Full) (hs : ∀ i, F.Near a (s i) (ρ i)) (htr : ∀ n m, FullOpt (tr n m)) {l0 l1 : List Row}
    (h0 : ∀ r ∈ l0, RowFine p r) (h1 : ∀ r ∈ l1, RowFine p r) (m : jetF (box fun j => (p j : ℕ∞))) (x y : Fin d → ℝ) :
    |opsFl F T s p ρ tr l0 x l1 y - ((matern_jet p ρ).prior m).cov ((matern_jet p ρ).op m (rowCoefs l0.flatten (flat_in h0)) x)
        ((matern_jet p ρ).op m (rowCoefs l1.flatten (flat_in h1)) y)| ≤ oErr F a p ρ l0 x l1 y ∧
      |((matern_jet p ρ).prior m).cov ((matern_jet p ρ).op m (rowCoefs l0.flatten (flat_in h0)) x)
        ((matern_jet p ρ).op m (rowCoefs l1.flatten (flat_in h1)) y)| ≤ oMag p ρ l0 x l1 y := by
  have h := tree_er (F := F) (htr _ _)
    (v := fun q => blockFl F T s p ρ (l0.get q.1) x ((blocks l1).get q.2) y) (w := fun q => bVal p ρ (l0.get q.1) x ((blocks l1).get q.2) y)
    (E := fun q => bErr F a p ρ (l0.get q.1) x ((blocks l1).get q.2) y) (M := fun q => bMag p ρ (l0.get q.1) x ((blocks l1).get q.2) y)
    fun q => block_close hd hT hs (h0 _ (List.get_mem _ _)) (blocks_fine h1 _ (List.get_mem _ _)) x y
  rw [val_sum, Fintype.card_prod, Fintype.card_fin, Fintype.card_fin] at h
  rw [row_cov]
  exact h

lemma tErr_exact (hu : F.u = 0) (hv : F.v = 0) (r0 : Row) (x : Fin d → ℝ) (r1 : Row) (y : Fin d → ℝ) : tErr F a p ρ r0 x r1 y = 0 := by
  have h1 : ∀ (m : Matern.Par 1) (u v : ℝ) (key : ℕ × ℕ), facGam F a m u v key = 1 := fun m u v key => by
    unfold facGam
    split
    · simp [Fmt.gf, hu, hv]
    · rfl
  refine List.sum_eq_zero fun z hz => ?_
  obtain ⟨q, -, rfl⟩ := List.mem_map.1 hz
  simp [h1, hu]

lemma oErr_exact (hu : F.u = 0) (hv : F.v = 0) (l0 : List Row) (x : Fin d → ℝ) (l1 : List Row) (y : Fin d → ℝ) : oErr F a p ρ l0 x l1 y = 0 := by
  refine sum_eq_zero fun q _ => ?_
  have : bErr F a p ρ (l0.get q.1) x ((blocks l1).get q.2) y = 0 := by
    unfold bErr
    split <;> simp [tErr_exact hu hv, hu]
  rw [this, hu]
  simp

/-- C93: without rounding the computed covariances are those of the operators of the process. -/
theorem operators_exact (hu : F.u = 0) (hv : F.v = 0) (hd : 0 < d) (hT : ∀ n, (T n).Full) (htr : ∀ n m, FullOpt (tr n m)) {l0 l1 : List Row}
    (h0 : ∀ r ∈ l0, RowFine p r) (h1 : ∀ r ∈ l1, RowFine p r) (m : jetF (box fun j => (p j : ℕ∞))) (x y : Fin d → ℝ) :
    opsFl F T ρ p ρ tr l0 x l1 y = ((matern_jet p ρ).prior m).cov ((matern_jet p ρ).op m (rowCoefs l0.flatten (flat_in h0)) x)
      ((matern_jet p ρ).op m (rowCoefs l1.flatten (flat_in h1)) y) := by
  have h := (operators_error (F := F) (a := 0) (s := ρ) (ρ := ρ) (tr := tr) hd hT (fun i => ⟨1, by simp [Fmt.Fac], by simp⟩) htr h0 h1 m x y).1
  rw [oErr_exact hu hv] at h
  exact sub_eq_zero.1 (abs_nonpos_iff.1 h)

/-- C93: one operator in each argument: the value of the transformed tensor product, without further operations. -/
theorem operators_single (htr : FullOpt (tr 1 1)) (r0 r1 : Row) (x y : Fin d → ℝ) : opsFl F T s p ρ tr [r0] x [r1] y = tensorFl F T s p ρ r0 x r1 y := by
  show sumFl F (fun q : Fin 1 × Fin 1 => blockFl F T s p ρ ([r0].get q.1) x ((blocks [r1]).get q.2) y) (tr 1 1) = _
  cases ht : tr 1 1 with
  | none =>
    rw [ht] at htr
    exact (htr.false (0, 0)).elim
  | some t =>
    rw [ht] at htr
    cases t with
    | leaf q =>
      obtain ⟨i, j⟩ := q
      rw [Subsingleton.elim i 0, Subsingleton.elim j 0]
      rfl
    | node a b =>
      have h1 := Tree.Full.length htr
      have h2 := a.leaves_pos
      have h3 := b.leaves_pos
      simp only [Tree.leaves, List.length_append, Fintype.card_prod, Fintype.card_fin, mul_one] at h1
      omega

/-! ## Histories -/

lemma TOp.fine (t : TOp p) : ∀ r ∈ t.1, RowFine p r := fun r hr => (t.2.2 r hr).2

/-- The sum of operators of the process at a point. -/
noncomputable def tOp (m : jetF (box fun j => (p j : ℕ∞))) (q : ℕ × TOp p × (Fin d → ℝ)) : ((matern_jet p ρ).prior m).Λ :=
  (matern_jet p ρ).op m (rowCoefs q.2.1.1.flatten (flat_in q.2.1.fine)) q.2.2

lemma idRow_fine : ∀ r ∈ [idRow d], RowFine p r := fun r hr => by
  rw [List.mem_singleton.1 hr]
  exact ⟨rowIn_zero p, second_zero d⟩

lemma op_idRow (m : jetF (box fun j => (p j : ℕ∞))) (x : Fin d → ℝ) (f : jetF (box fun j => (p j : ℕ∞))) :
    ((matern_jet p ρ).op m (rowCoefs [idRow d].flatten (flat_in idRow_fine)) x).1 f = f.1 x := by
  rw [op_apply, rowCoefs_sum _ _ fun α => jet f α x]
  have e : miIx d (⟨[d], List.replicate d 0⟩ : MI) = 0 := by
    funext i
    simp [miIx]
  simp only [idRow, List.flatten_cons, List.flatten_nil, List.append_nil, List.map_cons, List.map_nil, List.sum_cons, List.sum_nil, add_zero, one_mul, e]
  exact congrFun (jet_spec f).zero x

lemma t_cross (m : jetF (box fun j => (p j : ℕ∞))) (q : ℕ × TOp p × (Fin d → ℝ)) (x : Fin d → ℝ) :
    (((matern_jet p ρ).prior m).cross (tOp m q)).1 x = ((matern_jet p ρ).prior m).cov
      ((matern_jet p ρ).op m (rowCoefs [idRow d].flatten (flat_in idRow_fine)) x) (tOp m q) := (op_idRow m x _).symm

lemma t_kk (m : jetF (box fun j => (p j : ℕ∞))) (x y : Fin d → ℝ) :
    ((matern_jet p ρ).prior m).k x y = ((matern_jet p ρ).prior m).cov ((matern_jet p ρ).op m (rowCoefs [idRow d].flatten (flat_in idRow_fine)) x)
      ((matern_jet p ρ).op m (rowCoefs [idRow d].flatten (flat_in idRow_fine)) y) :=
  ((op_idRow m x _).trans (op_idRow m y _)).symm

lemma t_close (hd : 0 < d) (hT : ∀ n, (T n).Full) (hs : ∀ i, F.Near a (s i) (ρ i)) (htr : ∀ n m, FullOpt (tr n m))
    (m : jetF (box fun j => (p j : ℕ∞))) (pm : ℕ × TOp p × (Fin d → ℝ) → ℝ) (mf : (Fin d → ℝ) → ℝ) {S : Set (ℕ × TOp p × (Fin d → ℝ))} {ε M : ℝ}
    (hS : ∀ q ∈ S, ∀ r ∈ S, oErr F a p ρ q.2.1.1 q.2.2 r.2.1.1 r.2.2 ≤ ε ∧ oMag p ρ q.2.1.1 q.2.2 r.2.1.1 r.2.2 ≤ M)
    {q r : ℕ × TOp p × (Fin d → ℝ)} (hq : q ∈ S) (hr : r ∈ S) :
    |(tensorKer F T s p ρ tr pm mf).g q r - ((matern_jet p ρ).prior m).cov (tOp m q) (tOp m r)| ≤ ε ∧
      |((matern_jet p ρ).prior m).cov (tOp m q) (tOp m r)| ≤ M := by
  have key : ∀ q ∈ S, ∀ r ∈ S, |opsFl F T s p ρ tr q.2.1.1 q.2.2 r.2.1.1 r.2.2 - ((matern_jet p ρ).prior m).cov (tOp m q) (tOp m r)| ≤ ε ∧
      |((matern_jet p ρ).prior m).cov (tOp m q) (tOp m r)| ≤ M := fun q hq r hr => by
    have h := operators_error hd hT hs htr q.2.1.fine r.2.1.fine m q.2.2 r.2.2
    exact ⟨h.1.trans (hS q hq r hr).1, h.2.trans (hS q hq r hr).2⟩
  refine ⟨?_, (key q hq r hr).2⟩
  simp only [tensorKer]
  split_ifs
  · exact (key q hq r hr).1
  · rw [(jet_regular (matern_jet p ρ) m).symm]
    exact (key r hr q hq).1

lemma t_covered (pm : ℕ × TOp p × (Fin d → ℝ) → ℝ) (mf : (Fin d → ℝ) → ℝ) {S : Set (ℕ × TOp p × (Fin d → ℝ))} {σ : ℝ}
    {o : FlObs (ℕ × TOp p × (Fin d → ℝ))} (hmem : ∀ i, o.at_ i ∈ S) (hinj : Function.Injective fun i => (o.at_ i).1) (hb : ∀ i j, o.bc i j = o.bc j i)
    (hσ : ∀ i j, |o.bc i j| ≤ σ) : Covered (tensorKer F T s p ρ tr pm mf) S σ o := by
  refine ⟨hmem, fun i j => ?_, hb, hσ⟩
  rcases eq_or_ne i j with rfl | hij
  · rfl
  · have hne : (o.at_ i).1 ≠ (o.at_ j).1 := fun h => hij (hinj h)
    simp only [tensorKer]
    rcases lt_or_gt_of_ne hne with h | h
    · rw [if_neg (by omega), if_pos h.le]
    · rw [if_pos h.le, if_neg (by omega)]

lemma t_k (hd : 0 < d) (hT : ∀ n, (T n).Full) (hs : ∀ i, F.Near a (s i) (ρ i)) (htr : ∀ n m, FullOpt (tr n m))
    (m : jetF (box fun j => (p j : ℕ∞))) (pm : ℕ × TOp p × (Fin d → ℝ) → ℝ) (mf : (Fin d → ℝ) → ℝ) (q : ℕ × TOp p × (Fin d → ℝ)) (x : Fin d → ℝ) :
    |(tensorKer F T s p ρ tr pm mf).k x q - (((matern_jet p ρ).prior m).cross (tOp m q)).1 x| ≤ oErr F a p ρ [idRow d] x q.2.1.1 q.2.2 := by
  rw [t_cross]
  exact (operators_error hd hT hs htr idRow_fine q.2.1.fine m x q.2.2).1

lemma matK_self (x : Fin d → ℝ) : matK p ρ 0 x 0 x = 1 := by
  rw [matK_zero]
  refine Finset.prod_eq_one fun i _ => ?_
  rw [← Matern.matern_evalNone (.base (m := ⟨p i, fun _ => ρ i⟩)) fun _ : Fin 1 => x i]
  show Matern.pev (Matern.maternPoly (p i)) 0 * Real.exp (-0) = 1
  rw [Matern.pev_eq, Polynomial.eval_zero_map, ← Polynomial.coeff_zero_eq_eval_zero, Matern.coeff_maternPoly, if_pos (Nat.zero_le _), Matern.maternCoeff_zero]
  simp

/-- C93: any history of noisy observations of sums of differential operators (values, derivatives, the heat equation) of a tensor product of Matérn processes
in floating point: all factorisations succeed, and the computed posterior mean is within the stated distance of the exact one. -/
theorem tensor_history (hd : 0 < d) (hT : ∀ n, (T n).Full) (hs : ∀ i, F.Near a (s i) (ρ i)) (htr' : ∀ n m, FullOpt (tr n m))
    (m : jetF (box fun j => (p j : ℕ∞))) (pm : ℕ × TOp p × (Fin d → ℝ) → ℝ) (mf : (Fin d → ℝ) → ℝ) (S : Set (ℕ × TOp p × (Fin d → ℝ)))
    {ε M σ τ : ℝ} (hε : 0 ≤ ε) (hM : 0 ≤ M) (hσ : 0 ≤ σ) (hτ : 0 < τ)
    (hS : ∀ q ∈ S, ∀ r ∈ S, oErr F a p ρ q.2.1.1 q.2.2 r.2.1.1 r.2.2 ≤ ε ∧ oMag p ρ q.2.1.1 q.2.2 r.2.1.1 r.2.2 ≤ M)
    (slv : Solver) {tro : ∀ s : Shape, Option (Tree s.Idx)} (hto : ∀ s, FullOpt (tro s)) (e : Env) (he : e.CholOK)
    (o : FlObs (ℕ × TOp p × (Fin d → ℝ))) (os : List (FlObs (ℕ × TOp p × (Fin d → ℝ)))) (hmem : ∀ o' ∈ o :: os, ∀ i, o'.at_ i ∈ S)
    (hinj : ∀ o' ∈ o :: os, Function.Injective fun i => (o'.at_ i).1) (hb : ∀ o' ∈ o :: os, ∀ i j, o'.bc i j = o'.bc j i)
    (hσb : ∀ o' ∈ o :: os, ∀ i j, |o'.bc i j| ≤ σ) (hN : ∀ o' ∈ o :: os, ∀ v, τ * (v ⬝ᵥ v) ≤ v ⬝ᵥ (o'.bc *ᵥ v))
    (hc : (((o :: os).map FlObs.n).sum : ℝ) * (ε + F.u * (M + ε + σ)) < τ) :
    ∃ f c, FlSt.run F slv tro (tensorKer F T s p ρ tr pm mf) o os = .ok f ∧ run e (o.batch (tOp (ρ := ρ) m)) (os.map (FlObs.batch (tOp m))) = .ok c ∧
      f.gram.toMat.PosDef ∧ ∀ (t : Tree f.s.Idx), t.Full → ∀ x, ∃ v, c.covfunc e x x = .ok v ∧ v ≤ 1 ∧
        |f.mean F (tensorKer F T s p ρ tr pm mf) t x - c.mean x| ≤
          gam F (((o :: os).map FlObs.n).sum + 1) * (|mf x| + ∑ j, |opsFl F T s p ρ tr [idRow d] x (f.at_ j).2.1.1 (f.at_ j).2.2| * |f.w j|) + |mf x - m.1 x| +
            ∑ j, oErr F a p ρ [idRow d] x (f.at_ j).2.1.1 (f.at_ j).2.2 * |f.w j| +
            √((1 - v) / τ) * (f.err + ((o :: os).map FlObs.n).sum * (ε + F.u * (M + ε + σ)) * ∑ j, |f.w j| +
              ∑ i, (gam F 2 * (|f.Y i| + |pm (f.at_ i)| + |f.b i|) + |pm (f.at_ i) - (tOp (ρ := ρ) m (f.at_ i)).1 m|)) := by
  obtain ⟨f, c, e1, e2, e3, e4, e5, e6⟩ := history_mean F slv hto e he (jet_regular (matern_jet p ρ) m) (tensorKer F T s p ρ tr pm mf) (tOp m) S hε hM hσ hτ
    (fun q hq r hr => (t_close hd hT hs htr' m pm mf hS hq hr).1) (fun q hq r hr => (t_close hd hT hs htr' m pm mf hS hq hr).2) o os
    (fun o' ho' => t_covered pm mf (hmem o' ho') (hinj o' ho') (hb o' ho') (hσb o' ho'))
    (fun b hb => by
      obtain ⟨o', ho', rfl⟩ := List.mem_map.1 hb
      exact hN o' ho') hc
  refine ⟨f, c, e1, e2, e3, fun t ht x => ?_⟩
  obtain ⟨v, h1, h2, h3⟩ := e6 t ht x
  have hk1 : ((matern_jet p ρ).prior m).k x x = 1 := matK_self x
  rw [hk1] at h2 h3
  refine ⟨v, h1, h2, h3.trans ?_⟩
  rw [e5]
  exact add_le_add (add_le_add le_rfl (sum_le_sum fun j _ => mul_le_mul_of_nonneg_right (t_k hd hT hs htr' m pm mf _ x) (abs_nonneg _))) le_rfl

/-- C93: posterior covariances after any such history, in floating point. -/
theorem tensor_cov (hd : 0 < d) (hT : ∀ n, (T n).Full) (hs : ∀ i, F.Near a (s i) (ρ i)) (htr' : ∀ n m, FullOpt (tr n m))
    (m : jetF (box fun j => (p j : ℕ∞))) (pm : ℕ × TOp p × (Fin d → ℝ) → ℝ) (mf : (Fin d → ℝ) → ℝ) (S : Set (ℕ × TOp p × (Fin d → ℝ)))
    {ε M σ τ : ℝ} (hε : 0 ≤ ε) (hM : 0 ≤ M) (hσ : 0 ≤ σ) (hτ : 0 < τ)
    (hS : ∀ q ∈ S, ∀ r ∈ S, oErr F a p ρ q.2.1.1 q.2.2 r.2.1.1 r.2.2 ≤ ε ∧ oMag p ρ q.2.1.1 q.2.2 r.2.1.1 r.2.2 ≤ M)
    (slv : Solver) (lib : Lib) {tro : ∀ s : Shape, Option (Tree s.Idx)} (hto : ∀ s, FullOpt (tro s)) (e : Env) (he : e.CholOK)
    (o : FlObs (ℕ × TOp p × (Fin d → ℝ))) (os : List (FlObs (ℕ × TOp p × (Fin d → ℝ)))) (hmem : ∀ o' ∈ o :: os, ∀ i, o'.at_ i ∈ S)
    (hinj : ∀ o' ∈ o :: os, Function.Injective fun i => (o'.at_ i).1) (hb : ∀ o' ∈ o :: os, ∀ i j, o'.bc i j = o'.bc j i)
    (hσb : ∀ o' ∈ o :: os, ∀ i j, |o'.bc i j| ≤ σ) (hN : ∀ o' ∈ o :: os, ∀ v, τ * (v ⬝ᵥ v) ≤ v ⬝ᵥ (o'.bc *ᵥ v))
    (hc : (((o :: os).map FlObs.n).sum : ℝ) * (ε + F.u * (M + ε + σ)) < τ) :
    let k := fun (x : Fin d → ℝ) (q : ℕ × TOp p × (Fin d → ℝ)) => opsFl F T s p ρ tr [idRow d] x q.2.1.1 q.2.2
    let kE := fun (x : Fin d → ℝ) (q : ℕ × TOp p × (Fin d → ℝ)) => oErr F a p ρ [idRow d] x q.2.1.1 q.2.2
    let kk := fun x y => opsFl F T s p ρ tr [idRow d] x [idRow d] y
    ∃ f c, FlSt.run F slv tro (tensorKer F T s p ρ tr pm mf) o os = .ok f ∧ run e (o.batch (tOp (ρ := ρ) m)) (os.map (FlObs.batch (tOp m))) = .ok c ∧
      ∀ (t : Tree f.s.Idx), t.Full → ∀ x y, ∃ z C v V, solveFl F lib tro e f.gram (fun j => k y (f.at_ j)) = .ok z ∧
        f.cov F lib tro e (tensorKer F T s p ρ tr pm mf) kk t x y = .ok C ∧ c.covfunc e x x = .ok v ∧ 0 ≤ v ∧ v ≤ 1 ∧ c.covfunc e x y = .ok V ∧
        |C - V| ≤
          gam F (Fintype.card f.s.Idx + 1) * (|kk x y| + ∑ j, |k x (f.at_ j)| * |z j|) + oErr F a p ρ [idRow d] x [idRow d] y + ∑ j, kE x (f.at_ j) * |z j| +
            √((1 - v) / τ) * (∑ i, solveErr F lib tro e f.gram (fun j => k y (f.at_ j)) i +
              Fintype.card f.s.Idx * (ε + F.u * (M + ε + σ)) * ∑ j, |z j| + ∑ i, kE y (f.at_ i)) := by
  intro k kE kk
  obtain ⟨f, c, e1, e2, e4, e6⟩ := history_cov F slv lib hto e he (jet_regular (matern_jet p ρ) m) (tensorKer F T s p ρ tr pm mf) kk (tOp m) S hε hM hσ hτ
    (fun q hq r hr => (t_close hd hT hs htr' m pm mf hS hq hr).1) (fun q hq r hr => (t_close hd hT hs htr' m pm mf hS hq hr).2) o os
    (fun o' ho' => t_covered pm mf (hmem o' ho') (hinj o' ho') (hb o' ho') (hσb o' ho'))
    (fun b hb => by
      obtain ⟨o', ho', rfl⟩ := List.mem_map.1 hb
      exact hN o' ho') hc
  refine ⟨f, c, e1, e2, fun t ht x y => ?_⟩
  obtain ⟨z, C, v, V, h1, -, h2, h3, h4, h5, h6, h7⟩ := e6 t ht x y
  have hk1 : ((matern_jet p ρ).prior m).k x x = 1 := matK_self x
  rw [hk1] at h5 h7
  refine ⟨z, C, v, V, h1, h2, h3, h4, h5, h6, h7.trans ?_⟩
  refine add_le_add (add_le_add (add_le_add le_rfl ?_) (sum_le_sum fun j _ => mul_le_mul_of_nonneg_right (t_k hd hT hs htr' m pm mf _ x) (abs_nonneg _)))
    (mul_le_mul_of_nonneg_left (add_le_add le_rfl (sum_le_sum fun i _ => t_k hd hT hs htr' m pm mf _ y)) (Real.sqrt_nonneg _))
  have h := (operators_error hd hT hs htr' idRow_fine idRow_fine m x y).1
  rw [t_kk]
  exact h

/-- The heat operator as a sum of operators. -/
noncomputable def heatOp {n : ℕ} {p : Fin (n + 2) → ℕ} (hp : HeatSmooth p) {alpha : ℝ} (ha : rowL n alpha ≠ []) : TOp p :=
  ⟨[rowT n, rowL n alpha], by simp, fun r hr => by
    rcases List.mem_cons.1 hr with rfl | hr
    · exact ⟨by simp [rowT], rowT_in hp, rowT_second n⟩
    · rw [List.mem_singleton.1 hr]
      exact ⟨ha, rowL_in hp alpha, rowL_second n alpha⟩⟩

lemma rowL_ne (n : ℕ) {alpha : ℝ} (ha : alpha ≠ 0) : rowL n alpha ≠ [] := fun h0 => by
  have h1 := rowL_sum n alpha fun _ => 1
  rw [h0] at h1
  simp only [List.map_nil, List.sum_nil, Finset.sum_const, Finset.card_univ, Fintype.card_fin, nsmul_eq_mul, mul_one] at h1
  rcases mul_eq_zero.mp h1.symm with h2 | h2
  · exact ha (by linarith)
  · exact (Nat.cast_ne_zero.mpr (by omega) : ((n + 1 : ℕ) : ℝ) ≠ 0) h2

/-- The functional of the heat operator. -/
theorem heat_functional {n : ℕ} {p : Fin (n + 2) → ℕ} {ρ : Fin (n + 2) → ℝ} (hp : HeatSmooth p) {alpha : ℝ} (ha : rowL n alpha ≠ [])
    (m : jetF (box fun j => (p j : ℕ∞))) (i : ℕ) (x : Fin (n + 2) → ℝ) :
    tOp (ρ := ρ) m (i, heatOp hp ha, x) = (matern_jet p ρ).op m (heatCoefs hp alpha) x := by
  refine Subtype.ext (LinearMap.ext fun f => ?_)
  rw [tOp, op_apply, op_apply, heatCoefs_sum hp alpha fun α => jet f α x, rowCoefs_sum _ _ fun α => jet f α x]
  show (([rowT n, rowL n alpha].flatten).map fun mc => mc.2 * jet f (miIx (n + 2) mc.1) x).sum = _
  rw [List.flatten_cons, List.flatten_cons, List.flatten_nil, List.append_nil, List.map_append, List.sum_append, rowT_sum n fun α => jet f α x,
    rowL_sum n alpha fun α => jet f α x]
  ring

/-- C93: covariances of the heat operator in floating point. -/
theorem heat_error {n : ℕ} {p : Fin (n + 2) → ℕ} {F : Fmt} {T : ℕ → Tree (Fin 1)} {a : ℕ} {s ρ : Fin (n + 2) → ℝ} {tr : ∀ n m : ℕ, Option (Tree (Fin n × Fin m))}
    (hT : ∀ n, (T n).Full) (hs : ∀ i, F.Near a (s i) (ρ i)) (htr : ∀ n m, FullOpt (tr n m)) (hp : HeatSmooth p) {alpha : ℝ} (ha : alpha ≠ 0)
    (m : jetF (box fun j => (p j : ℕ∞))) (x y : Fin (n + 2) → ℝ) :
    |opsFl F T s p ρ tr [rowT n, rowL n alpha] x [rowT n, rowL n alpha] y -
      ((matern_jet p ρ).prior m).cov ((matern_jet p ρ).op m (heatCoefs hp alpha) x) ((matern_jet p ρ).op m (heatCoefs hp alpha) y)| ≤
        oErr F a p ρ [rowT n, rowL n alpha] x [rowT n, rowL n alpha] y := by
  rw [← heat_functional hp (rowL_ne n ha) m 0 x, ← heat_functional hp (rowL_ne n ha) m 0 y]
  exact (operators_error (by omega) hT hs htr (heatOp hp (rowL_ne n ha)).fine (heatOp hp (rowL_ne n ha)).fine m x y).1

end LinPDE.Rounding
