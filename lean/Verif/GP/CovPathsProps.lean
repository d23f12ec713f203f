import Verif.GP.CovPaths
import Verif.GP.Props

/-! # Properties of the posterior covariance paths (C08) -/

namespace LinPDE.GP
open Matrix LinPDE.Block

variable {X D : Type} {p : ℕ}

/-- C08: the linear-operator path returns the posterior covariance matrix, also for vector-valued
processes (points then carry an output index). -/
theorem covLinop_spec (e : Env) (he : e.CholOK) {P : Prior X} (hP : P.Regular) (b : Batch P) (l : List (Batch P))
    (hG : (jG (b :: l)).PosDef) (c : Cond P) (hc : run e b l = .ok c) {n0 n1 : Type} (xs0 : n0 → X) (xs1 : n1 → X) :
    c.covLinop e xs0 xs1 = .ok (Matrix.of fun i j => postCov (b :: l) (xs0 i) (xs1 j)) := by
  obtain ⟨c', h, ⟨I⟩⟩ := run_inv e he hP b l hG
  obtain rfl : c = c' := by rw [hc] at h; exact Except.ok.inj h
  unfold Core.covLinop
  dsimp only
  rw [solve_eq_inv e he c.gram I.spd.valid]
  show Except.ok _ = Except.ok _
  congr 1
  funext i j
  exact (I.functlCov (hP.ev (xs0 i)) (hP.ev (xs1 j))).trans (posterior_ev hP _ _ _)

/-- C08: for scalar processes the NumPy path and the linear-operator path agree. -/
theorem numpy_eq_linop_scalar (e : Env) (he : e.CholOK) {P : Prior X} (hP : P.Regular) (b : Batch P)
    (l : List (Batch P)) (hG : (jG (b :: l)).PosDef) (c : Cond P) (hc : run e b l = .ok c) (x y : X) :
    c.covfunc e x y = (c.covLinop e (fun _ : Unit => x) fun _ : Unit => y).map fun M => M () () := by
  obtain ⟨c', h, -, h2⟩ := run_posterior e he hP b l hG
  obtain rfl : c = c' := by rw [hc] at h; exact Except.ok.inj h
  rw [h2, covLinop_spec e he hP b l hG c hc]
  rfl

/-- What the NumPy path returns for a process with `p` outputs: the covariance update of the *second*
output index is subtracted in every row. -/
theorem covNumpyVec_value (e : Env) (he : e.CholOK) {P : Prior (D × Fin p)} (hP : P.Regular) (b : Batch P)
    (l : List (Batch P)) (hG : (jG (b :: l)).PosDef) (c : Cond P) (hc : run e b l = .ok c) (x0 x1 : D) :
    c.covNumpyVec e x0 x1 = .ok (Matrix.of fun o0 o1 => P.k (x0, o0) (x1, o1) -
      (P.k (x0, o1) (x1, o1) - postCov (b :: l) (x0, o1) (x1, o1))) := by
  obtain ⟨c', h, ⟨I⟩⟩ := run_inv e he hP b l hG
  obtain rfl : c = c' := by rw [hc] at h; exact Except.ok.inj h
  unfold Core.covNumpyVec
  rw [solve_eq_inv e he c.gram I.spd.valid]
  show Except.ok _ = Except.ok _
  congr 1
  funext o0 o1
  have := (I.functlCov (hP.ev (x0, o1)) (hP.ev (x1, o1))).trans (posterior_ev hP _ _ _)
  show P.k (x0, o0) (x1, o1) - ∑ j, (hP.ev (x0, o1)).1 (c.kLas j) *
      (c.gram.toMat⁻¹ * col fun j => (hP.ev (x1, o1)).1 (c.kLas j)) j () =
    P.k (x0, o0) (x1, o1) - (P.k (x0, o1) (x1, o1) - postCov (b :: l) (x0, o1) (x1, o1))
  rw [← this, cov_ev, sub_sub_cancel]

/-- C08, partial: the NumPy path is right on equal output indices, hence for processes with at most
one output.  (Full statement: for all pairs `o0 o1`, refuted by `covNumpyVec_violated`.) -/
theorem covNumpyVec_partial (e : Env) (he : e.CholOK) {P : Prior (D × Fin p)} (hP : P.Regular) (b : Batch P)
    (l : List (Batch P)) (hG : (jG (b :: l)).PosDef) (c : Cond P) (hc : run e b l = .ok c) (x0 x1 : D) :
    ∃ M, c.covNumpyVec e x0 x1 = .ok M ∧ (∀ o, M o o = postCov (b :: l) (x0, o) (x1, o)) ∧
      (p ≤ 1 → ∀ o0 o1, M o0 o1 = postCov (b :: l) (x0, o0) (x1, o1)) := by
  refine ⟨_, covNumpyVec_value e he hP b l hG c hc x0 x1, fun o => ?_, fun hp o0 o1 => ?_⟩
  · simp
  · obtain rfl : o0 = o1 := Fin.ext (by omega)
    simp

/-- C08 is violated for vector-valued processes: with two outputs and one exact observation the NumPy
path returns `-1` where the linear-operator path returns the correct `0`. -/
theorem covNumpyVec_violated :
    ∃ (P : Prior (Unit × Fin 2)) (b : Batch P), P.Regular ∧ (jG [b]).PosDef ∧ ∀ (e : Env), e.CholOK →
      ∃ c M N, run e b [] = .ok c ∧ c.covNumpyVec e () () = .ok M ∧
        c.covLinop e (fun o : Fin 2 => ((), o)) (fun o : Fin 2 => ((), o)) = .ok N ∧
        M 1 0 = -1 ∧ N 1 0 = 0 := by
  have hinj : Function.Injective fun _ : Fin 1 => ((), (0 : Fin 2)) := fun a b _ => Subsingleton.elim a b
  have hpd := exactN_posDef (fun _ : Fin 1 => ((), (0 : Fin 2))) hinj fun _ => 0
  refine ⟨_, exactN (fun _ : Fin 1 => ((), (0 : Fin 2))) fun _ => 0, white_regular _, hpd, fun e he => ?_⟩
  obtain ⟨c, hc, -, -⟩ := run_posterior e he (white_regular _) _ [] hpd
  have hrow := exact_row (white_regular (Unit × Fin 2)) hpd
    (d := exactN (fun _ : Fin 1 => ((), (0 : Fin 2))) fun _ => 0) List.mem_cons_self rfl (0 : Fin 1)
  have h00 : postCov [exactN (fun _ : Fin 1 => ((), (0 : Fin 2))) fun _ => 0] ((), 0) ((), 0) = 0 := by
    rw [← posterior_ev (white_regular _)]
    exact hrow.2 _
  have h10 : postCov [exactN (fun _ : Fin 1 => ((), (0 : Fin 2))) fun _ => 0] ((), 1) ((), 0) = 0 := by
    rw [postCov_symm (white_regular _) hpd, ← posterior_ev (white_regular _)]
    exact hrow.2 _
  refine ⟨c, _, _, hc, covNumpyVec_value e he (white_regular _) _ [] hpd c hc () (),
    covLinop_spec e he (white_regular _) _ [] hpd c hc _ _, ?_, ?_⟩
  · simp only [of_apply, h00]
    simp [white, ofKernel]
  · simp only [of_apply, h10]

/-- C08 is violated by the JAX path: at a pair of single points it never returns. -/
theorem covJaxPoint_violated (e : Env) {P : Prior X} (c : Core P) (x0 x1 : X) :
    ∃ err, c.covJaxPoint e x0 x1 = .error err := by
  unfold Core.covJaxPoint
  cases c.gram.solve e (col fun j => (c.kLas j).1 x1) with
  | error err => exact ⟨err, rfl⟩
  | ok z =>
    cases h : (idxs c.s).head? with
    | none => exact ⟨.valueError, rfl⟩
    | some j0 => exact ⟨.valueError, rfl⟩

/-- C08 is violated by the JAX path: for a batch of points whose size differs from the number of
observations it fails. -/
theorem covJaxBatch_error (e : Env) {P : Prior X} (c : Core P) {B : ℕ} (xs0 xs1 : Fin B → X)
    (h : Fintype.card c.s.Idx ≠ B) : ∃ err, c.covJaxBatch e xs0 xs1 = .error err := by
  unfold Core.covJaxBatch
  cases c.gram.solve e (Matrix.of fun j i => (c.kLas j).1 (xs1 i) : Matrix c.s.Idx (Fin B) ℝ) with
  | error err => exact ⟨err, rfl⟩
  | ok z =>
    have hl : (idxs c.s).length ≠ B := by rw [idxs_length]; exact h
    cases hh : (idxs c.s).head? with
    | none => exact ⟨.valueError, rfl⟩
    | some j0 =>
      exact ⟨.valueError, by
        simp [bind, Except.bind, hl]⟩

/-- C08 is violated by the JAX path also when the sizes happen to match: after two exact observations
it reports variance `1` at the second observed point, where the posterior variance is `0`. -/
theorem covJaxBatch_violated :
    ∃ (b : Batch (white ℕ)) (xs : Fin 2 → ℕ), (jG [b]).PosDef ∧ ∀ e : Env, e.CholOK →
      ∃ c M, run e b [] = .ok c ∧ c.covJaxBatch e xs xs = .ok M ∧ M 1 1 = 1 ∧ postCov [b] (xs 1) (xs 1) = 0 := by
  have hinj : Function.Injective fun i : Fin 2 => i.1 := Fin.val_injective
  have hpd := exactN_posDef (fun i : Fin 2 => i.1) hinj fun _ => 0
  refine ⟨exactN (fun i : Fin 2 => i.1) fun _ => 0, fun i => i.1, hpd, fun e he => ?_⟩
  obtain ⟨c, hc, -, -⟩ := run_posterior e he (white_regular _) _ [] hpd
  obtain ⟨w, hw⟩ := fromObservations_core e he _ hpd
  have h3 := run_nil_core e (exactN (fun i : Fin 2 => i.1) fun _ => 0)
  rw [hc, hw] at h3
  have h4 : c.toCore = _ := Except.ok.inj h3
  refine ⟨c, Matrix.of fun i j => 1 - ∑ m : Fin 2, (if i = m then 1 else 0) * (if m = 0 then 1 else 0), hc, ?_, ?_, ?_⟩
  · rw [h4]
    unfold Core.covJaxBatch
    dsimp only
    rw [solve_one e he _ (gramOp_spd _ (by rw [exactN_gram _ hinj]; exact Matrix.PosDef.one)).valid
      (exactN_gram _ hinj _)]
    show Except.ok _ = Except.ok _
    congr 1
    funext i j
    show (if j.1 = j.1 then (1 : ℝ) else 0) - ∑ m : Fin 2, (if i.1 = m.1 then (1 : ℝ) else 0) *
      (if m.1 = (0 : Fin 2).1 then 1 else 0) = 1 - ∑ m : Fin 2, (if i = m then 1 else 0) * (if m = 0 then 1 else 0)
    simp only [Fin.ext_iff, if_true]
  · simp
  · have h := exact_row (white_regular ℕ) hpd (d := exactN (fun i : Fin 2 => i.1) fun _ => 0) List.mem_cons_self rfl (1 : Fin 2)
    rw [← posterior_ev (white_regular ℕ)]
    exact h.2 _

end LinPDE.GP
