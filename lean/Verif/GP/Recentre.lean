import Verif.GP.Props

/-! # The mean of the observation noise -/

namespace LinPDE.GP
open Matrix LinPDE.Block

variable {X : Type} {P : Prior X}

/-- The observation with the mean of the noise subtracted from the values. -/
def Batch.recentre (b : Batch P) : Batch P :=
  match b.noise with
  | none => b
  | some (mean, cov) => ⟨b.n, b.L, some (0, cov), fun i => b.Y i - mean i⟩

lemma fromObservations_recentre (e : Env) (b : Batch P) :
    Core.fromObservations e b.recentre = Core.fromObservations e b := by
  obtain ⟨n, L, noise, Y⟩ := b
  cases noise with
  | none => rfl
  | some z =>
    obtain ⟨mean, cov⟩ := z
    have : (fun i => Y i - mean i - ((L i).1 P.m + (0 : Fin n → ℝ) i)) = fun i => Y i - ((L i).1 P.m + mean i) := by
      funext i
      rw [Pi.zero_apply]
      ring
    exact congrArg (fun r : Fin n → ℝ => ((Batch.mk n L (some (mean, cov)) Y).gramOp.solve e (col r) >>= fun w =>
      pure (⟨.leaf n, fun i => P.cross (L i), (Batch.mk n L (some (mean, cov)) Y).gramOp, w⟩ : Core P) :
        Except Err (Core P))) this

lemma condition_recentre (e : Env) (c : Core P) (b : Batch P) : c.condition e b.recentre = c.condition e b := by
  obtain ⟨n, L, noise, Y⟩ := b
  cases noise with
  | none => rfl
  | some z =>
    obtain ⟨mean, cov⟩ := z
    have : (fun i => Y i - mean i - ((L i).1 P.m + (0 : Fin n → ℝ) i)) = fun i => Y i - ((L i).1 P.m + mean i) := by
      funext i
      rw [Pi.zero_apply]
      ring
    exact congrArg (fun r : Fin n → ℝ => (mk2x2 c.gram
      (some (Matrix.of fun (i : (Shape.leaf n).Idx) j => (L i).1 (c.kLas j))ᵀ) none
      (Batch.mk n L (some (mean, cov)) Y).gramOp true >>= fun gram => gram.schurUpdate e c.w (col r) >>= fun w =>
      pure (⟨.node c.s (.leaf n), Sum.elim c.kLas fun i => P.cross (L i), gram, w⟩ : Core P) : Except Err (Core P))) this

lemma foldl_toCore (e : Env) (l : List (Batch P)) (c : Cond P) :
    (l.foldlM (fun c b => Cond.condition e c b) c).map Cond.toCore = l.foldlM (fun c b => Core.condition e c b) c.toCore := by
  induction l generalizing c with
  | nil => rfl
  | cons b l ih =>
    rw [List.foldlM_cons, List.foldlM_cons, ← toCore_condition]
    cases c.condition e b with
    | error x => rfl
    | ok c' => exact ih c'

lemma run_toCore (e : Env) (b : Batch P) (l : List (Batch P)) :
    (run e b l).map Cond.toCore = Core.fromObservations e b >>= fun c => l.foldlM (fun c b => Core.condition e c b) c := by
  unfold run Cond.fromObservations Core.fromObservations
  cases b.gramOp.solve e (col fun i => b.Y i - b.predMean i) with
  | error x => rfl
  | ok w => exact foldl_toCore e l _

/-- C70: observing `y` with noise of mean `μ` has the same outcome (numerical state or exception) as observing `y - μ` with
centred noise of the same covariance, for every history. -/
theorem run_recentre (e : Env) (b : Batch P) (l : List (Batch P)) :
    (run e b.recentre (l.map Batch.recentre)).map Cond.toCore = (run e b l).map Cond.toCore := by
  rw [run_toCore, run_toCore, fromObservations_recentre]
  congr 1
  funext c
  induction l generalizing c with
  | nil => rfl
  | cons b l ih =>
    rw [List.map_cons, List.foldlM_cons, List.foldlM_cons, condition_recentre]
    congr 1
    funext c'
    exact ih c'

/-- Non-vacuity: an observation with noise of mean one. -/
example : ∃ b : Batch (white ℕ), b.bMean ≠ 0 ∧ b.recentre.bMean = 0 := by
  refine ⟨⟨1, fun _ => (white_regular ℕ).ev 0, some (fun _ => 1, 1), fun _ => 3⟩, fun h => ?_, rfl⟩
  have := congrFun h 0
  simp [Batch.bMean] at this

end LinPDE.GP
