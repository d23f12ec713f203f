import Verif.GP.JointLemmas
import Verif.GP.Props

/-! # C71: several processes, and equations with an uncertain right-hand side -/

namespace LinPDE.GP
open Matrix LinPDE.Block

variable {X ι : Type} [DecidableEq ι]

/-- C71: conditioning a posterior on one more batch is conditioning the prior on everything, for every regular prior: the
second Gram matrix is positive definite again, and means and covariances of functions and functionals agree. -/
theorem posterior_of_posterior {P : Prior X} (hP : P.Regular) (l : List (Batch P)) (b : Batch P) (hG : (jG (l ++ [b])).PosDef) :
    (jG [b.again l]).PosDef ∧
    (∀ x, postMean (P := posterior P l) [b.again l] x = postMean (l ++ [b]) x) ∧
    (∀ x y, postCov (P := posterior P l) [b.again l] x y = postCov (l ++ [b]) x y) ∧
    ∀ L L' : P.Λ, L.1 (posterior (posterior P l) [b.again l]).m = L.1 (posterior P (l ++ [b])).m ∧
      (posterior (posterior P l) [b.again l]).cov L L' = (posterior P (l ++ [b])).cov L L' := by
  refine ⟨again_posDef hP hG, fun x => ?_, fun x y => ?_, fun L L' => ⟨chain_mean hP hG L, chain_cov hP hG L L'⟩⟩
  · rw [← postMeanF_apply, ← postMeanF_apply]
    exact chain_mean hP hG (hP.ev x)
  · rw [← posterior_ev hP]
    exact (posterior_cov (P := posterior P l) [b.again l] (hP.ev x) (hP.ev y)).symm.trans (chain_cov hP hG (hP.ev x) (hP.ev y))

/-- Non-vacuity. -/
example : (jG ([exact1 0 3] ++ [noisy1 1 5])).PosDef := ex_posDef.1

variable {P : ι → Prior X}

/-- One step of the notebooks: measurements of the process `i`, or the equation `L f_i - M f_j = Y`. -/
inductive Meas (P : ι → Prior X) (i j : ι)
  | own (b : Batch (P i))
  | equation {n : ℕ} (L : Fin n → (P i).Λ) (M : Fin n → (P j).Λ) (Y : Fin n → ℝ)

/-- The step on the joint process. -/
def Meas.joint {i j : ι} : Meas P i j → Batch (indep P)
  | .own b => b.onComp i
  | .equation L M Y => equationBatch P i j L M Y

/-- The step on the process `i`, with a random right-hand side. -/
def Meas.alone {i j : ι} : Meas P i j → Batch (P i)
  | .own b => b
  | .equation L M Y => noiseBatch L M Y

/-- The functionals of the right-hand side. -/
def Meas.rhs {i j : ι} : Meas P i j → Set (P j).Λ
  | .own _ => ∅
  | .equation _ M _ => Set.range M

/-! ### Lemmas -/

/-- `from_observations`, with its ingredients as arguments. -/
noncomputable def fromParts {Y : Type} (e : Env) {Q : Prior Y} (n : ℕ) (g : Op (.leaf n)) (r : Fin n → ℝ) (k : Fin n → Q.F) :
    Except Err (Core Q) :=
  g.solve e (col r) >>= fun w => pure ⟨.leaf n, k, g, w⟩

/-- `condition_on_observations`, with its ingredients as arguments. -/
noncomputable def condParts {Y : Type} (e : Env) {Q : Prior Y} (c : Core Q) (n : ℕ) (low : Matrix (Fin n) c.s.Idx ℝ) (g : Op (.leaf n))
    (r : Fin n → ℝ) (k : Fin n → Q.F) : Except Err (Core Q) :=
  mk2x2 c.gram (some lowᵀ) none g true >>= fun gr => gr.schurUpdate e c.w (col r) >>= fun w =>
    pure ⟨.node c.s (.leaf n), Sum.elim c.kLas k, gr, w⟩

lemma from_eq {Y : Type} (e : Env) {Q : Prior Y} (b : Batch Q) : Core.fromObservations e b =
    fromParts e b.n b.gramOp (fun i => b.Y i - b.predMean i) fun i => Q.cross (b.L i) := rfl

lemma cond_eq {Y : Type} (e : Env) {Q : Prior Y} (c : Core Q) (b : Batch Q) : c.condition e b =
    condParts e c b.n (Matrix.of fun i j => (b.L i).1 (c.kLas j)) b.gramOp (fun i => b.Y i - b.predMean i)
      fun i => Q.cross (b.L i) := rfl

lemma fromParts_congr {Y : Type} {e : Env} {Q : Prior Y} {n : ℕ} {g g' : Op (.leaf n)} {r r' : Fin n → ℝ} {k k' : Fin n → Q.F}
    (h1 : g = g') (h2 : r = r') (h3 : k = k') : fromParts e n g r k = fromParts e n g' r' k' := by
  rw [h1, h2, h3]

lemma condParts_congr {Y : Type} {e : Env} {Q : Prior Y} {c : Core Q} {n : ℕ} {low low' : Matrix (Fin n) c.s.Idx ℝ}
    {g g' : Op (.leaf n)} {r r' : Fin n → ℝ} {k k' : Fin n → Q.F} (h0 : low = low') (h1 : g = g') (h2 : r = r') (h3 : k = k') :
    condParts e c n low g r k = condParts e c n low' g' r' k' := by
  rw [h0, h1, h2, h3]

lemma fromParts_comp (e : Env) (i : ι) (n : ℕ) (g : Op (.leaf n)) (r : Fin n → ℝ) (k : Fin n → (indep P).F) :
    (fromParts e (Q := indep P) n g r k).map (Core.comp · i) = fromParts e (Q := P i) n g r fun a => sel P i (k a) := by
  unfold fromParts
  cases g.solve e (col r) <;> rfl

lemma condParts_comp (e : Env) (i : ι) (c : Core (indep P)) (n : ℕ) (low : Matrix (Fin n) c.s.Idx ℝ) (g : Op (.leaf n))
    (r : Fin n → ℝ) (k : Fin n → (indep P).F) :
    (condParts e c n low g r k).map (Core.comp · i) = condParts e (c.comp i) n low g r fun a => sel P i (k a) := by
  unfold condParts
  show (mk2x2 c.gram (some lowᵀ) none g true >>= _ : Except Err _).map _ = (mk2x2 c.gram (some lowᵀ) none g true >>= _ : Except Err _)
  cases mk2x2 c.gram (some lowᵀ) none g true with
  | error x => rfl
  | ok gr =>
    show (gr.schurUpdate e c.w (col r) >>= _ : Except Err _).map _ = (gr.schurUpdate e c.w (col r) >>= _ : Except Err _)
    cases gr.schurUpdate e c.w (col r) with
    | error x => rfl
    | ok w =>
      have : (fun a => sel P i (Sum.elim c.kLas k a)) = Sum.elim (fun a => sel P i (c.kLas a)) fun a => sel P i (k a) := by
        funext a
        rcases a with a | a <;> rfl
      exact congrArg (fun q => (Except.ok (⟨.node c.s (.leaf n), q, gr, w⟩ : Core (P i)) : Except Err _)) this

lemma cov_onComp (i : ι) (L L' : (P i).Λ) : (indep P).cov (onComp P i L) (onComp P i L') = (P i).cov L L' := by
  show L.1 (sel P i ((indep P).cross (onComp P i L'))) = _
  rw [sel_cross, partOf_onComp_same]
  rfl

lemma cov_onComp_ne {i j : ι} (hij : i ≠ j) (L : (P i).Λ) (M : (P j).Λ) : (indep P).cov (onComp P i L) (onComp P j M) = 0 := by
  show L.1 (sel P i ((indep P).cross (onComp P j M))) = _
  rw [sel_cross, partOf_onComp_ne hij]
  exact map_zero L.1

lemma cov_sub_sub {Q : Prior X} (a b c d : Q.Λ) : Q.cov (a - b) (c - d) = Q.cov a c - Q.cov a d - Q.cov b c + Q.cov b d := by
  show a.1 (Q.cross c - Q.cross d) - b.1 (Q.cross c - Q.cross d) = _
  rw [map_sub, map_sub]
  show Q.cov a c - Q.cov a d - (Q.cov b c - Q.cov b d) = _
  ring

lemma sel_cross_equation {i j : ι} (hij : i ≠ j) (L : (P i).Λ) (M : (P j).Λ) :
    sel P i ((indep P).cross (onComp P i L - onComp P j M)) = (P i).cross L := by
  rw [sel_cross, partOf_sub, partOf_onComp_same, partOf_onComp_ne hij]
  exact congrArg (P i).cross (sub_zero L)

lemma sel_cross_equation' {i j : ι} (hij : i ≠ j) (L : (P i).Λ) (M : (P j).Λ) :
    sel P j ((indep P).cross (onComp P i L - onComp P j M)) = -(P j).cross M := by
  rw [sel_cross, partOf_sub, partOf_onComp_same, partOf_onComp_ne hij.symm]
  exact congrArg (P j).cross (zero_sub M)

lemma gramOp_onComp (i : ι) (b : Batch (P i)) : (b.onComp i).gramOp = b.gramOp := by
  obtain ⟨n, L, noise, Y⟩ := b
  have h : (Matrix.of fun a b => (indep P).cov (onComp P i (L a)) (onComp P i (L b)) : Matrix (Fin n) (Fin n) ℝ) =
      Matrix.of fun a b => (P i).cov (L a) (L b) := by
    ext a b
    rw [of_apply, of_apply, cov_onComp]
  cases noise with
  | none => exact congrArg (fun G => Op.dense (s := .leaf n) G { symm := true, pd := true }) h
  | some z =>
    exact congrArg (fun G : Matrix (Fin n) (Fin n) ℝ => Op.dense (s := .leaf n) (G + z.2) { symm := true, pd := true }) h

lemma resid_onComp (i : ι) (b : Batch (P i)) :
    (fun a => (b.onComp i).Y a - (b.onComp i).predMean a) = fun a => b.Y a - b.predMean a := by
  obtain ⟨n, L, noise, Y⟩ := b
  cases noise <;> rfl

lemma cov_equation {i j : ι} (hij : i ≠ j) (L L' : (P i).Λ) (M M' : (P j).Λ) :
    (indep P).cov (onComp P i L - onComp P j M) (onComp P i L' - onComp P j M') = (P i).cov L L' + (P j).cov M M' := by
  rw [cov_sub_sub, cov_onComp, cov_onComp, cov_onComp_ne hij, cov_onComp_ne hij.symm]
  ring

lemma gramOp_equation {i j : ι} (hij : i ≠ j) {n : ℕ} (L : Fin n → (P i).Λ) (M : Fin n → (P j).Λ) (Y : Fin n → ℝ) :
    (equationBatch P i j L M Y).gramOp = (noiseBatch L M Y).gramOp := by
  have h : (Matrix.of fun a b => (indep P).cov (onComp P i (L a) - onComp P j (M a)) (onComp P i (L b) - onComp P j (M b)) :
      Matrix (Fin n) (Fin n) ℝ) = (Matrix.of fun a b => (P i).cov (L a) (L b)) + Matrix.of fun a b => (P j).cov (M a) (M b) := by
    ext a b
    rw [of_apply, cov_equation hij]
    rfl
  exact congrArg (fun G : Matrix (Fin n) (Fin n) ℝ => Op.dense (s := .leaf n) G { symm := true, pd := true }) h

lemma resid_equation (i j : ι) {n : ℕ} (L : Fin n → (P i).Λ) (M : Fin n → (P j).Λ) (Y : Fin n → ℝ) :
    (fun a => (equationBatch P i j L M Y).Y a - (equationBatch P i j L M Y).predMean a) =
      fun a => (noiseBatch L M Y).Y a - (noiseBatch L M Y).predMean a := by
  funext a
  show Y a - ((L a).1 (P i).m - (M a).1 (P j).m) = Y a - ((L a).1 (P i).m + -(M a).1 (P j).m)
  ring

/-- No later right-hand side is correlated with an earlier measurement. -/
def Unrelated (j : ι) (R : Set (P j).Λ) (c : Core (indep P)) : Prop := ∀ M ∈ R, ∀ a, M.1 (sel P j (c.kLas a)) = 0

variable {i j : ι} (hij : i ≠ j)
include hij

lemma from_joint (e : Env) (m : Meas P i j) :
    (Core.fromObservations e m.joint).map (Core.comp · i) = Core.fromObservations e m.alone := by
  cases m with
  | own b =>
    rw [from_eq, from_eq, fromParts_comp]
    refine fromParts_congr (n := b.n) (gramOp_onComp i b) (resid_onComp i b) (funext fun a => ?_)
    show sel P i ((indep P).cross (onComp P i (b.L a))) = _
    rw [sel_cross, partOf_onComp_same]
    rfl
  | @equation n L M Y =>
    rw [from_eq, from_eq, fromParts_comp]
    refine fromParts_congr (n := n) (gramOp_equation hij L M Y) (resid_equation i j L M Y) (funext fun a => ?_)
    exact sel_cross_equation hij (L a) (M a)

lemma condition_joint (e : Env) (c : Core (indep P)) (m : Meas P i j) (hc : Unrelated j m.rhs c) :
    (c.condition e m.joint).map (Core.comp · i) = (c.comp i).condition e m.alone := by
  cases m with
  | own b =>
    rw [cond_eq, cond_eq, condParts_comp]
    refine condParts_congr (n := b.n) rfl (gramOp_onComp i b) (resid_onComp i b) (funext fun a => ?_)
    show sel P i ((indep P).cross (onComp P i (b.L a))) = _
    rw [sel_cross, partOf_onComp_same]
    rfl
  | @equation n L M Y =>
    rw [cond_eq, cond_eq, condParts_comp]
    refine condParts_congr (n := n) (Matrix.ext fun a b => ?_) (gramOp_equation hij L M Y) (resid_equation i j L M Y) (funext fun a => ?_)
    · show (L a).1 (sel P i (c.kLas b)) - (M a).1 (sel P j (c.kLas b)) = (L a).1 (sel P i (c.kLas b))
      rw [hc _ ⟨a, rfl⟩, sub_zero]
    · exact sel_cross_equation hij (L a) (M a)

lemma new_unrelated (m : Meas P i j) {R : Set (P j).Λ} (hR : ∀ M ∈ R, ∀ M' ∈ m.rhs, (P j).cov M M' = 0) (a : Fin m.joint.n) :
    ∀ M ∈ R, M.1 (sel P j ((indep P).cross (m.joint.L a))) = 0 := by
  intro M hM
  cases m with
  | own b =>
    show M.1 (sel P j ((indep P).cross (onComp P i (b.L a)))) = 0
    rw [sel_cross, partOf_onComp_ne hij.symm]
    exact map_zero M.1
  | @equation n L M' Y =>
    refine (congrArg M.1 (sel_cross_equation' hij (L a) (M' a))).trans ?_
    rw [map_neg, neg_eq_zero]
    exact hR M hM (M' a) ⟨a, rfl⟩

lemma fold_joint (e : Env) (ms : List (Meas P i j)) (c : Core (indep P)) (hc : ∀ m ∈ ms, Unrelated j m.rhs c)
    (hp : ms.Pairwise fun m m' => ∀ M ∈ m'.rhs, ∀ M' ∈ m.rhs, (P j).cov M M' = 0) :
    ((ms.map Meas.joint).foldlM (fun c b => Core.condition e c b) c).map (Core.comp · i) =
      (ms.map Meas.alone).foldlM (fun c b => Core.condition e c b) (c.comp i) := by
  induction ms generalizing c with
  | nil => rfl
  | cons m ms ih =>
    rw [List.map_cons, List.map_cons, List.foldlM_cons, List.foldlM_cons, ← condition_joint hij e c m (hc m (by simp))]
    cases h : c.condition e m.joint with
    | error x => rfl
    | ok c' =>
      refine ih c' (fun m' hm' M hM => ?_) (List.pairwise_cons.mp hp).2
      have h1 := hc m' (by simp [hm']) M hM
      have h2 := fun a => new_unrelated hij m (R := m'.rhs) (fun M hM M' hM' => (List.pairwise_cons.mp hp).1 m' hm' M hM M' hM') a M hM
      rw [cond_eq] at h
      unfold condParts at h
      revert h
      cases mk2x2 c.gram _ none m.joint.gramOp true with
      | error x => intro h; cases h
      | ok gr =>
        show (gr.schurUpdate e c.w _ >>= _ : Except Err _) = _ → _
        cases gr.schurUpdate e c.w _ with
        | error x => intro h; cases h
        | ok w =>
          intro h
          obtain rfl := Except.ok.inj h
          intro a
          rcases a with a | a
          · exact h1 a
          · exact h2 a

/-- C71: an uncertain right-hand side is a second process.  For every history of measurements of `f_i` and of equations
`L f_i - M f_j = Y` whose right-hand sides are uncorrelated between different steps, conditioning the joint process and
selecting the output `i` has the same outcome (state or exception) as conditioning `f_i` alone with `-(M f_j)` as noise. -/
theorem uncertain_rhs (e : Env) (m : Meas P i j) (ms : List (Meas P i j))
    (hp : (m :: ms).Pairwise fun m m' => ∀ M ∈ m'.rhs, ∀ M' ∈ m.rhs, (P j).cov M M' = 0) :
    (run e m.joint (ms.map Meas.joint)).map (fun c => c.toCore.comp i) = (run e m.alone (ms.map Meas.alone)).map Cond.toCore := by
  have h1 : (run e m.joint (ms.map Meas.joint)).map (fun c => c.toCore.comp i) =
      ((run e m.joint (ms.map Meas.joint)).map Cond.toCore).map (Core.comp · i) := by
    cases run e m.joint (ms.map Meas.joint) <;> rfl
  rw [h1, run_toCore, run_toCore, ← from_joint hij]
  cases h : Core.fromObservations e m.joint with
  | error x => rfl
  | ok c =>
    refine fold_joint hij e ms c (fun m' hm' M hM => ?_) (List.pairwise_cons.mp hp).2
    have h2 := fun a => new_unrelated hij m (R := m'.rhs) (fun M hM M' hM' => (List.pairwise_cons.mp hp).1 m' hm' M hM M' hM') a M hM
    rw [from_eq] at h
    unfold fromParts at h
    revert h
    cases m.joint.gramOp.solve e _ with
    | error x => intro h; cases h
    | ok w =>
      intro h
      obtain rfl := Except.ok.inj h
      exact h2

end LinPDE.GP
