import Verif.DetProc.Model
import Verif.Op.Props

/-!
# C61: a deterministic process behaves as its function
-/

namespace LinPDE.DetProc
open LinPDE.Ops LinPDE.Nd

variable {X : Type}

/-- C61: every functional of a deterministic process is the constant random variable with the functional of the function as
its value; if one raises, so does the other, with the same exception. -/
theorem functional_of_process (n : ℕ) : ∀ (F : Fnl X) (p : DP X), Fnl.callDP n F p = (F.call n p.fn).map ConstRV.mk
  | .base i o T, p => by rw [Fnl.callDP]; cases (Fnl.base i o T).call n p.fn <;> rfl
  | .scaled F c, p => by
    rw [Fnl.callDP, functional_of_process n F p, Fnl.call]
    cases F.call n p.fn <;> rfl
  | .sum i o fs, p => by rw [Fnl.callDP]; cases (Fnl.sum i o fs).call n p.fn <;> rfl
  | .comp A F L, p => by rw [Fnl.callDP]; cases (Fnl.comp A F L).call n p.fn <;> rfl

mutual
/-- No scaled operator on the way: neither the operator itself nor a factor of a composition is scaled (summands may be). -/
def Unscaled : Op X → Prop
  | .ident _ => True
  | .base _ _ _ _ => True
  | .scaled _ _ => False
  | .scaledDiff _ _ => False
  | .sum _ _ _ => True
  | .comp _ _ ops => unscaledAll ops
/-- All of a list. -/
def unscaledAll : List (Op X) → Prop
  | [] => True
  | L :: Ls => Unscaled L ∧ unscaledAll Ls
end

mutual
lemma callDP_unscaled (n : ℕ) : ∀ (L : Op X) (_ : Unscaled L) (p : DP X), Op.callDP n L p = (L.call n p.fn).map DP.mk
  | .ident s, _, p => by rw [Op.callDP, Op.call]; split_ifs <;> rfl
  | .base i o T b, _, p => by rw [Op.callDP]; cases (Op.base i o T b).call n p.fn <;> rfl
  | .sum i o ops, _, p => by rw [Op.callDP]; cases (Op.sum i o ops).call n p.fn <;> rfl
  | .comp i o ops, h, p => by rw [Op.callDP, Op.call]; exact seqDP_unscaled n ops (by simpa [Unscaled] using h) p
  | .scaled _ _, h, _ => by simp [Unscaled] at h
  | .scaledDiff _ _, h, _ => by simp [Unscaled] at h
lemma seqDP_unscaled (n : ℕ) : ∀ (Ls : List (Op X)) (_ : unscaledAll Ls) (p : DP X), seqDP n Ls p = (callSeq n Ls p.fn).map DP.mk
  | [], _, p => by rw [seqDP, callSeq]; rfl
  | L :: Ls, h, p => by
    have h' : Unscaled L ∧ unscaledAll Ls := by simpa [unscaledAll] using h
    rw [seqDP, callSeq, seqDP_unscaled n Ls h'.2 p]
    cases hs : callSeq n Ls p.fn with
    | error e => rfl
    | ok g =>
      show Op.callDP n L ⟨g⟩ = ((Op.call n L g)).map DP.mk
      rw [callDP_unscaled n L h'.1 ⟨g⟩]
end

mutual
lemma callDP_ok (n : ℕ) : ∀ (L : Op X) (p q : DP X), Op.callDP n L p = .ok q → Unscaled L
  | .ident s, p, q, _ => by simp [Unscaled]
  | .base i o T b, p, q, _ => by simp [Unscaled]
  | .sum i o ops, p, q, _ => by simp [Unscaled]
  | .comp i o ops, p, q, h => by
    rw [Op.callDP] at h
    have := seqDP_ok n ops p q h
    simpa [Unscaled] using this
  | .scaled L c, p, q, h => by
    rw [Op.callDP] at h
    cases hL : Op.callDP n L p <;> rw [hL] at h <;> cases h
  | .scaledDiff L c, p, q, h => by
    rw [Op.callDP] at h
    cases hL : Op.callDP n L p <;> rw [hL] at h <;> cases h
lemma seqDP_ok (n : ℕ) : ∀ (Ls : List (Op X)) (p q : DP X), seqDP n Ls p = .ok q → unscaledAll Ls
  | [], p, q, _ => by simp [unscaledAll]
  | L :: Ls, p, q, h => by
    rw [seqDP] at h
    cases hs : seqDP n Ls p with
    | error e => rw [hs] at h; cases h
    | ok r =>
      rw [hs] at h
      have h1 := seqDP_ok n Ls p r hs
      have h2 := callDP_ok n L r q h
      simp only [unscaledAll]
      exact ⟨h2, h1⟩
end

/-- C61: an operator that is not scaled, nor composed of scaled factors, maps a deterministic process to the process of the
image of its function, and raises exactly when it raises for the function. -/
theorem operator_of_process_partial (n : ℕ) (L : Op X) (h : Unscaled L) (p : DP X) :
    Op.callDP n L p = (L.call n p.fn).map DP.mk :=
  callDP_unscaled n L h p

/-- C61: whenever any operator expression applied to a deterministic process returns, the result is the process of the function
that the operator algebra prescribes. -/
theorem operator_of_process_sound (e : OExpr X) (L : Op X) (hL : e.build = .ok L) (n : ℕ) (p q : DP X)
    (h : Op.callDP n L p = .ok q) : q.mean.sh = L.outS ∧ q.mean.eval = e.den p.mean.eval := by
  rw [callDP_unscaled n L (callDP_ok n L p q h) p] at h
  cases hc : L.call n p.fn with
  | error e => rw [hc] at h; cases h
  | ok g =>
    rw [hc] at h
    injection h with h
    subst h
    exact operator_expressions e L hL n p.fn g hc

/-- C61, violated: a scaled operator, or a composition with a scaled factor, never returns for a deterministic process. -/
theorem operator_of_process_scaled_violated (L : Op X) (h : ¬Unscaled L) (n : ℕ) (p q : DP X) : Op.callDP n L p ≠ .ok q :=
  fun hq => h (callDP_ok n L p q hq)

/-- C61, violated: twice an operator (differential or not) is accepted and can be applied to every function of its shapes, but
raises `TypeError` for the deterministic process of that function. -/
theorem double_of_process_violated (i o : Shapes) (T : Val X →ₗ[ℝ] Val X) (b : Bool) (ev : Val X) (n : ℕ) :
    ∃ L g, (OExpr.smul 2 (.base i o T b)).build = .ok L ∧ L.call (n + 1) (.base i ev) = .ok g ∧
      Op.callDP (n + 1) L ⟨.base i ev⟩ = .error .typeError := by
  have hb : callBase i o T (n + 1) (.base i ev) = .ok (.base o (T ev)) := by
    simp only [callBase, JFn.sh, ne_eq, not_true_eq_false, if_false]
    rfl
  cases b with
  | true =>
    refine ⟨.scaledDiff (.base i o T true) 2, .scaled (.base o (T ev)) 2, rfl, ?_, ?_⟩
    · rw [Op.call, Op.call, hb]; rfl
    · rw [Op.callDP, Op.callDP, Op.call, hb]; rfl
  | false =>
    refine ⟨.scaled (.base i o T false) 2, .scaled (.base o (T ev)) 2, rfl, ?_, ?_⟩
    · rw [Op.call, Op.call, hb]; rfl
    · rw [Op.callDP, Op.callDP, Op.call, hb]; rfl

/-- C61: functionals of a process made from a functional expression have the prescribed value. -/
theorem functional_of_process_total (e : LExpr X) (i : Shapes) (o : Shp) (ht : e.Typed i o) (hr : ¬e.Rescales)
    (hc : e.Runs) (n : ℕ) (p : DP X) (hp : p.fn.Plain) (hb : p.fn.Solid) (hs : p.fn.sh = i) :
    ∃ F v, e.build = .ok F ∧ Fnl.callDP (n + 2) F p = .ok v ∧ v.support.shape = o ∧
      ∀ k < o.prod, v.support.get k = e.den p.mean.eval k := by
  obtain ⟨F, v, h1, h2, h3, h4⟩ := functional_application_total e i o ht hr hc n p.fn hp hb hs
  exact ⟨F, ⟨v⟩, h1, by rw [functional_of_process, h2]; rfl, h3, h4⟩

/-- C61: applying an operator and evaluating the process is evaluating the image of the function. -/
theorem operator_then_eval (n : ℕ) (L : Op X) (p q : DP X) (h : Op.callDP n L p = .ok q) (x : X) :
    ∃ g, L.call n p.mean = .ok g ∧ (q.call x).support.shape = g.sh.2 ∧ ∀ k, (q.call x).support.get k = g.eval x k := by
  rw [callDP_unscaled n L (callDP_ok n L p q h) p] at h
  cases hc : L.call n p.fn with
  | error e => rw [hc] at h; cases h
  | ok g =>
    rw [hc] at h
    injection h with h
    subst h
    exact ⟨g, hc, rfl, fun _ => rfl⟩

/-- C61: `asrandproc` accepts processes, which it returns, and functions, which it turns into processes with that mean. -/
theorem asrandproc_spec (a : ProcLike X) : (asrandproc a = .error .typeError ↔ a = .other) ∧
    (∀ p, a = .det p → asrandproc a = .ok a) ∧ (∀ k, a = .proc k → asrandproc a = .ok a) ∧
    ∀ f, a = .fn f → ∃ p : DP X, asrandproc a = .ok (.det p) ∧ p.mean = f ∧ ∀ x k, (p.call x).support.get k = f.eval x k := by
  refine ⟨by cases a <;> simp [asrandproc], ?_, ?_, ?_⟩
  · rintro p rfl; rfl
  · rintro k rfl; rfl
  · rintro f rfl; exact ⟨⟨f⟩, rfl, rfl, fun _ _ => rfl⟩

/-- `D1 + 3 * D2` is not scaled, so it can be applied to the process of `u`; and the functional `2 * F` too. -/
example (D1 D2 : Val ℝ →ₗ[ℝ] Val ℝ) (F : Val ℝ →ₗ[ℝ] (ℕ → ℝ)) (u : Val ℝ) :
    (∃ L q, (OExpr.add (.base ([], []) ([], []) D1 true) (.smul 3 (.base ([], []) ([], []) D2 true))).build = .ok L ∧
      Op.callDP 2 L ⟨.base ([], []) u⟩ = .ok q ∧ q.mean.eval = D1 u + (3 : ℝ) • D2 u) ∧
    ∃ G v, (LExpr.smul 2 (.base ([], []) [2] F)).build = .ok G ∧ Fnl.callDP 2 G ⟨.base ([], []) u⟩ = .ok v ∧
      v.support.get 1 = 2 * F u 1 := by
  constructor
  · obtain ⟨L, g, h1, h2, -, h4⟩ := operator_application_total
      (OExpr.add (.base ([], []) ([], []) D1 true) (.smul 3 (.base ([], []) ([], []) D2 true))) ([], []) ([], [])
      (by simp [OExpr.Typed]) (by simp [OExpr.Rescales, OExpr.scaledDiff]) (by simp [OExpr.Runs]) 0
      (.base ([], []) u) trivial rfl
    refine ⟨L, ⟨g⟩, h1, ?_, h4⟩
    have hL : L = .sum ([], []) ([], []) [.base ([], []) ([], []) D1 true, .scaledDiff (.base ([], []) ([], []) D2 true) 3] := by
      have : (OExpr.add (.base ([], []) ([], []) D1 true) (.smul 3 (.base ([], []) ([], []) D2 true))).build = .ok
        (.sum ([], []) ([], []) [.base ([], []) ([], []) D1 true, .scaledDiff (.base ([], []) ([], []) D2 true) 3]) := rfl
      rw [this] at h1
      injection h1 with h1
      exact h1.symm
    rw [operator_of_process_partial 2 L (by rw [hL]; simp [Unscaled]), h2]
    rfl
  · obtain ⟨G, v, h1, h2, -, h4⟩ := functional_of_process_total (LExpr.smul 2 (.base ([], []) [2] F)) ([], []) [2]
      (by simp [LExpr.Typed]) (by simp [LExpr.Rescales]) (by simp [LExpr.Runs]) 0 ⟨.base ([], []) u⟩ trivial trivial rfl
    exact ⟨G, v, h1, h2, h4 1 (by simp)⟩

end LinPDE.DetProc
