import Verif.XCov.FunctlTotal

/-!
# Cross-covariances: where the views disagree, and instances of the theorems
-/

namespace LinPDE.XCov
open LinPDE.Nd LinPDE.Ops LinPDE.CovAlg LinPDE.Covar
variable {X : Type}

/-! ## Point evaluations in argument 0 -/

/-- The array view of a point evaluation in argument 0 contains the kernel with its points exchanged, for every kernel
(`linfunctls/_dirac.py:213`, `_evaluation.py:236` call `covfunc(x, X)`). -/
theorem point0_swapped (k : K X) (f : Point X) (x : Pts X) (hw : (PV.point k f true).WF) (hx : x.inS = k.sh.in0) :
    ∃ a, (PV.point k f true).call x = .ok a ∧ ∀ r n p, Fits f.out r → Fits x.batch n → Fits k.sh.out1 p →
      a.get (r ++ n ++ p) = f.T (fun y q => k.eval (x.pt n) y q (ravel k.sh.out1 p)) (ravel f.out r) := by
  obtain ⟨a, h1, h2, h3⟩ := pointEval0_swapped k f x hw hx
  refine ⟨a, ?_, fun r n p hr hn hp => ?_⟩
  · rw [PV.call, PV.callG]
    unfold PV.checked
    rw [if_neg (show ¬(x.inS ≠ (PV.point k f true).inS) from not_not.mpr hx)]
    simp only [if_true, h1, bind, Except.bind]
    exact if_pos h2
  · exact h3 r n p hr hn hp

/-- The kernel `x²y` on the line. -/
noncomputable def exX2Y : K ℝ := .base ⟨[], [], [], []⟩ 7 true fun x y _ _ => x ^ 2 * y

/-- Evaluation at 2. -/
def exAt2 : Point ℝ := ⟨false, ([], []), ⟨[], [], fun _ => 2⟩⟩

/-- The point 3. -/
def exPts3 : Pts ℝ := ⟨[], [], fun _ => 3⟩

/-- Evaluation at 2 in argument 0, at the point 3: the covariance is `2²·3 = 12`, the array view gives `3²·2 = 18` and the
operator view gives 12. -/
theorem views_disagree_violated : ∃ a m, (PV.point exX2Y exAt2 true).WF ∧ (PV.point exX2Y exAt2 true).den 3 0 0 = 12 ∧
    (PV.point exX2Y exAt2 true).call exPts3 = .ok a ∧ a.get [] = 18 ∧
    (PV.point exX2Y exAt2 true).linopView exPts3 = .ok m ∧ m.get [0, 0] = 12 := by
  have hw : (PV.point exX2Y exAt2 true).WF := ⟨rfl, rfl, rfl⟩
  obtain ⟨a, h1, h2⟩ := point0_swapped exX2Y exAt2 exPts3 hw rfl
  obtain ⟨m, h3, h4⟩ := linop_holds_partial exPts3 (PV.point exX2Y exAt2 true) hw (fun h => by cases h)
    (.inl (by rw [PV.HasPriv])) rfl
  have hden : (PV.point exX2Y exAt2 true).den 3 0 0 = 12 := by
    rw [PV.den]
    simp [actF, Point.T, exAt2, exX2Y, K.eval, K.evalG, Point.out]
    norm_num
  refine ⟨a, m, hw, hden, h1, ?_, h3, ?_⟩
  · have := h2 [] [] [] trivial trivial trivial
    simp only [List.append_nil] at this
    rw [this]
    simp [Point.T, exAt2, exX2Y, K.eval, K.evalG, exPts3]
    norm_num
  · have := h4.2 [] [] [] trivial trivial trivial
    simp [PV.rev, PV.rv, PV.outS, exAt2, Point.out, exX2Y, K.sh, KSh.outA, ravel, exPts3] at this
    rw [this]
    simpa [exAt2, exX2Y] using hden

/-! ## Several points and several outputs -/

/-- A kernel with two outputs in argument 1. -/
noncomputable def exTwo : K ℝ := .base ⟨[], [], [], [2]⟩ 7 true fun _ y _ q => y + 10 * q

/-- The `DiracFunctional` at the points 0, 1 for functions with two outputs. -/
def exDirac : Point ℝ := ⟨true, ([], [2]), ⟨[], [2], fun i => (i.getD 0 0 : ℕ)⟩⟩

/-- Columns of the operator view are ordered by output, then point, but the vector of a `DiracFunctional` is ordered by
point, then output: the two views differ. -/
theorem dirac_linop_violated : ∃ m, (PV.point exTwo exDirac false).WF ∧
    (PV.point exTwo exDirac false).linopView exPts3 = .ok m ∧ (PV.point exTwo exDirac false).den 3 0 1 = 10 ∧ m.get [0, 1] = 1 := by
  obtain ⟨m, h1, h2, h3⟩ := kLinop_get exTwo exPts3 exDirac.xs rfl rfl
  refine ⟨m, ⟨rfl, rfl, rfl⟩, ?_, ?_, ?_⟩
  · unfold PV.linopView PV.linopOf
    rw [if_neg (show ¬(exPts3.inS ≠ (PV.point exTwo exDirac false).inS) from not_not.mpr rfl), PV.linopPriv]
    simp only [Bool.false_eq_true, if_false, h1]
  · rw [PV.den]
    simp [actF, Point.T, exDirac, exTwo, K.eval, K.evalG, Point.out, unravel, ravel]
  · have := h3 [] [] [0] [1] trivial trivial (by simp [exTwo, K.sh, Fits]) (by simp [exDirac, Fits])
    simpa [exDirac, exTwo, K.eval, K.evalG, K.sh, exPts3, ravel] using this

/-! ## Matrices -/

/-- A matrix applied to a cross-covariance with the process first multiplies from the wrong side in the operator view
(`_arithmetic.py:127-130`), which fails unless the sizes happen to agree. -/
theorem linop_forward_violated (A : LMat) (c : PV X) (x : Pts X) (hw : c.WF) (hs : c.LSafe) (hr : c.rev = false) (hp : c.HasPriv = true)
    (hx : x.inS = c.inS) (hn : c.outS.prod * x.batch.prod ≠ A.cols) : (PV.linop A c).linopView x = .error .valueError := by
  have h := linopPriv_holds_partial x c hw hs hx
  unfold PrivOk at h
  rw [if_pos hp] at h
  obtain ⟨m, h1, h2, _⟩ := h
  rw [hr] at h2
  unfold PV.linopView PV.linopOf
  rw [if_neg (show ¬(x.inS ≠ (PV.linop A c).inS) from not_not.mpr hx), PV.linopPriv]
  have : matMul A m = .error .valueError := by
    unfold matMul
    rw [if_neg (by rw [h2]; simpa using hn)]
  simp only [h1, this, bind, Except.bind]

/-- The hypotheses can be met: a 1 × 1 matrix and two points. -/
example : (PV.linop ⟨1, 1, fun _ _ => 1⟩ (PV.point exX2Y ⟨false, ([], []), ⟨[], [1], fun _ => 2⟩⟩ false)).linopView
    ⟨[], [2], fun _ => 3⟩ = .error .valueError :=
  linop_forward_violated _ _ _ ⟨rfl, rfl, rfl⟩ (fun h => by cases h) rfl (by rw [PV.HasPriv]) rfl
    (by simp [PV.outS, exX2Y, K.sh, KSh.outA])

/-- The JAX view of a stack is zero (`_stack.py:77-102` drops the results of `.at[…].set(…)`). -/
theorem stack_jax_violated (i r : Shp) (rev : Bool) (s : Shp) (cs : List (PV X)) (x : Pts X) (a : Nd.Arr ℝ)
    (h : (PV.stack i r rev s cs).callG true x = .ok a) : ∀ idx, a.get idx = 0 := by
  rw [PV.callG] at h
  unfold PV.checked at h
  split_ifs at h
  obtain ⟨b, h1, h2⟩ := bind_ok' h
  split_ifs at h2
  cases h2
  obtain ⟨as, _, h3⟩ := bind_ok' h1
  cases as with
  | nil => cases h3
  | cons m ms =>
    unfold stackEval at h3
    dsimp only at h3
    cases rev
    · simp only [Bool.false_eq_true, if_false, if_true] at h3
      cases h3
      intro idx
      rfl
    · simp only [if_true] at h3
      cases h3
      intro idx
      rfl

/-- A stack with a nonzero part has a JAX view, and it is zero. -/
example : ∃ a, (PV.stack [] [] false [1] [(.base [] [] [] false fun _ _ _ => 5 : PV ℝ)]).callG true exPts3 = .ok a ∧ a.get [0] = 0 ∧
    ∃ b, (PV.stack [] [] false [1] [(.base [] [] [] false fun _ _ _ => 5 : PV ℝ)]).call exPts3 = .ok b ∧ b.get [0] = 5 := by
  have hb : (PV.base [] [] [] false fun _ _ _ => 5 : PV ℝ).callG true exPts3 = .ok (layArr false [] [] [] fun _ _ _ => 5) := by
    rw [PV.callG]; rfl
  have hc : ∃ a, (PV.stack [] [] false [1] [(.base [] [] [] false fun _ _ _ => 5 : PV ℝ)]).callG true exPts3 = .ok a := by
    rw [PV.callG, callAllG, callAllG, hb]
    exact ⟨_, rfl⟩
  obtain ⟨a, ha⟩ := hc
  refine ⟨a, ha, stack_jax_violated _ _ _ _ _ _ a ha _, ?_⟩
  obtain ⟨b, h1, h2, h3⟩ := call_holds_partial exPts3 (PV.stack [] [] false [1] [(.base [] [] [] false fun _ _ _ => 5 : PV ℝ)])
    ⟨by simp, by simp, by simp [PV.inS, PV.outS, PV.rv, PV.rev], ⟨trivial, trivial⟩⟩ ⟨trivial, trivial⟩ rfl
  refine ⟨b, h1, ?_⟩
  have := h3 [] [] [0] trivial trivial ⟨by simp, trivial⟩
  rw [den_stack (c := .base [] [] [] false fun _ _ _ => 5) _ _ _ _ _ _ _ _ (by simp [ravel, PV.outS])] at this
  simpa [pos, PV.rev, PV.den] using this

/-! ## Parametric cross-covariances -/

/-- With the process first, `ParametricProcessVectorCrossCovariance` uses the transposed matrix (`_parametric.py:35-41`). -/
theorem param_violated : ∃ (C : LMat) (b : ℝ → ℕ → ℝ) (a : Nd.Arr ℝ), (PV.param [] C b 2 false).WF ∧
    (PV.param [] C b 2 false).call exPts3 = .ok a ∧ a.get [0] ≠ (PV.param [] C b 2 false).den 3 0 0 := by
  refine ⟨⟨2, 2, fun i j => if i = 0 ∧ j = 1 then 1 else 0⟩, fun x j => if j = 0 then 1 else x,
    mulLast ⟨2, 2, fun i j => if i = 0 ∧ j = 1 then 1 else 0⟩ ⟨exPts3.batch ++ [2], fun i =>
      (fun (x : ℝ) (j : ℕ) => if j = 0 then 1 else x) (exPts3.pt (i.take exPts3.batch.length)) (i.getD exPts3.batch.length 0)⟩,
    by simp [PV.WF], ?_, ?_⟩
  · rw [PV.call, PV.callG]
    unfold PV.checked
    rw [if_neg (by simp [exPts3, PV.inS])]
    unfold paramEval
    simp only [ne_eq, not_true, if_false, Bool.false_eq_true, bind, Except.bind]
    exact if_pos (by simp [mulLast, layout, PV.rev, PV.outS, PV.rv, exPts3])
  · rw [PV.den]
    simp [mulLast, exPts3, Finset.sum_range_succ]

/-! ## Quadrature in argument 0 -/

/-- Summation over the points 0 and 1 in place of an integral. -/
def exSum : Fl ℝ where
  toFun f := fun r => if r = 0 then f 0 0 + f 1 0 else 0
  map_add' f g := by funext r; by_cases h : r = 0 <;> simp [h]; ring
  map_smul' c f := by funext r; by_cases h : r = 0 <;> simp [h]; ring

/-- With the functional in argument 0, quadrature integrates over the wrong argument: 9 instead of 3 for the kernel `x²y` at
the point 3. -/
theorem quad_violated : ∃ a, (PV.quad exX2Y [] exSum true).WF ∧ (PV.quad exX2Y [] exSum true).call exPts3 = .ok a ∧
    a.get [] = 9 ∧ (PV.quad exX2Y [] exSum true).den 3 0 0 = 3 := by
  refine ⟨layArr true [] exPts3.batch [] fun r n _ => exSum (fun y _ => exX2Y.eval (exPts3.pt n) y 0 0) (ravel [] r),
    ⟨rfl, rfl, fun f g h r _ => ?_⟩, ?_, ?_, ?_⟩
  · show (if r = 0 then _ else _) = (if r = 0 then _ else _)
    rw [h 0 0 (by simp), h 1 0 (by simp)]
  · rw [PV.call, PV.callG]
    unfold PV.checked quadEval
    rw [if_neg (by simp [exPts3, PV.inS, exX2Y, K.sh, KSh.inA]), if_neg (by simp)]
    simp only [bind, Except.bind]
    exact if_pos (by simp [layArr, layout, PV.rev, PV.outS, PV.rv, exX2Y, K.sh, KSh.outA])
  · simp [layArr, exSum, exX2Y, K.eval, K.evalG, exPts3, ravel]
    norm_num
  · rw [PV.den]
    simp [actF, exSum, exX2Y, K.eval, K.evalG]

/-! ## Instances -/

/-- The functional `A (δ_{0,1} ∘ D) + …` applied to the stacked kernel of `CovAlg`, in argument 1. -/
noncomputable def exF : Fn ℝ := .sum [.comp ([], []) (some ⟨3, 2, fun i j => (i + j : ℕ)⟩) (.point ⟨false, ([], []), ⟨[], [2], fun i => (i.getD 0 0 : ℕ)⟩⟩)
    (some exL),
  .scaled (.comp ([], []) (some ⟨3, 1, fun i _ => (i : ℕ)⟩) (.base ⟨([], []), [1], exSum, true, fun _ _ => false⟩) none) 2]

lemma exF_typed : exF.Typed [] ([], []) [3] := by
  refine ⟨by simp, ⟨rfl, ([], []), [2], exL_typed, ⟨rfl, rfl, rfl, rfl⟩, rfl, rfl⟩, ⟨rfl, ([], []), [1], rfl, ⟨rfl, rfl, ?_⟩, rfl, rfl⟩, trivial⟩
  intro f g h r _
  show (if r = 0 then _ else _) = (if r = 0 then _ else _)
  rw [h 0 0 (by simp), h 1 0 (by simp)]

/-- `functional_total`, `functional_correct` and `functional_array` apply to it. -/
example : ∃ c a, exF.call true exK = .ok c ∧ c.call ⟨[], [4], fun i => (i.getD 0 0 : ℕ)⟩ = .ok a ∧ a.shape = [4, 2, 3] := by
  have hs : Side (some []) true exK := fun d hd => ⟨exK_safe, by cases hd; rfl⟩
  have hD : exF.Doms (some []) := by simp [exF, Fn.Doms, domsFs, exL_doms]
  obtain ⟨c, hc⟩ := functional_total [] (some []) true exF ([], []) [3] exK exF_typed hD
    (by simp [exF, Fn.Full, fullFs, exL, LOp.Full, fullAll, JaxClosed, exPD]) exK_wf
    (by simp [exK, exBase, K.Reg, allReg]) (fun _ => exK_safe) ⟨rfl, rfl⟩ hs rfl
  obtain ⟨a, h1, h2, _⟩ := functional_array [] (some []) exF ([], []) [3] exK c exF_typed hD exK_wf (fun _ => exK_safe) ⟨rfl, rfl⟩ hs
    rfl hc ⟨[], [4], fun i => (i.getD 0 0 : ℕ)⟩ rfl
  exact ⟨c, a, hc, h1, h2⟩

/-- `views_agree_partial` applies to a stack of a scaled sum and a matrix times a point evaluation, vector first. -/
example : ∃ c : PV ℝ, c.WF ∧ c.Sym ∧ c.LSafe ∧ c.rv = [2] ∧ c.outS = [2] ∧ c.HasPriv = true :=
  let k : K ℝ := .base ⟨[], [], [], []⟩ 7 true fun x y _ _ => x * y
  let p : PV ℝ := .point k ⟨true, ([], []), ⟨[], [2], fun i => (i.getD 0 0 : ℕ)⟩⟩ true
  have hp : p.WF := ⟨rfl, rfl, rfl⟩
  have hs : p.Sym := fun _ x y _ _ _ _ => by simp [k, K.eval, K.evalG, mul_comm]
  have hl : p.LSafe := fun _ => .inl rfl
  ⟨.stack [] [2] true [2] [.scaled (.sum [] [] [2] true [p, .zero [] [] [2] true]) 3, .linop ⟨2, 2, fun i j => (i + j : ℕ)⟩ p],
    ⟨by simp, by simp, by
      intro c hc
      rcases List.mem_cons.mp hc with rfl | hc
      · exact ⟨rfl, rfl, rfl, rfl⟩
      · rw [List.mem_singleton] at hc; subst hc; exact ⟨rfl, rfl, rfl, rfl⟩,
      ⟨⟨by simp, by
        intro c hc
        rcases List.mem_cons.mp hc with rfl | hc
        · exact ⟨rfl, rfl, rfl, rfl⟩
        · rw [List.mem_singleton] at hc; subst hc; exact ⟨rfl, rfl, rfl, rfl⟩, hp, trivial, trivial⟩, ⟨rfl, hp⟩, trivial⟩⟩,
    ⟨⟨hs, trivial, trivial⟩, hs, trivial⟩,
    ⟨⟨⟨hl, trivial, trivial⟩, ⟨.inl rfl, hl⟩, trivial⟩, by
      intro c hc
      rcases List.mem_cons.mp hc with rfl | hc
      · exact .inr ⟨hs, trivial, trivial⟩
      · rw [List.mem_singleton] at hc; subst hc; exact .inr hs⟩,
    rfl, rfl, by rw [PV.HasPriv]⟩

end LinPDE.XCov
