import Verif.PostView.Lemmas

/-!
# Posterior mean and covariance on arrays of points, and their JAX views: properties (C79)
-/

namespace LinPDE.PostView
open LinPDE.Nd LinPDE.XCov
open LinPDE.CovAlg hiding Err
variable {X : Type}

/-! ## Cross-covariance with all observations -/

lemma predDen_part (x : X) (p : ℕ) {c : PV X} {post : List (PV X)} : ∀ {pre : List (PV X)} {r : ℕ}, r < c.rv.prod →
    predDen (pre ++ c :: post) x p ((pre.map fun d => d.rv.prod).sum + r) = c.den x p r
  | [], r, h => by simp [predDen, h]
  | d :: pre, r, h => by
    rw [List.cons_append, predDen, if_neg (by simp only [List.map_cons, List.sum_cons]; omega), List.map_cons, List.sum_cons,
      show d.rv.prod + (pre.map fun d => d.rv.prod).sum + r - d.rv.prod = (pre.map fun d => d.rv.prod).sum + r by omega]
    exact predDen_part x p h

lemma sum_part {pre post : List (PV X)} {c : PV X} {r : ℕ} (h : r < c.rv.prod) :
    (pre.map fun d => d.rv.prod).sum + r < ((pre ++ c :: post).map fun d => d.rv.prod).sum := by
  rw [List.map_append, List.sum_append, List.map_cons, List.sum_cons]; omega

lemma np_holds {q : Pred X} (hq : q.OK) (hw : ∀ c ∈ q.parts, c.WF) (hs : ∀ c ∈ q.parts, c.Sym) {x : Pts X} (hx : x.inS = q.inS)
    (hne : (x.batch ++ q.outS).prod ≠ 0) : ∃ v, q.np ⟨false, x⟩ = .ok v ∧ Holds false [q.size] q.outS x (predDen q.parts) v := by
  obtain ⟨v, h1, h2⟩ := checked_ok hx (evalWith_holds hq hne (parts_holds hq hw hs hx))
  exact ⟨v, h1, h2⟩

/-- C79: reshaping to a given shape and one more axis succeeds exactly if the number of entries is a multiple of that of the shape, and otherwise raises `ValueError`. -/
theorem reshapeLast_raises (a : Arr ℝ) (s : Shp) : (s.prod ≠ 0 ∧ s.prod ∣ a.shape.prod → ∃ b, reshapeLast a s = .ok b ∧ b.shape = s ++ [a.shape.prod / s.prod]) ∧
    (¬(s.prod ≠ 0 ∧ s.prod ∣ a.shape.prod) → reshapeLast a s = .error .valueError) := by
  constructor
  · rintro ⟨h0, hd⟩
    unfold reshapeLast Arr.reshape
    rw [if_neg (by simp [h0, Nat.mod_eq_zero_of_dvd hd]), if_pos (by simp [Nat.mul_div_cancel' hd])]
    exact ⟨_, rfl, rfl⟩
  · intro h
    unfold reshapeLast
    rw [if_pos]
    by_contra hc
    rw [not_or, not_not] at hc
    exact h ⟨hc.1, Nat.dvd_of_mod_eq_zero hc.2⟩

/-- Six entries as rows of length three, but not of length four. -/
example : (∃ b, reshapeLast ⟨[6], fun _ => 1⟩ [2] = .ok b ∧ b.shape = [2, 3]) ∧ reshapeLast ⟨[6], fun _ => 1⟩ [4] = .error .valueError :=
  ⟨(reshapeLast_raises ⟨[6], fun _ => 1⟩ [2]).1 ⟨by simp, by norm_num⟩, (reshapeLast_raises ⟨[6], fun _ => 1⟩ [4]).2 (by norm_num)⟩

/-- C79: the cross-covariance with all observations, at an array of points of any batch shape, has one last axis running over the
observations, batch after batch and in C order, and contains their covariances with the process. -/
theorem pred_array_partial {cs : List (PV X)} {q : Pred X} (hq : mkPred cs = .ok q) (hw : ∀ c ∈ cs, c.WF) (hs : ∀ c ∈ cs, c.Sym)
    {x : Pts X} (hx : x.inS = q.inS) (hne : (x.batch ++ q.outS).prod ≠ 0) :
    ∃ v, q.np ⟨false, x⟩ = .ok v ∧ v.shape = x.batch ++ q.outS ++ [(cs.map fun c => c.rv.prod).sum] ∧
      ∀ pre c post, cs = pre ++ c :: post → ∀ r n p, Fits c.rv r → Fits x.batch n → Fits q.outS p →
        v.get (n ++ p ++ [(pre.map fun d => d.rv.prod).sum + ravel c.rv r]) = c.den (x.pt n) (ravel q.outS p) (ravel c.rv r) := by
  obtain ⟨rfl, hok⟩ := (mkPred_iff cs q).mp hq
  obtain ⟨v, h1, h2, h3⟩ := np_holds hok hw hs hx hne
  refine ⟨v, h1, h2, fun pre c post e r n p hr hn hp => ?_⟩
  have hlt := ravel_lt hr
  refine (h3 [(pre.map fun d => d.rv.prod).sum + ravel c.rv r] n p ⟨?_, trivial⟩ hn hp).trans ?_
  · show _ < (q.parts.map fun c => c.rv.prod).sum
    rw [e]
    exact sum_part hlt
  · rw [ravel_one, e]
    exact predDen_part _ _ hlt

lemma predDen_prefix (x : X) (p : ℕ) (c : PV X) : ∀ (cs : List (PV X)) (j : ℕ), j < (cs.map fun d => d.rv.prod).sum →
    predDen (cs ++ [c]) x p j = predDen cs x p j
  | [], j, h => by simp at h
  | d :: cs, j, h => by
    rw [List.cons_append, predDen, predDen]
    by_cases hd : j < d.rv.prod
    · rw [if_pos hd, if_pos hd]
    · rw [if_neg hd, if_neg hd]
      refine predDen_prefix x p c cs _ ?_
      rw [List.map_cons, List.sum_cons] at h
      omega

/-- C79: appending the cross-covariance of further observations keeps the entries of the earlier ones in their places and puts the
new ones after them. -/
theorem append_array_partial {cs : List (PV X)} {q q' : Pred X} {c : PV X} (hq : mkPred cs = .ok q) (hq' : q.append c = .ok q')
    (hw : ∀ d ∈ cs ++ [c], d.WF) (hs : ∀ d ∈ cs ++ [c], d.Sym) {x : Pts X} (hx : x.inS = q.inS) (hne : (x.batch ++ q.outS).prod ≠ 0) :
    ∃ v v', q.np ⟨false, x⟩ = .ok v ∧ q'.np ⟨false, x⟩ = .ok v' ∧ v.shape = x.batch ++ q.outS ++ [q.size] ∧
      v'.shape = x.batch ++ q.outS ++ [q.size + c.rv.prod] ∧ ∀ n p, Fits x.batch n → Fits q.outS p →
        (∀ j < q.size, v'.get (n ++ p ++ [j]) = v.get (n ++ p ++ [j])) ∧
        ∀ r, Fits c.rv r → v'.get (n ++ p ++ [q.size + ravel c.rv r]) = c.den (x.pt n) (ravel q.outS p) (ravel c.rv r) := by
  obtain ⟨rfl, hok⟩ := (mkPred_iff cs q).mp hq
  obtain ⟨e', hok'⟩ := (mkPred_iff _ q').mp hq'
  obtain ⟨ps⟩ := q
  obtain ⟨ps'⟩ := q'
  dsimp only at e'
  subst e'
  cases ps with
  | nil => exact (hok.1 rfl).elim
  | cons d ps =>
    obtain ⟨v, h1, h2, h3⟩ := np_holds hok (fun d hd => hw d (List.mem_append_left _ hd)) (fun d hd => hs d (List.mem_append_left _ hd)) hx hne
    obtain ⟨v', k1, k2, k3⟩ := np_holds (q := ⟨(d :: ps) ++ [c]⟩) hok' hw hs (x := x) hx hne
    have hsz : (⟨(d :: ps) ++ [c]⟩ : Pred X).size = (⟨d :: ps⟩ : Pred X).size + c.rv.prod := by
      simp [Pred.size, add_assoc]
    refine ⟨v, v', h1, k1, h2, ?_, fun n p hn hp => ⟨fun j hj => ?_, fun r hr => ?_⟩⟩
    · rw [← hsz]
      exact k2
    · have a1 := h3 [j] n p ⟨hj, trivial⟩ hn hp
      have a2 := k3 [j] n p ⟨by rw [hsz]; omega, trivial⟩ hn hp
      refine a2.trans (Eq.trans ?_ a1.symm)
      rw [ravel_one, ravel_one]
      exact predDen_prefix _ _ _ _ _ hj
    · have hlt := ravel_lt hr
      refine (k3 [_] n p ⟨by rw [hsz]; omega, trivial⟩ hn hp).trans ?_
      rw [ravel_one]
      exact predDen_part (post := []) _ _ hlt

/-- C79 is violated at an empty array of points: the reshape with an unknown axis raises `ValueError`, for every sequence of
well-formed cross-covariances. -/
theorem pred_empty_violated {cs : List (PV X)} {q : Pred X} (hq : mkPred cs = .ok q) (hw : ∀ c ∈ cs, c.WF) (hs : ∀ c ∈ cs, c.Sym)
    {x : Pts X} (hx : x.inS = q.inS) (hb : x.batch.prod = 0) : q.np ⟨false, x⟩ = .error .valueError := by
  obtain ⟨rfl, hok⟩ := (mkPred_iff cs q).mp hq
  obtain ⟨ps⟩ := q
  cases ps with
  | nil => exact (hok.1 rfl).elim
  | cons c ps =>
    obtain ⟨v, h1, -⟩ := parts_holds hok hw hs hx c List.mem_cons_self
    show Pred.checked _ x (Pred.evalWith _ _ x) = _
    unfold Pred.checked Pred.evalWith reshapedAll
    rw [if_neg (by simpa using hx), h1]
    have : reshapeLast v (x.batch ++ Pred.outS ⟨c :: ps⟩) = .error .valueError := by
      unfold reshapeLast
      rw [if_pos (.inl (by rw [List.prod_append, hb, zero_mul]))]
    simp only [bind, Except.bind, this]

lemma linopParts_holds {q : Pred X} {x : Pts X} : ∀ {cs : List (PV X)},
    (∀ c ∈ cs, ∃ m, c.linopView x = .ok m ∧ HoldsMat false c.rv q.outS x c.den m) →
    ∃ ms, linopParts x cs = .ok ms ∧ List.Forall₂ (fun c m => HoldsMat false c.rv q.outS x c.den m) cs ms
  | [], _ => ⟨[], rfl, .nil⟩
  | c :: cs, h => by
    obtain ⟨m, h1, h2⟩ := h c List.mem_cons_self
    obtain ⟨ms, h3, h4⟩ := linopParts_holds fun d hd => h d (List.mem_cons_of_mem _ hd)
    exact ⟨m :: ms, by simp only [linopParts, h1, h3, bind, Except.bind], .cons h2 h4⟩

/-- The matrix has one row for every output and point and contains the numbers `d`. -/
def Rows (out : Shp) (x : Pts X) (N : ℕ) (d : X → ℕ → ℕ → ℝ) (m : Arr ℝ) : Prop :=
  m.shape = [out.prod * x.batch.prod, N] ∧ ∀ n p j, Fits x.batch n → Fits out p → j < N →
    m.get [ravel (out ++ x.batch) (p ++ n), j] = d (x.pt n) (ravel out p) j

lemma rows_of_mat {rv out : Shp} {x : Pts X} {d : X → ℕ → ℕ → ℝ} {m : Arr ℝ} (h : HoldsMat false rv out x d m) :
    Rows out x rv.prod d m := by
  refine ⟨by simpa using h.1, fun n p j hn hp hj => ?_⟩
  have := h.2 (unravel rv j) n p (fits_unravel hj) hn hp
  simpa [ravel_unravel hj] using this

lemma hcat_rows {out : Shp} {x : Pts X} : ∀ {cs : List (PV X)} {ms : List (Arr ℝ)},
    List.Forall₂ (fun c m => Rows out x c.rv.prod c.den m) cs ms → cs ≠ [] →
    ∃ m, hcat ms = .ok m ∧ Rows out x (cs.map fun c => c.rv.prod).sum (predDen cs) m
  | [], _, _, h => (h rfl).elim
  | [c], _, .cons (b := w) h .nil, _ => by
    refine ⟨w, rfl, by simpa using h.1, fun n p j hn hp hj => ?_⟩
    have hj' : j < c.rv.prod := by simpa using hj
    rw [h.2 n p j hn hp hj', predDen, if_pos hj']
  | c :: c' :: cs, _, .cons (b := w) h (.cons (b := w') (l₂ := ws) h' hs), _ => by
    obtain ⟨v, h1, h2, h3⟩ := hcat_rows (.cons h' hs) (by simp)
    have e1 := h.1
    have l1 : lastAx w = c.rv.prod := by simp [lastAx, e1]
    have l2 : lastAx v = ((c' :: cs).map fun c => c.rv.prod).sum := by simp [lastAx, h2]
    refine ⟨⟨w.shape.dropLast ++ [lastAx w + lastAx v], fun i =>
      if i.getLastD 0 < lastAx w then w.get i else v.get (i.dropLast ++ [i.getLastD 0 - lastAx w])⟩, ?_, ?_, ?_⟩
    · show (concatLast (w' :: ws) >>= _) = _
      replace h1 : concatLast (w' :: ws) = .ok v := h1
      rw [h1]
      show (if w.shape.dropLast ≠ v.shape.dropLast then _ else _) = _
      rw [if_neg]
      rw [e1, h2]
      simp
    · show w.shape.dropLast ++ [lastAx w + lastAx v] = _
      rw [e1, l1, l2]
      simp
    · intro n p j hn hp hj
      rw [predDen]
      show (if j < lastAx w then w.get [_, j] else v.get [_, j - lastAx w]) = _
      rw [l1]
      by_cases hlt : j < c.rv.prod
      · rw [if_pos hlt, if_pos hlt]
        exact h.2 n p j hn hp hlt
      · rw [if_neg hlt, if_neg hlt]
        refine h3 n p (j - c.rv.prod) hn hp ?_
        rw [List.map_cons, List.sum_cons] at hj
        omega

/-- C79: the operator view of the cross-covariance with all observations is the matrix with rows (output, point) and columns in the
order of the observations, also at an empty array of points. -/
theorem pred_linop_partial {cs : List (PV X)} {q : Pred X} (hq : mkPred cs = .ok q) (hw : ∀ c ∈ cs, c.WF) (hs : ∀ c ∈ cs, c.LSafe)
    (hp : ∀ c ∈ cs, c.HasPriv = true ∨ c.Sym) {x : Pts X} (hx : x.inS = q.inS) :
    ∃ m, q.linop x = .ok m ∧ m.shape = [q.outS.prod * x.batch.prod, (cs.map fun c => c.rv.prod).sum] ∧
      ∀ pre c post, cs = pre ++ c :: post → ∀ r n p, Fits c.rv r → Fits x.batch n → Fits q.outS p →
        m.get [ravel (q.outS ++ x.batch) (p ++ n), (pre.map fun d => d.rv.prod).sum + ravel c.rv r] =
          c.den (x.pt n) (ravel q.outS p) (ravel c.rv r) := by
  obtain ⟨rfl, hok⟩ := (mkPred_iff cs q).mp hq
  obtain ⟨ms, h1, h2⟩ := linopParts_holds (q := q) (x := x) (cs := q.parts) fun c hc => by
    obtain ⟨e1, e2, e3⟩ := hok.2 c hc
    obtain ⟨m, h1, h2⟩ := linop_holds_partial x c (hw c hc) (hs c hc) (hp c hc) (hx.trans e1.symm)
    rw [e2, e3] at h2
    exact ⟨m, h1, h2⟩
  obtain ⟨m, h3, h4, h5⟩ := hcat_rows (h2.imp fun _ _ => rows_of_mat) hok.1
  refine ⟨m, ?_, h4, fun pre c post e r n p hr hn hp => ?_⟩
  · unfold Pred.linop
    rw [if_neg (by simpa using hx)]
    simp only [h1, bind, Except.bind, h3]
  · have hlt := ravel_lt hr
    refine (h5 n p _ hn hp ?_).trans ?_
    · rw [e]; exact sum_part hlt
    · rw [e]; exact predDen_part _ _ hlt

/-! ## JAX views of cross-covariances -/

mutual
/-- C79: on arrays, the JAX view of a cross-covariance is the one of C76. -/
theorem jaxV_array (x : Pts X) : ∀ c : PV X, jaxV c ⟨false, x⟩ = c.callG true x
  | .base .. => by rw [jaxV, PV.callG]
  | .point k f rev => by
    rw [jaxV, PV.callG]
    congr 1
    by_cases h : k.sh.in1 = k.sh.in0
    · rw [if_neg (by simpa using h)]; rfl
    · rw [if_pos h]
      cases rev
      · show _ = pointEval1 k f x; unfold pointEval1; rw [if_pos h]
      · show _ = pointEval0 k f x; unfold pointEval0; rw [if_pos h]
  | .quad .. => by rw [jaxV, PV.callG]; rfl
  | .scaled c s => by rw [jaxV, PV.callG, jaxV_array x c]
  | .sum i o r rev cs => by rw [jaxV, PV.callG, jaxAllV_array x cs]
  | .linop .. => by rw [jaxV, PV.callG]; rfl
  | .stack i r rev s cs => by rw [jaxV, PV.callG, jaxAllV_array x cs]
  | .zero .. => by rw [jaxV, PV.callG]
  | .param .. => by rw [jaxV, PV.callG]; rfl
/-- Every part. -/
lemma jaxAllV_array (x : Pts X) : ∀ cs : List (PV X), jaxAllV cs ⟨false, x⟩ = callAllG true cs x
  | [] => by rw [jaxAllV, callAllG]
  | c :: cs => by rw [jaxAllV, callAllG, jaxV_array x c, jaxAllV_array x cs]
end

mutual
/-- No point evaluation occurs. -/
def NoPoint : PV X → Prop
  | .point .. => False
  | .scaled c _ => NoPoint c
  | .sum _ _ _ _ cs => noPointAll cs
  | .stack _ _ _ _ cs => noPointAll cs
  | _ => True
/-- Every part. -/
def noPointAll : List (PV X) → Prop
  | [] => True
  | c :: cs => NoPoint c ∧ noPointAll cs
end

mutual
/-- C79: the JAX view of a cross-covariance without point evaluations computes inside a JAX transformation what it computes
outside. -/
theorem jaxV_traced_partial (x : Pts X) : ∀ c : PV X, NoPoint c → jaxV c ⟨true, x⟩ = jaxV c ⟨false, x⟩
  | .base .., _ => by rw [jaxV, jaxV]
  | .quad .., _ => by rw [jaxV, jaxV]
  | .scaled c s, h => by rw [jaxV, jaxV, jaxV_traced_partial x c (by rw [NoPoint] at h; exact h)]
  | .sum i o r rev cs, h => by rw [jaxV, jaxV, jaxAllV_traced x cs (by rw [NoPoint] at h; exact h)]
  | .linop .., _ => by rw [jaxV, jaxV]
  | .stack i r rev s cs, h => by rw [jaxV, jaxV, jaxAllV_traced x cs (by rw [NoPoint] at h; exact h)]
  | .zero .., _ => by rw [jaxV, jaxV]
  | .param .., _ => by rw [jaxV, jaxV]
  | .point .., h => by rw [NoPoint] at h; exact h.elim
/-- Every part. -/
lemma jaxAllV_traced (x : Pts X) : ∀ cs : List (PV X), noPointAll cs → jaxAllV cs ⟨true, x⟩ = jaxAllV cs ⟨false, x⟩
  | [], _ => by rw [jaxAllV, jaxAllV]
  | c :: cs, h => by
    rw [noPointAll] at h
    rw [jaxAllV, jaxAllV, jaxV_traced_partial x c h.1, jaxAllV_traced x cs h.2]
end

/-- C79 is violated for point evaluations: inside a JAX transformation their JAX view raises `TypeError`, whatever the kernel, the
functional and the points, although the kernel has a JAX view. -/
theorem jaxV_point_violated (k : K X) (f : Point X) (rev : Bool) (x : Pts X) (hk : k.sh.in1 = k.sh.in0) (hx : x.inS = k.sh.in0) :
    jaxV (.point k f rev) ⟨true, x⟩ = .error .typeError := by
  rw [jaxV]
  unfold PV.checked
  rw [if_neg (by simpa [PV.inS] using hx), if_neg (by simpa using hk)]
  rfl

/-- C79: on arrays, the JAX view of the cross-covariance with all observations is its NumPy view, also when the parts have no JAX
views. -/
theorem pred_jax_array (q : Pred X) (x : Pts X) : q.jax ⟨false, x⟩ = q.np ⟨false, x⟩ := rfl

/-- C79 is violated: inside a JAX transformation the cross-covariance with all observations raises `TypeError`, even when all its
parts have JAX views that accept tracers. -/
theorem pred_jax_violated {cs : List (PV X)} {q : Pred X} (hq : mkPred cs = .ok q) (x : Pts X) (hx : x.inS = q.inS) :
    q.jax ⟨true, x⟩ = .error .typeError := by
  obtain ⟨rfl, hok⟩ := (mkPred_iff cs q).mp hq
  obtain ⟨ps⟩ := q
  cases ps with
  | nil => exact (hok.1 rfl).elim
  | cons c ps =>
    unfold Pred.jax Pred.checked
    rw [if_neg (by simpa using hx)]
    rfl

/-! ## Mean -/

/-- C79: the posterior mean at an array of points of any batch shape is, entry by entry, the prior mean plus the covariances with the
observations times the representer weights. -/
theorem mean_array_partial {cs : List (PV X)} {m : PMean X} (hq : mkPred cs = .ok m.kLas) (hw : ∀ c ∈ cs, c.WF) (hs : ∀ c ∈ cs, c.Sym)
    {x : Pts X} (hx : x.inS = m.kLas.inS) (hi : m.prior.inS = m.kLas.inS) (ho : m.prior.outS = m.kLas.outS)
    (hl : m.w.length = (cs.map fun c => c.rv.prod).sum) (hne : (x.batch ++ m.prior.outS).prod ≠ 0) :
    ∃ v, m.np ⟨false, x⟩ = .ok v ∧ v.shape = x.batch ++ m.prior.outS ∧ ∀ n p, Fits x.batch n → Fits m.prior.outS p →
      v.get (n ++ p) = m.prior.val (x.pt n) (ravel m.prior.outS p) +
        ∑ j ∈ Finset.range m.w.length, predDen cs (x.pt n) (ravel m.prior.outS p) j * m.w.getD j 0 := by
  obtain ⟨e, hok⟩ := (mkPred_iff cs m.kLas).mp hq
  have hw' : ∀ c ∈ m.kLas.parts, c.WF := by rw [e]; exact hw
  have hs' : ∀ c ∈ m.kLas.parts, c.Sym := by rw [e]; exact hs
  have hsz : m.kLas.size = m.w.length := by rw [hl, ← e]; rfl
  obtain ⟨kx, h1, h2, h3⟩ := np_holds hok hw' hs' hx (by rw [← ho]; exact hne)
  replace h2 : kx.shape = x.batch ++ m.kLas.outS ++ [m.kLas.size] := h2
  have hmv : matVec kx m.w = .ok ⟨kx.shape.dropLast, fun i => ∑ j ∈ Finset.range m.w.length, kx.get (i ++ [j]) * m.w.getD j 0⟩ := by
    unfold matVec
    rw [if_pos (by simp [lastAx, h2, hsz])]
  have hpm : m.prior.np ⟨false, x⟩ = .ok ⟨x.batch ++ m.prior.outS, fun i =>
      m.prior.val (x.pt (i.take x.batch.length)) (ravel m.prior.outS (i.drop x.batch.length))⟩ := by
    show (if x.inS ≠ m.prior.inS then _ else _) = _
    rw [if_neg (by simp [hx, hi])]
  have hsh : x.batch ++ m.prior.outS = kx.shape.dropLast := by rw [h2, List.dropLast_concat, ho]
  refine ⟨Covar.addArr ⟨x.batch ++ m.prior.outS, fun i =>
      m.prior.val (x.pt (i.take x.batch.length)) (ravel m.prior.outS (i.drop x.batch.length))⟩ ⟨kx.shape.dropLast, fun i =>
      ∑ j ∈ Finset.range m.w.length, kx.get (i ++ [j]) * m.w.getD j 0⟩, ?_, rfl, ?_⟩
  · show PMean.checked m x _ = _
    unfold PMean.checked
    rw [if_neg (by simp [hx, hi])]
    simp only [hpm, h1, hmv, bind, Except.bind]
    unfold matAdd
    rw [if_pos hsh]
    exact if_pos rfl
  · intro n p hn hp
    show m.prior.val (x.pt (List.take _ (n ++ p))) (ravel _ (List.drop _ (n ++ p))) + ∑ j ∈ Finset.range m.w.length,
      kx.get (n ++ p ++ [j]) * m.w.getD j 0 = _
    rw [take_app hn.length.symm, drop_app hn.length.symm]
    congr 1
    refine Finset.sum_congr rfl fun j hj => ?_
    rw [ho] at hp ⊢
    rw [← e]
    have := h3 [j] n p ⟨by rw [hsz]; exact Finset.mem_range.mp hj, trivial⟩ hn hp
    rw [ravel_one] at this
    rw [show kx.get (n ++ p ++ [j]) = _ from this]

/-- C79 is violated for every posterior: the JAX view of the posterior mean raises `TypeError` at every array of points, because it is
compiled and calls the NumPy views of the cross-covariances. -/
theorem mean_jax_violated {cs : List (PV X)} {m : PMean X} (hq : mkPred cs = .ok m.kLas) (hi : m.prior.inS = m.kLas.inS)
    (ht : m.prior.traceable = true) (a : Arg X) (hx : a.x.inS = m.kLas.inS) : m.jax a = .error .typeError := by
  have h1 := pred_jax_violated hq a.x hx
  unfold PMean.jax PMean.checked jit
  rw [if_neg (by simp [hx, hi])]
  unfold MeanF.jax
  simp only [hx, hi, ht, h1, ne_eq, not_true_eq_false, Bool.not_true, Bool.and_false, if_false, bind, Except.bind, Bool.false_eq_true]

/-- C79 is violated for every posterior: a derivative of the posterior mean made by a JAX fallback raises at every array of
points. -/
theorem mean_derivative_violated {cs : List (PV X)} {m : PMean X} (hq : mkPred cs = .ok m.kLas) (hi : m.prior.inS = m.kLas.inS)
    (ht : m.prior.traceable = true) (D : Pts X → Arr ℝ) (a : Arg X) (hx : a.x.inS = m.kLas.inS) :
    transformed D m.jax a = .error .typeError := by
  unfold transformed jit
  rw [mean_jax_violated hq hi ht ⟨true, a.x⟩ hx]
  rfl

/-! ## Covariance function -/

/-- Entries of the posterior covariance, with the row of covariances that `gram.solve` is given. -/
lemma cov_array_z {cs : List (PV X)} {c : PCov X} (hq : mkPred cs = .ok c.kLas) (hw : ∀ d ∈ cs, d.WF) (hs : ∀ d ∈ cs, d.Sym)
    (ho0 : c.prior.sh.out0 = []) (ho1 : c.prior.sh.out1 = []) (ho : c.kLas.outS = []) (hi : c.kLas.inS = c.prior.sh.in0)
    {x0 x1 : Pts X} (h0 : x0.inS = c.prior.sh.in0) (h1 : x1.inS = c.prior.sh.in0) {b : Shp} (hb : Coeff.bcast x0.batch x1.batch = some b)
    (hne0 : x0.batch.prod ≠ 0) (hne1 : x1.batch.prod ≠ 0) {z : (ℕ → ℝ) → ℕ → ℝ} (hz : c.solve = .ok z) :
    ∃ v, c.np ⟨false, x0⟩ (some ⟨false, x1⟩) = .ok v ∧ v.shape = b ∧ ∀ n, Fits b n → ∃ r : ℕ → ℝ,
      (∀ i < c.kLas.size, r i = predDen cs (x1.pt (Func.bidx x1.batch n)) 0 i) ∧
      v.get n = c.prior.eval (x0.pt (Func.bidx x0.batch n)) (x1.pt (Func.bidx x1.batch n)) 0 0 -
        ∑ j ∈ Finset.range c.kLas.size, predDen cs (x0.pt (Func.bidx x0.batch n)) 0 j * z r j := by
  obtain ⟨e, hok⟩ := (mkPred_iff cs c.kLas).mp hq
  have hw' : ∀ d ∈ c.kLas.parts, d.WF := by rw [e]; exact hw
  have hs' : ∀ d ∈ c.kLas.parts, d.Sym := by rw [e]; exact hs
  obtain ⟨u, u1, u2, u3⟩ := np_holds hok hw' hs' (x := x0) (h0.trans hi.symm) (by rw [ho, List.append_nil]; exact hne0)
  obtain ⟨v, v1, v2, v3⟩ := np_holds hok hw' hs' (x := x1) (h1.trans hi.symm) (by rw [ho, List.append_nil]; exact hne1)
  rw [ho] at u3 v3
  rw [e] at u3 v3
  have gu : ∀ n, Fits x0.batch n → ∀ j < c.kLas.size, u.get (n ++ [j]) = predDen cs (x0.pt n) 0 j := by
    intro n hn j hj
    have := u3 [j] n [] ⟨hj, trivial⟩ hn trivial
    simpa [pos, ravel_one, ravel] using this
  have gv : ∀ n, Fits x1.batch n → ∀ j < c.kLas.size, v.get (n ++ [j]) = predDen cs (x1.pt n) 0 j := by
    intro n hn j hj
    have := v3 [j] n [] ⟨hj, trivial⟩ hn trivial
    simpa [pos, ravel_one, ravel] using this
  set kx := kCall c.prior b (fun i => x0.pt (Func.bidx x0.batch i)) fun i => x1.pt (Func.bidx x1.batch i) with hkx
  refine ⟨⟨kx.shape, fun i => kx.get i - covUpdate c.kLas.size z x0.batch x1.batch u v i⟩, ?_, ?_, ?_⟩
  · unfold PCov.np npAsarray
    simp only [Bool.false_eq_true, if_false, bind, Except.bind, h0, h1, hb, u1, v1, hz, ne_eq, not_true_eq_false, or_self]
    rfl
  · show b ++ c.prior.sh.out0 ++ c.prior.sh.out1 = _
    rw [ho0, ho1]; simp
  · intro n hn
    have f0 := bcast_fits hb hn
    have f1 := bcast_fits ((bcast_comm _ _).trans hb) hn
    refine ⟨fun l => v.get (Func.bidx x1.batch n ++ [l]), ?_, ?_⟩
    · exact fun i hi => gv _ f1 i hi
    · have hk := kCall_get c.prior b (fun i => x0.pt (Func.bidx x0.batch i)) (fun i => x1.pt (Func.bidx x1.batch i)) (i := n) (p := []) (q := []) hn (by rw [ho0]; trivial)
      rw [List.append_nil, List.append_nil, ho0, ho1] at hk
      show kx.get n - covUpdate c.kLas.size z x0.batch x1.batch u v n = _
      rw [hkx, hk]
      congr 1
      refine Finset.sum_congr rfl fun j hj => ?_
      rw [gu _ f0 j (Finset.mem_range.mp hj)]

/-- C79: the posterior covariance of a scalar process at two arrays of points whose batch shapes broadcast is, entry by entry, the prior
covariance minus the product of the covariances with the observations and the solution of the Gram system, at the points that broadcasting
brings together. -/
theorem cov_array_partial {cs : List (PV X)} {c : PCov X} (hq : mkPred cs = .ok c.kLas) (hw : ∀ d ∈ cs, d.WF) (hs : ∀ d ∈ cs, d.Sym)
    (ho0 : c.prior.sh.out0 = []) (ho1 : c.prior.sh.out1 = []) (ho : c.kLas.outS = []) (hi : c.kLas.inS = c.prior.sh.in0)
    {x0 x1 : Pts X} (h0 : x0.inS = c.prior.sh.in0) (h1 : x1.inS = c.prior.sh.in0) {b : Shp} (hb : Coeff.bcast x0.batch x1.batch = some b)
    (hne0 : x0.batch.prod ≠ 0) (hne1 : x1.batch.prod ≠ 0)
    {G : ℕ → ℕ → ℝ} {z : (ℕ → ℝ) → ℕ → ℝ} (hz : c.solve = .ok z)
    (hsol : ∀ v : ℕ → ℝ, ∀ i < c.kLas.size, ∑ j ∈ Finset.range c.kLas.size, G i j * z v j = v i) :
    ∃ v, c.np ⟨false, x0⟩ (some ⟨false, x1⟩) = .ok v ∧ v.shape = b ∧ ∀ n, Fits b n → ∃ w : ℕ → ℝ,
      (∀ i < c.kLas.size, ∑ j ∈ Finset.range c.kLas.size, G i j * w j = predDen cs (x1.pt (Func.bidx x1.batch n)) 0 i) ∧
      v.get n = c.prior.eval (x0.pt (Func.bidx x0.batch n)) (x1.pt (Func.bidx x1.batch n)) 0 0 -
        ∑ j ∈ Finset.range c.kLas.size, predDen cs (x0.pt (Func.bidx x0.batch n)) 0 j * w j := by
  obtain ⟨v, v1, v2, v3⟩ := cov_array_z hq hw hs ho0 ho1 ho hi h0 h1 hb hne0 hne1 hz
  refine ⟨v, v1, v2, fun n hn => ?_⟩
  obtain ⟨r, r1, r2⟩ := v3 n hn
  exact ⟨z r, fun i hi => (hsol r i hi).trans (r1 i hi), r2⟩

/-- C79: batch shapes that do not broadcast are refused. -/
theorem cov_refused (c : PCov X) {x0 x1 : Pts X} (hb : Coeff.bcast x0.batch x1.batch = none) :
    c.np ⟨false, x0⟩ (some ⟨false, x1⟩) = .error .valueError := by
  unfold PCov.np npAsarray
  simp only [Bool.false_eq_true, if_false, bind, Except.bind, hb, ite_self]

/-- C79: without a second argument the posterior covariance is evaluated at equal points. -/
theorem cov_none (c : PCov X) (x : Pts X) : c.np ⟨false, x⟩ none = c.np ⟨false, x⟩ (some ⟨false, x⟩) := by
  unfold PCov.np npAsarray
  simp only [Bool.false_eq_true, if_false, bind, Except.bind, ne_eq, not_true_eq_false, or_self]
  cases c.kLas.np ⟨false, x⟩ <;> rfl

/-- C79 is violated for every posterior: the JAX view of the posterior covariance raises `TypeError` at all arrays of points, before the
line that C08 is about. -/
theorem cov_jax_violated {α : Type} {cs : List (PV X)} {c : PCov X} (hq : mkPred cs = .ok c.kLas) (hi : c.kLas.inS = c.prior.sh.in0)
    (rest : Arr ℝ → Arr ℝ → Except Err α) (a0 : Arg X) (a1 : Option (Arg X)) (h0 : a0.x.inS = c.prior.sh.in0)
    (h1 : ∀ a ∈ a1, a.x.inS = c.prior.sh.in0) : c.jax rest a0 a1 = .error .typeError := by
  have hj := pred_jax_violated hq a0.x (h0.trans hi.symm)
  unfold PCov.jax jit
  rw [if_neg]
  · cases c.traceable
    · rfl
    · simp only [if_true, bind, Except.bind, hj]
  · rintro (h | h)
    · exact h h0
    · cases a1 with
      | none => simp at h
      | some a => exact absurd (h1 a rfl) (by simpa using h)

/-! ## The theorems apply -/

/-- The kernel `x y` on the line, observed at the points 1 and 2, and a closed form. -/
noncomputable def exParts : List (PV ℝ) :=
  [.point (.base ⟨[], [], [], []⟩ 0 true fun x y _ _ => x * y) ⟨true, ([], []), ⟨[], [2], fun i => (i.getD 0 0 : ℝ) + 1⟩⟩ false,
    .base [] [] [] false fun x _ _ => x ^ 2]

/-- The posterior mean with weights 1, 10, 100. -/
noncomputable def exMean : PMean ℝ := ⟨⟨[], [], fun x _ => x + 5, true⟩, ⟨exParts⟩, [1, 10, 100]⟩

lemma exPred : mkPred exParts = .ok exMean.kLas := by
  rw [mkPred_iff]
  refine ⟨rfl, by simp [exMean, exParts], fun c hc => ?_⟩
  simp only [exMean, exParts, List.mem_cons, List.not_mem_nil, or_false] at hc
  rcases hc with rfl | rfl <;> exact ⟨rfl, rfl, rfl⟩

lemma exWF : ∀ c ∈ exParts, c.WF := by
  intro c hc
  simp only [exParts, List.mem_cons, List.not_mem_nil, or_false] at hc
  rcases hc with rfl | rfl
  · exact ⟨rfl, rfl, rfl⟩
  · trivial

lemma exSym : ∀ c ∈ exParts, c.Sym := by
  intro c hc
  simp only [exParts, List.mem_cons, List.not_mem_nil, or_false] at hc
  rcases hc with rfl | rfl
  · intro h; cases h
  · trivial

/-- The closed form appended to the first cross-covariance: its value `3²` at the point 3 comes last. -/
example : ∃ q q' v', mkPred [exParts[0]] = .ok q ∧ q.append exParts[1] = .ok q' ∧
    q'.np ⟨false, ⟨[], [2], fun i => (i.getD 0 0 : ℝ) + 2⟩⟩ = .ok v' ∧ v'.shape = [2, 3] ∧ v'.get [1, 2] = 9 := by
  have e1 : mkPred [exParts[0]] = .ok ⟨[exParts[0]]⟩ := rfl
  have e2 : (⟨[exParts[0]]⟩ : Pred ℝ).append exParts[1] = .ok exMean.kLas := exPred
  obtain ⟨v, v', h1, h2, h3, h4, h5⟩ := append_array_partial e1 e2 exWF exSym (x := ⟨[], [2], fun i => (i.getD 0 0 : ℝ) + 2⟩) rfl
    (by show ([2].prod : ℕ) ≠ 0; simp)
  refine ⟨_, _, v', e1, e2, h2, h4, ?_⟩
  refine ((h5 [1] [] ⟨by norm_num, trivial⟩ trivial).2 [] trivial).trans ?_
  show ((1 : ℕ) + 2 : ℝ) ^ 2 = 9
  norm_num

/-- At the point 3 of a batch, the mean is `8 + 3·1 + 6·10 + 9·100`. -/
example : ∃ v, exMean.np ⟨false, ⟨[], [2], fun i => (i.getD 0 0 : ℝ) + 2⟩⟩ = .ok v ∧ v.shape = [2] ∧ v.get [1] = 971 := by
  obtain ⟨v, h1, h2, h3⟩ := mean_array_partial exPred exWF exSym (x := ⟨[], [2], fun i => (i.getD 0 0 : ℝ) + 2⟩) rfl rfl rfl
    (by simp [exMean, exParts, PV.rv, Point.out]) (by simp [exMean])
  refine ⟨v, h1, h2, ?_⟩
  have := h3 [1] [] ⟨by norm_num, trivial⟩ trivial
  rw [List.append_nil] at this
  rw [this]
  have e : exParts.map (fun c => c.rv.prod) = [2, 1] := by simp [exParts, PV.rv, Point.out]
  simp [exMean, Finset.sum_range_succ, predDen, exParts, PV.rv, PV.den, Point.out, actF, Point.T, unravel, ravel, K.eval, K.evalG]
  norm_num

/-- The same posterior mean has no JAX view and no derivative; its cross-covariances have operator views. -/
example : exMean.jax ⟨false, ⟨[], [2], fun i => (i.getD 0 0 : ℝ) + 2⟩⟩ = .error .typeError ∧
    transformed (fun _ => ⟨[], fun _ => 0⟩) exMean.jax ⟨false, ⟨[], [], fun _ => 2⟩⟩ = .error .typeError ∧
    exMean.kLas.np ⟨false, ⟨[], [0], fun _ => 2⟩⟩ = .error .valueError ∧
    (∃ m, exMean.kLas.linop ⟨[], [0], fun _ => 2⟩ = .ok m ∧ m.shape = [0, 3]) :=
  ⟨mean_jax_violated exPred rfl rfl _ rfl, mean_derivative_violated exPred rfl rfl _ _ rfl,
    pred_empty_violated exPred exWF exSym rfl rfl, by
      obtain ⟨m, h1, h2, -⟩ := pred_linop_partial exPred exWF (by
        intro c hc
        simp only [exParts, List.mem_cons, List.not_mem_nil, or_false] at hc
        rcases hc with rfl | rfl
        · exact fun _ => .inl rfl
        · trivial) (fun c hc => .inr (exSym c hc)) (x := ⟨[], [0], fun _ => 2⟩) rfl
      refine ⟨m, h1, h2.trans ?_⟩
      simp [exParts, PV.rv, Point.out]⟩

/-- The posterior covariance of the kernel `x y` after observing the value at 1 with noise variance 1. -/
example : ∃ v, (⟨.base ⟨[], [], [], []⟩ 0 true fun x y _ _ => x * y, true, ⟨[.point (.base ⟨[], [], [], []⟩ 0 true fun x y _ _ => x * y)
      ⟨true, ([], []), ⟨[], [], fun _ => 1⟩⟩ false]⟩, .ok fun v j => v j / 2⟩ : PCov ℝ).np
      ⟨false, ⟨[], [2], fun i => (i.getD 0 0 : ℝ) + 2⟩⟩ (some ⟨false, ⟨[], [3, 1], fun i => (i.getD 0 0 : ℝ) + 4⟩⟩) = .ok v ∧ v.shape = [3, 2] ∧
      v.get [2, 1] = 3 * 6 - 3 * 6 / 2 := by
  obtain ⟨v, h1, h2, h3⟩ := cov_array_partial (c := ⟨.base ⟨[], [], [], []⟩ 0 true fun x y _ _ => x * y, true,
      ⟨[.point (.base ⟨[], [], [], []⟩ 0 true fun x y _ _ => x * y) ⟨true, ([], []), ⟨[], [], fun _ => 1⟩⟩ false]⟩, .ok fun v j => v j / 2⟩)
    (cs := [.point (.base ⟨[], [], [], []⟩ 0 true fun x y _ _ => x * y) ⟨true, ([], []), ⟨[], [], fun _ => 1⟩⟩ false])
    (x0 := ⟨[], [2], fun i => (i.getD 0 0 : ℝ) + 2⟩) (x1 := ⟨[], [3, 1], fun i => (i.getD 0 0 : ℝ) + 4⟩) (G := fun _ _ => 2)
    ((mkPred_iff _ _).mpr ⟨rfl, by simp, by
      intro c hc
      obtain rfl : c = _ := List.mem_singleton.mp hc
      exact ⟨rfl, rfl, rfl⟩⟩)
    (by
      intro c hc
      obtain rfl : c = _ := List.mem_singleton.mp hc
      exact ⟨rfl, rfl, rfl⟩)
    (by
      intro c hc
      obtain rfl : c = _ := List.mem_singleton.mp hc
      intro h; cases h) rfl rfl rfl rfl rfl rfl (b := [3, 2]) (by decide) (by simp) (by simp) rfl (by
      intro v i hi
      have e : Pred.size (⟨[.point (.base ⟨[], [], [], []⟩ 0 true fun x y _ _ => x * y) ⟨true, ([], []), ⟨[], [], fun _ => 1⟩⟩ false]⟩ : Pred ℝ) = 1 := by
        simp [Pred.size, PV.rv, Point.out]
      simp only [e] at hi ⊢
      obtain rfl : i = 0 := by omega
      simp [Finset.sum_range_one]; ring)
  refine ⟨v, h1, h2, ?_⟩
  obtain ⟨w, w1, w2⟩ := h3 [2, 1] ⟨by norm_num, by norm_num, trivial⟩
  have e : Pred.size (⟨[.point (.base ⟨[], [], [], []⟩ 0 true fun x y _ _ => x * y) ⟨true, ([], []), ⟨[], [], fun _ => 1⟩⟩ false]⟩ : Pred ℝ) = 1 := by
    simp [Pred.size, PV.rv, Point.out]
  simp only [e] at w1 w2
  have w3 := w1 0 one_pos
  simp [Finset.sum_range_one, predDen, PV.rv, PV.den, Point.out, actF, Point.T, unravel, ravel, K.eval, K.evalG, Func.bidx] at w2 w3
  rw [w2]
  linarith

/-- A closed form can be traced, a point evaluation cannot. -/
example : NoPoint (PV.scaled (.sum [] [] [] false [.base [] [] [] false fun x _ _ => x, .zero [] [] [] false]) 3 : PV ℝ) ∧
    jaxV (.point (.base ⟨[], [], [], []⟩ 0 true fun x y _ _ => x * y) ⟨true, ([], []), ⟨[], [], fun _ => 1⟩⟩ false : PV ℝ)
      ⟨true, ⟨[], [], fun _ => 2⟩⟩ = .error .typeError :=
  ⟨by simp [NoPoint, noPointAll], jaxV_point_violated _ _ _ _ rfl rfl⟩

end LinPDE.PostView
