import Verif.PostView.LinkModel
import Verif.PostView.Props
import Verif.GP.Props
import Verif.GP.Interpolate
import Verif.Block.Props2x2
import Mathlib.Data.List.GetD

/-!
# The arrays returned by a posterior are those of the conditional distribution (C88)
-/

namespace LinPDE.PostView
open LinPDE.Nd LinPDE.XCov
open LinPDE.CovAlg hiding Err
open LinPDE.GP
open LinPDE.Block (Shape Env Op pos_lt_size solve_spec)
variable {X : Type} {P : Prior (X × ℕ)}

/-! ## Flat vectors -/

lemma flat_length : ∀ (s : Shape) (f : s.Idx → ℝ), (flat s f).length = s.size
  | .leaf n, f => List.length_ofFn (f := (f : Fin n → ℝ))
  | .node a b, f => by rw [flat, List.length_append, flat_length a, flat_length b, Shape.size]

lemma flat_pos : ∀ (s : Shape) (f : s.Idx → ℝ) (i : s.Idx), (flat s f).getD (s.pos i) 0 = f i
  | .leaf n, f, i => by
    have h : (i : Fin n).val < (flat (.leaf n) f).length := by rw [flat_length]; exact i.2
    show (flat (.leaf n) f).getD i.val 0 = _
    rw [List.getD_eq_getElem _ _ h]
    exact List.getElem_ofFn (f := (f : Fin n → ℝ)) _
  | .node a b, f, .inl i => by
    show (flat a _ ++ flat b _).getD (a.pos i) 0 = _
    rw [List.getD_append _ _ _ _ (by rw [flat_length]; exact pos_lt_size a i)]
    exact flat_pos a _ i
  | .node a b, f, .inr j => by
    show (flat a _ ++ flat b _).getD (a.size + b.pos j) 0 = _
    rw [List.getD_append_right _ _ _ _ (by rw [flat_length]; omega), flat_length, Nat.add_sub_cancel_left]
    exact flat_pos b _ j

lemma sum_flat : ∀ (s : Shape) (g : ℕ → ℝ), ∑ j ∈ Finset.range s.size, g j = ∑ i : s.Idx, g (s.pos i)
  | .leaf n, g => Finset.sum_range g
  | .node a b, g => by
    have h : ∑ i : (Shape.node a b).Idx, g ((Shape.node a b).pos i) = ∑ i : a.Idx, g (a.pos i) + ∑ j : b.Idx, g (a.size + b.pos j) :=
      Fintype.sum_sum_type _
    rw [h, ← sum_flat a, ← sum_flat b fun j => g (a.size + j), Shape.size, Finset.sum_range_add]

/-! ## The history -/

/-- The object `kLa` is the cross-covariance of the observed functionals: entry `r` of the observations in C order. -/
def Obs.Rep (o : Obs P) : Prop :=
  o.kLa.rv.prod = o.batch.n ∧ ∀ x, ∀ p < o.kLa.outS.prod, ∀ r : Fin o.batch.n, o.kLa.den x p r = (P.cross (o.batch.L r)).1 (x, p)

/-- Block entries of the cross-covariance of the state and flat entries of the objects agree. -/
structure Agree (s : Post P) (os : List (Obs P)) (out : ℕ) : Prop where
  parts : s.kLas.parts = os.map Obs.kLa
  ok : s.kLas.OK
  size : s.cond.s.size = s.kLas.size
  entry : ∀ x, ∀ p < out, ∀ i, predDen s.kLas.parts x p (s.cond.s.pos i) = (s.cond.kLas i).1 (x, p)

lemma bind_ok {ε α β : Type} {a : Except ε α} {f : α → Except ε β} {b : β} (h : (a >>= f) = .ok b) : ∃ x, a = .ok x ∧ f x = .ok b := by
  cases a with
  | error err => cases h
  | ok x => exact ⟨x, rfl, h⟩

lemma start_form (e : Env) {b : Batch P} {c : Cond P} (hc : Cond.fromObservations e b = .ok c) :
    ∃ w, c = { s := .leaf b.n, kLas := fun i => P.cross (b.L i), gram := b.gramOp, w := w, Ls := b.L, Ys := b.Y, bs := b.bMean } := by
  unfold Cond.fromObservations at hc
  cases hw : b.gramOp.solve e (col fun i => b.Y i - b.predMean i) with
  | error err => rw [hw] at hc; cases hc
  | ok w =>
    rw [hw] at hc
    exact ⟨w, (Except.ok.inj hc).symm⟩

lemma step_form (e : Env) {c : Cond P} {b : Batch P} {c' : Cond P} (hc : c.condition e b = .ok c') :
    ∃ gram w, c' = { s := .node c.s (.leaf b.n), kLas := Sum.elim c.kLas fun i => P.cross (b.L i), gram := gram, w := w,
                     Ls := Sum.elim c.Ls b.L, Ys := Sum.elim c.Ys b.Y, bs := Sum.elim c.bs b.bMean } := by
  obtain ⟨gram, -, h2⟩ := bind_ok hc
  obtain ⟨w, -, h3⟩ := bind_ok h2
  exact ⟨gram, w, (Except.ok.inj h3).symm⟩

lemma start_agree (e : Env) (o : Obs P) (ho : o.Rep) (hr : o.kLa.rev = false) {c : Cond P} (hc : Cond.fromObservations e o.batch = .ok c) :
    ∃ s, Post.start e o = .ok s ∧ s.cond = c ∧ Agree s [o] o.kLa.outS.prod := by
  have hq : mkPred [o.kLa] = .ok ⟨[o.kLa]⟩ := (mkPred_iff _ _).mpr ⟨rfl, by simp, fun c hc => by
    obtain rfl : c = _ := List.mem_singleton.mp hc
    exact ⟨rfl, rfl, hr⟩⟩
  refine ⟨⟨c, ⟨[o.kLa]⟩⟩, by simp only [Post.start, hc, hq, liftB, liftV, bind, Except.bind], rfl, ?_⟩
  obtain ⟨w, rfl⟩ := start_form e hc
  refine ⟨rfl, ((mkPred_iff _ _).mp hq).2, ?_, ?_⟩
  · show o.batch.n = (List.map _ [o.kLa]).sum
    simp [ho.1]
  · intro x p hp i
    have hi : (i : Fin o.batch.n).val < o.kLa.rv.prod := by rw [ho.1]; exact i.2
    show predDen [o.kLa] x p (i : Fin o.batch.n).val = _
    rw [predDen, if_pos hi]
    exact ho.2 x p hp i

lemma step_agree (e : Env) {s : Post P} {os : List (Obs P)} {out : ℕ} (I : Agree s os out) (o : Obs P) (ho : o.Rep) (hr : o.kLa.rev = false)
    (hin : o.kLa.inS = s.kLas.inS) (hout : o.kLa.outS = s.kLas.outS) (hp : o.kLa.outS.prod = out) {c : Cond P}
    (hc : s.cond.condition e o.batch = .ok c) :
    ∃ s', s.step e o = .ok s' ∧ s'.cond = c ∧ Agree s' (os ++ [o]) out := by
  obtain ⟨cond, ⟨ps⟩⟩ := s
  have hne : ps ≠ [] := I.ok.1
  have hq : (⟨ps⟩ : Pred X).append o.kLa = .ok ⟨ps ++ [o.kLa]⟩ := by
    refine (mkPred_iff _ _).mpr ⟨rfl, by simp, fun c hc => ?_⟩
    have e1 : (⟨ps ++ [o.kLa]⟩ : Pred X).inS = (⟨ps⟩ : Pred X).inS ∧ (⟨ps ++ [o.kLa]⟩ : Pred X).outS = (⟨ps⟩ : Pred X).outS := by
      cases ps with
      | nil => exact (hne rfl).elim
      | cons d ps => exact ⟨rfl, rfl⟩
    rw [e1.1, e1.2]
    rcases List.mem_append.mp hc with h | h
    · exact I.ok.2 c h
    · obtain rfl : c = _ := List.mem_singleton.mp h
      exact ⟨hin, hout, hr⟩
  refine ⟨⟨c, ⟨ps ++ [o.kLa]⟩⟩, ?_, rfl, ?_⟩
  · simp only [Post.step, hc, hq, liftB, liftV, bind, Except.bind]
  have hsz : (⟨ps ++ [o.kLa]⟩ : Pred X).size = (⟨ps⟩ : Pred X).size + o.kLa.rv.prod := by simp [Pred.size]
  have hpart : ps = os.map Obs.kLa := I.parts
  obtain ⟨gram, w, rfl⟩ := step_form e hc
  refine ⟨by simp [hpart], ((mkPred_iff _ _).mp hq).2, ?_, ?_⟩
  · show cond.s.size + o.batch.n = _
    rw [hsz, ho.1]
    congr 1
    exact I.size
  · intro x p hp' i
    rcases i with i | r
    · refine (predDen_prefix x p o.kLa ps (cond.s.pos i) ?_).trans (I.entry x p hp' i)
      exact lt_of_lt_of_eq (pos_lt_size _ i) I.size
    · have hi : (r : Fin o.batch.n).val < o.kLa.rv.prod := by rw [ho.1]; exact r.2
      have h1 : cond.s.size + (r : Fin o.batch.n).val = (ps.map fun d => d.rv.prod).sum + (r : Fin o.batch.n).val := by
        rw [show cond.s.size = _ from I.size]; rfl
      show predDen (ps ++ [o.kLa]) x p (cond.s.size + (r : Fin o.batch.n).val) = _
      rw [h1, predDen_part (post := []) x p hi]
      exact ho.2 x p (by rw [hp]; exact hp') r

/-- What the cross-covariances of a history have to satisfy: those of the observed functionals, over one input and output shape. -/
structure Fit (inS outS : Shp) (o : Obs P) : Prop where
  rep : o.Rep
  wf : o.kLa.WF
  sym : o.kLa.Sym
  rev : o.kLa.rev = false
  inS : o.kLa.inS = inS
  outS : o.kLa.outS = outS

lemma agree_in {s : Post P} {o : Obs P} {os : List (Obs P)} {k : ℕ} (I : Agree s (o :: os) k) :
    s.kLas.inS = o.kLa.inS ∧ s.kLas.outS = o.kLa.outS := by
  unfold Pred.inS Pred.outS
  rw [I.parts]
  exact ⟨rfl, rfl⟩

lemma fold_agree (e : Env) {inS outS : Shp} (o : Obs P) : ∀ (os done : List (Obs P)) (s : Post P), Agree s (o :: done) outS.prod →
    (∀ o' ∈ o :: done ++ os, Fit inS outS o') → ∀ c, (os.map Obs.batch).foldlM (fun c b => Cond.condition e c b) s.cond = .ok c →
    ∃ s', os.foldlM (fun s o => s.step e o) s = .ok s' ∧ s'.cond = c ∧ Agree s' (o :: done ++ os) outS.prod
  | [], done, s, I, hf, c, hc => ⟨s, rfl, Except.ok.inj hc, by simpa using I⟩
  | o' :: os, done, s, I, hf, c, hc => by
    have hf' : Fit inS outS o' := hf o' (by simp)
    have hf0 : Fit inS outS o := hf o (by simp)
    simp only [List.map_cons, List.foldlM_cons] at hc
    cases h1 : s.cond.condition e o'.batch with
    | error err => rw [h1] at hc; cases hc
    | ok c1 =>
      rw [h1] at hc
      obtain ⟨a1, a2⟩ := agree_in I
      obtain ⟨s1, k1, k2, k3⟩ := step_agree e I o' hf'.rep hf'.rev (by rw [a1, hf'.inS, hf0.inS]) (by rw [a2, hf'.outS, hf0.outS])
        (by rw [hf'.outS]) h1
      subst k2
      obtain ⟨s', m1, m2, m3⟩ := fold_agree e o os (done ++ [o']) s1 (by simpa using k3) (by simpa using hf) c hc
      refine ⟨s', ?_, m2, by simpa using m3⟩
      rw [List.foldlM_cons, k1]
      exact m1

/-- C88: conditioning the whole object succeeds whenever conditioning its numerical state does, and the cross-covariance object
lists the columns of the state in the order of its block vectors. -/
theorem run_agree (e : Env) {inS outS : Shp} (o : Obs P) (os : List (Obs P)) (hf : ∀ o' ∈ o :: os, Fit inS outS o') {c : Cond P}
    (hc : GP.run e o.batch (os.map Obs.batch) = .ok c) : ∃ s, Post.run e o os = .ok s ∧ s.cond = c ∧ Agree s (o :: os) outS.prod := by
  unfold GP.run at hc
  cases h1 : Cond.fromObservations e o.batch with
  | error err => rw [h1] at hc; cases hc
  | ok c1 =>
    rw [h1] at hc
    have hf0 := hf o List.mem_cons_self
    obtain ⟨s, k1, k2, k3⟩ := start_agree e o hf0.rep hf0.rev h1
    subst k2
    rw [hf0.outS] at k3
    obtain ⟨s', m1, m2, m3⟩ := fold_agree e o os [] s k3 hf c hc
    exact ⟨s', by unfold Post.run; rw [k1]; exact m1, m2, m3⟩

lemma agree_mk {s : Post P} {os : List (Obs P)} {k : ℕ} (I : Agree s os k) : mkPred s.kLas.parts = .ok s.kLas :=
  (mkPred_iff _ _).mpr ⟨rfl, I.ok⟩

lemma agree_wf {s : Post P} {os : List (Obs P)} {k : ℕ} {inS outS : Shp} (I : Agree s os k) (hf : ∀ o' ∈ os, Fit inS outS o') :
    (∀ c ∈ s.kLas.parts, c.WF) ∧ ∀ c ∈ s.kLas.parts, c.Sym := by
  rw [I.parts]
  constructor
  all_goals
    intro c hc
    obtain ⟨o', h1, rfl⟩ := List.mem_map.mp hc
  · exact (hf o' h1).wf
  · exact (hf o' h1).sym

lemma mean_agree {s : Post P} {o : Obs P} {os : List (Obs P)} {inS outS : Shp} (I : Agree s (o :: os) outS.prod)
    (hf : ∀ o' ∈ o :: os, Fit inS outS o') (m : MeanF X) (hm : ∀ x, ∀ p < outS.prod, m.val x p = P.m.1 (x, p)) (hmi : m.inS = inS)
    (hmo : m.outS = outS) {x : Pts X} (hx : x.inS = inS) (hne : (x.batch ++ outS).prod ≠ 0) :
    ∃ v, (s.meanFn m).np ⟨false, x⟩ = .ok v ∧ v.shape = x.batch ++ outS ∧ ∀ n p, Fits x.batch n → Fits outS p →
      v.get (n ++ p) = s.cond.mean (x.pt n, ravel outS p) := by
  obtain ⟨a1, a2⟩ := agree_in I
  have hf0 := hf o List.mem_cons_self
  subst hmo
  subst hmi
  have hl : (flat s.cond.s fun i => s.cond.w i ()).length = s.cond.s.size := flat_length _ _
  obtain ⟨v, h1, h2, h3⟩ := mean_array_partial (m := s.meanFn m) (agree_mk I) (agree_wf I hf).1 (agree_wf I hf).2 (x := x)
    (by rw [hx]; exact (a1.trans hf0.inS).symm) (a1.trans hf0.inS).symm (a2.trans hf0.outS).symm
    (by show (flat _ _).length = _; rw [hl, I.size]; rfl) hne
  refine ⟨v, h1, h2, fun n p hn hp => (h3 n p hn hp).trans ?_⟩
  have hlt := ravel_lt hp
  show m.val _ (ravel m.outS p) + ∑ j ∈ Finset.range (flat s.cond.s fun i => s.cond.w i ()).length, predDen s.kLas.parts _ (ravel m.outS p) j * (flat s.cond.s fun i => s.cond.w i ()).getD j 0 = _
  rw [hl, sum_flat, hm _ _ hlt]
  unfold Core.mean
  congr 1
  refine Finset.sum_congr rfl fun i _ => ?_
  rw [flat_pos, I.entry _ _ hlt]

/-- C88: for every history of observations with positive definite joint Gram matrix, the posterior mean called with an array of
points of any batch shape contains the conditional expectations given all observations. -/
theorem posterior_mean (e : Env) (he : e.CholOK) (hP : P.Regular) {inS outS : Shp} (o : Obs P) (os : List (Obs P))
    (hf : ∀ o' ∈ o :: os, Fit inS outS o') (hG : (jG ((o :: os).map Obs.batch)).PosDef) (m : MeanF X)
    (hm : ∀ x, ∀ p < outS.prod, m.val x p = P.m.1 (x, p)) (hmi : m.inS = inS) (hmo : m.outS = outS) {x : Pts X} (hx : x.inS = inS)
    (hne : (x.batch ++ outS).prod ≠ 0) :
    ∃ s v, Post.run e o os = .ok s ∧ (s.meanFn m).np ⟨false, x⟩ = .ok v ∧ v.shape = x.batch ++ outS ∧
      ∀ n p, Fits x.batch n → Fits outS p → v.get (n ++ p) = postMean ((o :: os).map Obs.batch) (x.pt n, ravel outS p) := by
  obtain ⟨c, hc, h1, -⟩ := run_posterior e he hP o.batch (os.map Obs.batch) hG
  obtain ⟨s, k1, rfl, I⟩ := run_agree e o os hf hc
  obtain ⟨v, v1, v2, v3⟩ := mean_agree I hf m hm hmi hmo hx hne
  exact ⟨s, v, k1, v1, v2, fun n p hn hp => (v3 n p hn hp).trans (h1 _)⟩

lemma solveFlat_ok (e : Env) {s : Post P} (h : ∀ v, ∃ y, s.cond.gram.solve e (col v) = .ok y) :
    ∃ z, s.solveFlat e = .ok z ∧ ∀ v y, s.cond.gram.solve e (col fun i => v (s.cond.s.pos i)) = .ok y → ∀ i, z v (s.cond.s.pos i) = y i () := by
  obtain ⟨y0, h0⟩ := h fun _ => 0
  refine ⟨_, by unfold Post.solveFlat; rw [h0], fun v y hy i => ?_⟩
  simp only [hy]
  exact flat_pos _ _ i

lemma cov_agree (e : Env) {s : Post P} {o : Obs P} {os : List (Obs P)} {inS : Shp} (I : Agree s (o :: os) 1)
    (hf : ∀ o' ∈ o :: os, Fit inS [] o') (hsol : ∀ v, ∃ y, s.cond.gram.solve e (col v) = .ok y) (k : K X) (t : Bool)
    (hk : ∀ x y, k.eval x y 0 0 = P.k (x, 0) (y, 0)) (hki : k.sh.in0 = inS) (ho0 : k.sh.out0 = []) (ho1 : k.sh.out1 = [])
    {x0 x1 : Pts X} (h0 : x0.inS = inS) (h1 : x1.inS = inS) {b : Shp} (hb : Coeff.bcast x0.batch x1.batch = some b)
    (hne0 : x0.batch.prod ≠ 0) (hne1 : x1.batch.prod ≠ 0) :
    ∃ v, (s.covFn e k t).np ⟨false, x0⟩ (some ⟨false, x1⟩) = .ok v ∧ v.shape = b ∧ ∀ n, Fits b n →
      s.cond.covfunc e (x0.pt (Func.bidx x0.batch n), 0) (x1.pt (Func.bidx x1.batch n), 0) = .ok (v.get n) := by
  obtain ⟨a1, a2⟩ := agree_in I
  have hf0 := hf o List.mem_cons_self
  subst hki
  obtain ⟨z, hz, hz'⟩ := solveFlat_ok e hsol
  obtain ⟨v, v1, v2, v3⟩ := cov_array_z (c := s.covFn e k t) (agree_mk I) (agree_wf I hf).1 (agree_wf I hf).2 ho0 ho1
    (a2.trans hf0.outS) (a1.trans hf0.inS) h0 h1 hb hne0 hne1 hz
  refine ⟨v, v1, v2, fun n hn => ?_⟩
  obtain ⟨r, r1, r2⟩ := v3 n hn
  replace r1 : ∀ i, r (s.cond.s.pos i) = (s.cond.kLas i).1 (x1.pt (Func.bidx x1.batch n), 0) := fun i =>
    (r1 _ (lt_of_lt_of_eq (pos_lt_size _ i) I.size)).trans (I.entry _ _ one_pos i)
  obtain ⟨y, hy⟩ := hsol fun i => (s.cond.kLas i).1 (x1.pt (Func.bidx x1.batch n), 0)
  have hy' : s.cond.gram.solve e (col fun i => r (s.cond.s.pos i)) = .ok y := by simp only [r1]; exact hy
  have hs : ∑ j ∈ Finset.range s.kLas.size, predDen s.kLas.parts (x0.pt (Func.bidx x0.batch n)) 0 j * z r j =
      ∑ i, (s.cond.kLas i).1 (x0.pt (Func.bidx x0.batch n), 0) * y i () := by
    rw [← I.size, sum_flat]
    exact Finset.sum_congr rfl fun i _ => by rw [hz' r y hy', I.entry _ _ one_pos]
  unfold Core.covfunc
  rw [hy]
  refine congrArg Except.ok (Eq.trans ?_ r2.symm)
  exact congrArg₂ (· - ·) (hk _ _).symm hs.symm

/-- C88: for every history of observations of a scalar process with positive definite joint Gram matrix, the posterior covariance
called with two arrays of points whose batch shapes broadcast contains the conditional covariances given all observations. -/
theorem posterior_cov (e : Env) (he : e.CholOK) (hP : P.Regular) {inS : Shp} (o : Obs P) (os : List (Obs P))
    (hf : ∀ o' ∈ o :: os, Fit inS [] o') (hG : (jG ((o :: os).map Obs.batch)).PosDef) (k : K X) (t : Bool)
    (hk : ∀ x y, k.eval x y 0 0 = P.k (x, 0) (y, 0)) (hki : k.sh.in0 = inS) (ho0 : k.sh.out0 = []) (ho1 : k.sh.out1 = [])
    {x0 x1 : Pts X} (h0 : x0.inS = inS) (h1 : x1.inS = inS) {b : Shp} (hb : Coeff.bcast x0.batch x1.batch = some b)
    (hne0 : x0.batch.prod ≠ 0) (hne1 : x1.batch.prod ≠ 0) :
    ∃ s v, Post.run e o os = .ok s ∧ (s.covFn e k t).np ⟨false, x0⟩ (some ⟨false, x1⟩) = .ok v ∧ v.shape = b ∧
      ∀ n, Fits b n → v.get n = postCov ((o :: os).map Obs.batch) (x0.pt (Func.bidx x0.batch n), 0) (x1.pt (Func.bidx x1.batch n), 0) := by
  obtain ⟨c, hc, ⟨J⟩⟩ := run_inv e he hP o.batch (os.map Obs.batch) hG
  obtain ⟨s, k1, rfl, I⟩ := run_agree e o os hf hc
  obtain ⟨v, v1, v2, v3⟩ := cov_agree e I hf (fun v => by
    obtain ⟨y, hy, -⟩ := solve_spec e he s.cond.gram J.spd.valid (col v)
    exact ⟨y, hy⟩) k t hk hki ho0 ho1 h0 h1 hb hne0 hne1
  refine ⟨s, v, k1, v1, v2, fun n hn => ?_⟩
  exact Except.ok.inj ((v3 n hn).symm.trans (J.covfunc e he _ _))

/-- C88: at a point where the process was observed without noise, the array of posterior means contains the observed value and
the array of posterior covariances contains zeros, whatever else was observed before or after. -/
theorem posterior_observed (e : Env) (he : e.CholOK) (hP : P.Regular) {inS : Shp} (o : Obs P) (os : List (Obs P))
    (hf : ∀ o' ∈ o :: os, Fit inS [] o') (hG : (jG ((o :: os).map Obs.batch)).PosDef) (m : MeanF X) (k : K X) (t : Bool)
    (hm : ∀ x, m.val x 0 = P.m.1 (x, 0)) (hmi : m.inS = inS) (hmo : m.outS = [])
    (hk : ∀ x y, k.eval x y 0 0 = P.k (x, 0) (y, 0)) (hki : k.sh.in0 = inS) (ho0 : k.sh.out0 = []) (ho1 : k.sh.out1 = [])
    {x : Pts X} (hx : x.inS = inS) (hne : x.batch.prod ≠ 0) {d : Obs P} (hd : d ∈ o :: os) (hn : d.batch.noise = none)
    (r : Fin d.batch.n) {n : List ℕ} (hfit : Fits x.batch n) (hev : d.batch.L r = hP.ev (x.pt n, 0)) :
    ∃ s v w, Post.run e o os = .ok s ∧ (s.meanFn m).np ⟨false, x⟩ = .ok v ∧ (s.covFn e k t).np ⟨false, x⟩ (some ⟨false, x⟩) = .ok w ∧
      v.get n = d.batch.Y r ∧ w.get n = 0 := by
  obtain ⟨s, v, h1, h2, -, h4⟩ := posterior_mean e he hP (outS := []) o os hf hG m (fun x p hp => by
    obtain rfl : p = 0 := by simpa using hp
    exact hm x) hmi hmo hx (by simpa using hne)
  obtain ⟨s', w, k1, k2, -, k4⟩ := posterior_cov e he hP o os hf hG k t hk hki ho0 ho1 hx hx (by simpa using Func.bcast_append [] x.batch) hne hne
  obtain rfl : s = s' := Except.ok.inj (h1.symm.trans k1)
  have hd' : d.batch ∈ (o :: os).map Obs.batch := List.mem_map_of_mem hd
  refine ⟨s, v, w, h1, h2, k2, ?_, ?_⟩
  · have h := h4 n [] hfit trivial
    rw [List.append_nil] at h
    rw [h, ← (exact_row hP hG hd' hn r).1, hev]
    exact ((functl_ev hP _ (x.pt n, 0) (x.pt n, 0)).2).symm
  · rw [k4 n hfit, Func.bidx_self hfit, ← (functl_ev hP _ (x.pt n, 0) (x.pt n, 0)).1, ← hev]
    exact (exact_row hP hG hd' hn r).2 _

/-- C88: the object made by `condition_on_observations(Y, X)` has the cross-covariance of the evaluations it stores. -/
theorem evalObs_fit (hP : P.Regular) (k : K X) {inS outS : Shp} (hk : ∀ x y p q, k.eval x y p q = P.k (x, p) (y, q))
    (h0 : k.sh.in0 = inS) (h1 : k.sh.in1 = inS) (ho0 : k.sh.out0 = outS) (ho1 : k.sh.out1 = outS) (xs : Pts X) (hx : xs.inS = inS)
    (Y : Arr ℝ) (noise) : Fit inS outS (evalObs hP k outS xs Y noise) := by
  subst h0
  subst ho0
  refine ⟨⟨rfl, fun x p _ r => ?_⟩, ⟨h1, hx, ho1.symm⟩, ?_, rfl, ?_, ?_⟩
  · show actF (Point.T ⟨false, _, xs⟩) false k.eval x p r = _
    exact hk _ _ _ _
  · intro h; cases h
  · rfl
  · rfl

/-- C88: after `condition_on_observations(Y, X)` without noise, anywhere in a history with positive definite joint Gram matrix, the
posterior mean called with `X` is the array `Y`, also for vector-valued processes. -/
theorem reproduces_array (e : Env) (he : e.CholOK) (hP : P.Regular) {inS outS : Shp} (o : Obs P) (os : List (Obs P))
    (hf : ∀ o' ∈ o :: os, Fit inS outS o') (hG : (jG ((o :: os).map Obs.batch)).PosDef) (m : MeanF X)
    (hm : ∀ x, ∀ p < outS.prod, m.val x p = P.m.1 (x, p)) (hmi : m.inS = inS) (hmo : m.outS = outS) (k : K X) {xs : Pts X}
    (hx : xs.inS = inS) (hne : (xs.batch ++ outS).prod ≠ 0) (Y : Arr ℝ) (hY : Y.shape = xs.batch ++ outS)
    (hd : evalObs hP k outS xs Y none ∈ o :: os) :
    ∃ s v, Post.run e o os = .ok s ∧ (s.meanFn m).np ⟨false, xs⟩ = .ok v ∧ v.shape = Y.shape ∧
      ∀ i, Fits Y.shape i → v.get i = Y.get i := by
  obtain ⟨s, v, h1, h2, h3, h4⟩ := posterior_mean e he hP o os hf hG m hm hmi hmo hx hne
  refine ⟨s, v, h1, h2, h3.trans hY.symm, fun i hi => ?_⟩
  rw [hY] at hi
  obtain ⟨n, p, rfl, hn, hp⟩ := fits_split hi
  have hr : Fits (outS ++ xs.batch) (p ++ n) := (fits_append hp.length).mpr ⟨hp, hn⟩
  have hd' : (evalObs hP k outS xs Y none).batch ∈ (o :: os).map Obs.batch := List.mem_map_of_mem hd
  have key := (exact_row hP hG hd' rfl ⟨ravel (outS ++ xs.batch) (p ++ n), ravel_lt hr⟩).1
  have eu : unravel (outS ++ xs.batch) (ravel (outS ++ xs.batch) (p ++ n)) = p ++ n := unravel_ravel hr
  have et : (p ++ n).take outS.length = p := by rw [← hp.length]; simp
  have ed : (p ++ n).drop outS.length = n := by rw [← hp.length]; simp
  simp only [evalObs, eu, et, ed] at key
  rw [h4 n p hn hp, ← key]
  exact ((functl_ev hP _ (xs.pt n, ravel outS p) (xs.pt n, ravel outS p)).2).symm

/-- A scalar process on `X` with mean function `m` and covariance function `k`. -/
noncomputable def scalarPrior (m : X → ℝ) (k : X → X → ℝ) : Prior (X × ℕ) := ofKernel (fun a => m a.1) fun a b => k a.1 b.1

lemma scalar_regular {k : X → X → ℝ} (hk : PosDef.PSD k) (m : X → ℝ) : (scalarPrior m k).Regular :=
  of_psd (k := fun a b : X × ℕ => k a.1 b.1) (PosDef.PSD.comp hk Prod.fst) _

lemma batch_posDef {k : X → X → ℝ} (hk : PosDef.SPD k) (m : X → ℝ) (b : Batch (scalarPrior m k)) (pt : Fin b.n → X) (hpt : Function.Injective pt)
    (hL : ∀ r, (b.L r).1 = evTop (pt r, 0)) (hn : b.noise = none) : (jG [b]).PosDef := by
  have hat : At (m := fun a : X × ℕ => m a.1) (k := fun a b : X × ℕ => k a.1 b.1) [b] fun i => (pt ((singleEquiv b).symm i), 0) := by
    intro i
    obtain ⟨r, rfl⟩ := (singleEquiv b).surjective i
    show ((scalarPrior m k).Λ.subtype (jL [b] (singleEquiv b r))) = evTop (pt ((singleEquiv b).symm (singleEquiv b r)), 0)
    rw [Equiv.symm_apply_apply]
    exact hL r
  refine jG_posDef_of_cov _ ?_ ?_
  · have e1 : (Matrix.of fun i j => (scalarPrior m k).cov (jL [b] i) (jL [b] j)) =
        Matrix.of fun i j => k (pt ((singleEquiv b).symm i)) (pt ((singleEquiv b).symm j)) := by
      ext i j
      exact at_cov hat i j
    rw [e1]
    exact hk.posDef (hpt.comp (singleEquiv b).symm.injective)
  · intro d hd
    obtain rfl := List.mem_singleton.mp hd
    unfold Batch.noiseCov
    rw [hn]
    exact Matrix.PosSemidef.zero

/-- C88: a process with strictly positive definite covariance function conditioned on values `Y` at an array `X` of pairwise distinct
points, of any batch shape, has the mean `Y` and the variance 0 at `X`. -/
theorem interpolates_array {k : X → X → ℝ} (hk : PosDef.SPD k) (m : X → ℝ) (e : Env) (he : e.CholOK) (inS : Shp) (xs : Pts X)
    (hx : xs.inS = inS) (hne : xs.batch.prod ≠ 0) (hinj : ∀ n n', Fits xs.batch n → Fits xs.batch n' → xs.pt n = xs.pt n' → n = n')
    (Y : Arr ℝ) (hY : Y.shape = xs.batch) :
    ∃ s v w, Post.run e (evalObs (scalar_regular hk.toPSD m) (.base ⟨inS, inS, [], []⟩ 0 true fun x y _ _ => k x y) [] xs Y none) [] = .ok s ∧
      (s.meanFn ⟨inS, [], fun x _ => m x, true⟩).np ⟨false, xs⟩ = .ok v ∧
      (s.covFn e (.base ⟨inS, inS, [], []⟩ 0 true fun x y _ _ => k x y) true).np ⟨false, xs⟩ none = .ok w ∧
      v.shape = Y.shape ∧ w.shape = Y.shape ∧ ∀ n, Fits Y.shape n → v.get n = Y.get n ∧ w.get n = 0 := by
  set hP := scalar_regular hk.toPSD m
  set K0 : K X := .base ⟨inS, inS, [], []⟩ 0 true fun x y _ _ => k x y with hK0
  set o : Obs (scalarPrior m k) := evalObs hP K0 [] xs Y none with ho
  have hev : ∀ x y p q, K0.eval x y p q = (scalarPrior m k).k (x, p) (y, q) := fun x y p q => rfl
  have hf : ∀ o' ∈ [o], Fit inS [] o' := by
    intro o' h
    obtain rfl := List.mem_singleton.mp h
    exact evalObs_fit hP K0 hev rfl rfl rfl rfl xs hx Y none
  have hG : (jG ([o].map Obs.batch)).PosDef := by
    refine batch_posDef hk m o.batch (fun r => xs.pt (unravel xs.batch r)) ?_ ?_ rfl
    · intro r r' h
      have hr : r.val < xs.batch.prod := r.2
      have hr' : r'.val < xs.batch.prod := r'.2
      have := hinj _ _ (fits_unravel hr) (fits_unravel hr') h
      refine Fin.ext ?_
      rw [← ravel_unravel hr, ← ravel_unravel hr', this]
    · intro r
      rfl
  obtain ⟨s, v, h1, h2, h3, h4⟩ := reproduces_array e he hP o [] hf hG ⟨inS, [], fun x _ => m x, true⟩ (fun x p hp => rfl) rfl rfl K0 hx
    (by simpa using hne) Y (by simpa using hY) List.mem_cons_self
  obtain ⟨s', w, k1, k2, k3, k4⟩ := posterior_cov e he hP o [] hf hG K0 true (fun x y => rfl) rfl rfl rfl hx hx
    (by simpa using Func.bcast_append [] xs.batch) hne hne
  obtain rfl : s = s' := Except.ok.inj (h1.symm.trans k1)
  refine ⟨s, v, w, h1, h2, by rw [cov_none]; exact k2, h3, k3.trans hY.symm, fun n hn => ⟨h4 n hn, ?_⟩⟩
  rw [hY] at hn
  rw [k4 n hn, Func.bidx_self hn, ← (functl_ev hP _ (xs.pt n, 0) (xs.pt n, 0)).1]
  have hr : Fits ([] ++ xs.batch) n := hn
  have key := (exact_row hP hG (d := o.batch) (by simp) rfl ⟨ravel xs.batch n, ravel_lt hn⟩).2 (hP.ev (xs.pt n, 0))
  have eL : o.batch.L ⟨ravel xs.batch n, ravel_lt hn⟩ = hP.ev (xs.pt n, 0) := by
    show hP.ev (xs.pt (unravel xs.batch (ravel xs.batch n)), _) = _
    rw [unravel_ravel hn]
    rfl
  rw [eL] at key
  exact key

/-! ## The theorems apply -/

/-- A process with two independent white-noise outputs on the natural numbers. -/
noncomputable def exK : K ℕ := .base ⟨[], [], [2], [2]⟩ 0 true fun x y p q => if (x, p) = (y, q) then 1 else 0

/-- Values of both outputs at the points 0, 1, 2. -/
noncomputable def exObs : Obs (white (ℕ × ℕ)) :=
  evalObs (white_regular _) exK [2] ⟨[], [3], fun i => i.getD 0 0⟩ ⟨[3, 2], fun i => i.getD 0 0 + 10 * i.getD 1 0⟩ none

/-- Values of both outputs at the point 7, with noise. -/
noncomputable def exObs' : Obs (white (ℕ × ℕ)) :=
  evalObs (white_regular _) exK [2] ⟨[], [], fun _ => 7⟩ ⟨[2], fun i => i.getD 0 0⟩ (some (fun _ => 1, 1))

lemma exFit : ∀ o ∈ [exObs, exObs'], Fit [] [2] o := by
  intro o ho
  simp only [List.mem_cons, List.not_mem_nil, or_false] at ho
  rcases ho with rfl | rfl
  all_goals exact evalObs_fit (white_regular _) exK (fun _ _ _ _ => rfl) rfl rfl rfl rfl _ rfl _ _

lemma exPD : (jG ([exObs, exObs'].map Obs.batch)).PosDef := by
  refine white_posDef _ (fun i => match i.1.1, i.2.1 with
    | 0, r => ((unravel [2, 3] r).getD 1 0, (unravel [2, 3] r).getD 0 0)
    | _, r => (7, r)) ?_ ?_ ?_
  · rintro ⟨⟨a, ha⟩, r, hr⟩ ⟨⟨b, hb⟩, q, hq⟩ h
    match a, b, ha, hb with
    | 0, 0, _, _ =>
      have hr' : r < 6 := by simpa [exObs, evalObs] using hr
      have hq' : q < 6 := by simpa [exObs, evalObs] using hq
      have h1 : (r / 1 % 3, r / 3) = (q / 1 % 3, q / 3) := by simpa [unravel] using h
      refine Idx.ext' rfl ?_
      obtain ⟨h2, h3⟩ := Prod.mk.inj h1
      show r = q
      omega
    | 0, 1, _, _ =>
      have hr' : r < 6 := by simpa [exObs, evalObs] using hr
      have h1 : (r / 1 % 3, r / 3) = (7, q) := by simpa [unravel] using h
      obtain ⟨h2, -⟩ := Prod.mk.inj h1
      omega
    | 1, 0, _, _ =>
      have hq' : q < 6 := by simpa [exObs, evalObs] using hq
      have h1 : (7, r) = (q / 1 % 3, q / 3) := by simpa [unravel] using h
      obtain ⟨h2, -⟩ := Prod.mk.inj h1
      omega
    | 1, 1, _, _ =>
      have h1 : (7, r) = (7, q) := h
      exact Idx.ext' rfl (Prod.mk.inj h1).2
  · rintro ⟨⟨a, ha⟩, r, hr⟩
    match a, ha with
    | 0, _ =>
      have hr' : r < 6 := by simpa [exObs, evalObs] using hr
      show (white_regular _).ev _ = (white_regular _).ev _
      congr 1
      simp [unravel, ravel]
    | 1, _ =>
      have hr' : r < 2 := by simpa [exObs', evalObs] using hr
      show (white_regular _).ev _ = (white_regular _).ev _
      congr 1
      simp [unravel, ravel]
  · intro b hb
    simp only [List.map_cons, List.map_nil, List.mem_cons, List.not_mem_nil, or_false] at hb
    rcases hb with rfl | rfl
    · exact Matrix.PosSemidef.zero
    · exact Matrix.PosSemidef.one

/-- Two batches of observations of a vector-valued process: the mean at the points of the first one is the observed array. -/
example : ∃ e : Env, e.CholOK ∧ ∃ s v, Post.run e exObs [exObs'] = .ok s ∧
    (s.meanFn ⟨[], [2], fun _ _ => 0, true⟩).np ⟨false, ⟨[], [3], fun i => i.getD 0 0⟩⟩ = .ok v ∧ v.shape = [3, 2] ∧ v.get [2, 1] = 12 := by
  obtain ⟨e, he, -⟩ := LinPDE.Block.exists_env true true
  obtain ⟨s, v, h1, h2, h3, h4⟩ := reproduces_array e he (white_regular _) exObs [exObs'] exFit exPD ⟨[], [2], fun _ _ => 0, true⟩
    (fun _ _ _ => rfl) rfl rfl exK (xs := ⟨[], [3], fun i => i.getD 0 0⟩) rfl (by simp)
    ⟨[3, 2], fun i => i.getD 0 0 + 10 * i.getD 1 0⟩ rfl List.mem_cons_self
  refine ⟨e, he, s, v, h1, h2, h3, (h4 [2, 1] ⟨by norm_num, by norm_num, trivial⟩).trans ?_⟩
  norm_num

/-- A squared-exponential process interpolates four values on a 2 × 2 grid. -/
example : ∃ e : Env, e.CholOK ∧ ∃ s v w, Post.run e (evalObs (scalar_regular
      (PosDef.expquad_spd (d := 2) (l := fun _ => 1) fun _ => one_ne_zero).toPSD fun _ => 5)
      (.base ⟨[2], [2], [], []⟩ 0 true fun x y _ _ => (ExpQuad.EK.expquad fun _ => 1).eval x y) []
      ⟨[2], [2, 2], fun i j => (i.getD j.1 0 : ℝ)⟩ ⟨[2, 2], fun i => i.getD 0 0 - i.getD 1 0⟩ none) [] = .ok s ∧
    (s.meanFn ⟨[2], [], fun _ _ => 5, true⟩).np ⟨false, ⟨[2], [2, 2], fun i j => (i.getD j.1 0 : ℝ)⟩⟩ = .ok v ∧
    (s.covFn e (.base ⟨[2], [2], [], []⟩ 0 true fun x y _ _ => (ExpQuad.EK.expquad fun _ => 1).eval x y) true).np
      ⟨false, ⟨[2], [2, 2], fun i j => (i.getD j.1 0 : ℝ)⟩⟩ none = .ok w ∧ v.get [0, 1] = -1 ∧ w.get [0, 1] = 0 := by
  obtain ⟨e, he, -⟩ := LinPDE.Block.exists_env true true
  obtain ⟨s, v, w, h1, h2, h3, -, -, h6⟩ := interpolates_array (PosDef.expquad_spd (d := 2) (l := fun _ => 1) fun _ => one_ne_zero)
    (fun _ => 5) e he [2] ⟨[2], [2, 2], fun i j => (i.getD j.1 0 : ℝ)⟩ rfl (by simp) (by
      intro n n' hn hn' h
      match n, n', hn, hn' with
      | [a, b], [c, d], _, _ =>
        have e0 : (a : ℝ) = c := congrFun h 0
        have e1 : (b : ℝ) = d := congrFun h 1
        rw [Nat.cast_injective e0, Nat.cast_injective e1]) ⟨[2, 2], fun i => i.getD 0 0 - i.getD 1 0⟩ rfl
  refine ⟨e, he, s, v, w, h1, h2, h3, ?_⟩
  obtain ⟨g1, g2⟩ := h6 [0, 1] ⟨by norm_num, by norm_num, trivial⟩
  refine ⟨g1.trans ?_, g2⟩
  norm_num

/-- Non-vacuity of `posterior_cov` and `posterior_observed`: one value of a squared-exponential process, with the point among those of
the array. -/
example : ∃ e : Env, e.CholOK ∧ ∃ s v w, Post.run e (evalObs (scalar_regular
      (PosDef.expquad_spd (d := 1) (l := fun _ => 1) fun _ => one_ne_zero).toPSD fun _ => 5)
      (.base ⟨[1], [1], [], []⟩ 0 true fun x y _ _ => (ExpQuad.EK.expquad fun _ => 1).eval x y) []
      ⟨[1], [], fun _ _ => 3⟩ ⟨[], fun _ => 8⟩ none) [] = .ok s ∧
    (s.meanFn ⟨[1], [], fun _ _ => 5, true⟩).np ⟨false, ⟨[1], [9], fun i _ => (i.getD 0 0 : ℝ)⟩⟩ = .ok v ∧
    (s.covFn e (.base ⟨[1], [1], [], []⟩ 0 true fun x y _ _ => (ExpQuad.EK.expquad fun _ => 1).eval x y) true).np
      ⟨false, ⟨[1], [9], fun i _ => (i.getD 0 0 : ℝ)⟩⟩ (some ⟨false, ⟨[1], [9], fun i _ => (i.getD 0 0 : ℝ)⟩⟩) = .ok w ∧
    v.get [3] = 8 ∧ w.get [3] = 0 := by
  obtain ⟨e, he, -⟩ := LinPDE.Block.exists_env true true
  have hk := PosDef.expquad_spd (d := 1) (l := fun _ => 1) fun _ => one_ne_zero
  obtain ⟨s, v, w, h⟩ := posterior_observed e he (scalar_regular hk.toPSD fun _ => 5) (inS := [1]) (evalObs (scalar_regular hk.toPSD fun _ => 5)
      (.base ⟨[1], [1], [], []⟩ 0 true fun x y _ _ => (ExpQuad.EK.expquad fun _ => 1).eval x y) []
      ⟨[1], [], fun _ _ => 3⟩ ⟨[], fun _ => 8⟩ none) [] (by
        intro o ho
        obtain rfl := List.mem_singleton.mp ho
        exact evalObs_fit _ (.base ⟨[1], [1], [], []⟩ 0 true fun x y _ _ => (ExpQuad.EK.expquad fun _ => 1).eval x y) (fun _ _ _ _ => rfl)
          rfl rfl rfl rfl _ rfl _ _)
    (batch_posDef hk _ _ (fun _ _ => 3) (fun r q _ => Fin.ext (by
      have h1 : r.val < 1 := r.2
      have h2 : q.val < 1 := q.2
      omega)) (fun _ => rfl) rfl) ⟨[1], [], fun _ _ => 5, true⟩
    (.base ⟨[1], [1], [], []⟩ 0 true fun x y _ _ => (ExpQuad.EK.expquad fun _ => 1).eval x y) true (fun _ => rfl) rfl rfl (fun _ _ => rfl) rfl rfl rfl
    (x := ⟨[1], [9], fun i _ => (i.getD 0 0 : ℝ)⟩) rfl (by simp) List.mem_cons_self rfl ⟨0, by simp [evalObs]⟩ (n := [3])
    ⟨by norm_num, trivial⟩ (by
      show (scalar_regular hk.toPSD fun _ => 5).ev _ = (scalar_regular hk.toPSD fun _ => 5).ev _
      congr 1)
  exact ⟨e, he, s, v, w, h⟩

end LinPDE.PostView
