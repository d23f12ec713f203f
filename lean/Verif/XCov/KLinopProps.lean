import Verif.XCov.KLinop

/-!
# C76: the operator view of a covariance function contains the values of its array view
-/

namespace LinPDE.XCov
open LinPDE.Nd LinPDE.Ops LinPDE.CovAlg LinPDE.Covar
variable {X : Type}

/-- `m` is the matrix with rows over the outputs `o0`, then the points `x0`, columns over `o1`, then `x1`, and entries `d`. -/
def KMat (o0 o1 : Shp) (x0 x1 : Pts X) (d : KVal X) (m : Nd.Arr ℝ) : Prop :=
  m.shape = [o0.prod * x0.batch.prod, o1.prod * x1.batch.prod] ∧
    ∀ p n q l, Fits o0 p → Fits x0.batch n → Fits o1 q → Fits x1.batch l →
      m.get [ravel (o0 ++ x0.batch) (p ++ n), ravel (o1 ++ x1.batch) (q ++ l)] = d (x0.pt n) (x1.pt l) (ravel o0 p) (ravel o1 q)

lemma idx_split {s b : Shp} {p n : List ℕ} (hp : Fits s p) (hn : Fits b n) :
    ravel (s ++ b) (p ++ n) / b.prod = ravel s p ∧ ravel (s ++ b) (p ++ n) % b.prod = ravel b n := by
  have hlt := ravel_lt hn
  rw [ravel_append hp.length]
  have hb : 0 < b.prod := by omega
  constructor
  · rw [mul_comm, Nat.mul_add_div hb, Nat.div_eq_of_lt hlt, add_zero]
  · rw [mul_comm, Nat.mul_add_mod, Nat.mod_eq_of_lt hlt]

lemma evalAll_eq (j : Bool) : ∀ ks : List (K X), evalAll j ks = ks.map (K.evalG j)
  | [] => rfl
  | k :: ks => by rw [evalAll, evalAll_eq j ks]; rfl

lemma kSum_holds {o0 o1 : Shp} {x0 x1 : Pts X} {sh : KSh} {ks : List (K X)} {ms : List (Nd.Arr ℝ)} (hne : ks ≠ [])
    (h : List.Forall₂ (fun (k : K X) m => KMat o0 o1 x0 x1 k.eval m) ks ms) :
    ∃ a, matSum ms = .ok a ∧ KMat o0 o1 x0 x1 (K.sum sh ks).eval a := by
  cases ms with
  | nil => cases h; exact absurd rfl hne
  | cons m ms =>
    have hs : ∀ n ∈ m :: ms, n.shape = [o0.prod * x0.batch.prod, o1.prod * x1.batch.prod] := fun n hn => by
      obtain ⟨c, _, hc⟩ := forall2_mem' h n hn
      exact hc.1
    obtain ⟨a, h1, h2, h3⟩ := matFold_ok _ ms m (hs m List.mem_cons_self) fun n hn => hs n (List.mem_cons_of_mem _ hn)
    refine ⟨a, h1, h2, fun p n q l hp hn hq hl => ?_⟩
    rw [h3]
    have : ∀ j, m.get j + (ms.map fun n' => n'.get j).sum = ((m :: ms).map fun n' => n'.get j).sum := by simp
    rw [this, map_sum_forall2 (f := fun k : K X => k.eval (x0.pt n) (x1.pt l) (ravel o0 p) (ravel o1 q))
      (h.imp fun c a ha => ha.2 p n q l hp hn hq hl)]
    simp only [K.eval, K.evalG, evalAll_eq, List.map_map]
    rfl

/-- The parts of a stack or of independent outputs: all blocks have the same shape. -/
lemma blocks_shape {x0 x1 : Pts X} {ks : List (K X)} {m : Nd.Arr ℝ} {ms : List (Nd.Arr ℝ)}
    (h : List.Forall₂ (fun (k : K X) m => KMat [] [] x0 x1 k.eval m) ks (m :: ms)) :
    m.shape = [x0.batch.prod, x1.batch.prod] ∧ ((m :: ms).all fun n => n.shape = m.shape) = true := by
  have hs : ∀ n ∈ m :: ms, n.shape = [x0.batch.prod, x1.batch.prod] := fun n hn => by
    obtain ⟨c, _, hc⟩ := forall2_mem' h n hn
    simpa using hc.1
  refine ⟨hs m List.mem_cons_self, ?_⟩
  rw [List.all_eq_true]
  intro n hn
  simp only [decide_eq_true_eq]
  rw [hs n hn, hs m List.mem_cons_self]

lemma blocks_get {x0 x1 : Pts X} {ks : List (K X)} {ms : List (Nd.Arr ℝ)}
    (h : List.Forall₂ (fun (k : K X) m => KMat [] [] x0 x1 k.eval m) ks ms) {t : ℕ} (ht : t < ks.length) :
    ∃ k a, ks[t]? = some k ∧ ms[t]? = some a ∧ ∀ n l, Fits x0.batch n → Fits x1.batch l →
      a.get [ravel x0.batch n, ravel x1.batch l] = k.eval (x0.pt n) (x1.pt l) 0 0 := by
  obtain ⟨a, ha, hh⟩ := forall2_getElem? h (List.getElem?_eq_getElem ht)
  refine ⟨_, a, List.getElem?_eq_getElem ht, ha, fun n l hn hl => ?_⟩
  simpa [ravel] using hh.2 [] n [] l trivial hn trivial hl

lemma kStack_holds {x0 x1 : Pts X} {i0 i1 s : Shp} {idx : Bool} {ks : List (K X)} {ms : List (Nd.Arr ℝ)} (hne : ks ≠ [])
    (hlen : ks.length = s.prod) (h : List.Forall₂ (fun (k : K X) m => KMat [] [] x0 x1 k.eval m) ks ms) :
    ∃ a, blockRowCol idx ms = .ok a ∧
      KMat (K.stack i0 i1 s idx ks).sh.out0 (K.stack i0 i1 s idx ks).sh.out1 x0 x1 (K.stack i0 i1 s idx ks).eval a := by
  have hl : ms.length = s.prod := by rw [← hlen]; exact h.length_eq.symm
  have hev : ∀ x y p q (k : K X), ks[if idx then q else p]? = some k → (K.stack i0 i1 s idx ks).eval x y p q = k.eval x y 0 0 := by
    intro x y p q k hk
    simp only [K.eval, K.evalG, evalAll_eq, List.getElem?_map, hk, Bool.false_eq_true, if_false, Option.map_some, Option.getD_some]
  cases ms with
  | nil => cases h; exact absurd rfl hne
  | cons m ms =>
    obtain ⟨hm, hall⟩ := blocks_shape h
    unfold blockRowCol
    simp only [hall, if_true]
    cases idx
    · refine ⟨_, rfl, ?_, fun p n q l hp hn hq hl' => ?_⟩
      · simp only [Bool.false_eq_true, if_false, hm, hl, K.sh]
        simp
      · have hp' : Fits s p := by simpa [K.sh] using hp
        have hq' : q = [] := fits_nil' (by simpa [K.sh] using hq)
        subst hq'
        obtain ⟨k, a, hk, ha, hh⟩ := blocks_get h (t := ravel s p) (by rw [hlen]; exact ravel_lt hp')
        obtain ⟨i1, i2⟩ := idx_split hp' hn
        rw [hev _ _ _ _ k (by simpa [K.sh] using hk)]
        simp only [Bool.false_eq_true, if_false, hm, List.getD_cons_zero, List.getD_cons_succ, K.sh, i1, i2, ha, Option.map_some,
          Option.getD_some]
        simpa [ravel] using hh n l hn hl'
    · refine ⟨_, rfl, ?_, fun p n q l hp hn hq hl' => ?_⟩
      · simp only [if_true, hm, hl, K.sh]
        simp
      · have hq' : Fits s q := by simpa [K.sh] using hq
        have hp' : p = [] := fits_nil' (by simpa [K.sh] using hp)
        subst hp'
        obtain ⟨k, a, hk, ha, hh⟩ := blocks_get h (t := ravel s q) (by rw [hlen]; exact ravel_lt hq')
        obtain ⟨i1, i2⟩ := idx_split hq' hl'
        rw [hev _ _ _ _ k (by simpa [K.sh] using hk)]
        simp only [if_true, hm, List.getD_cons_zero, List.getD_cons_succ, K.sh, i1, i2, ha, Option.map_some,
          Option.getD_some]
        simpa [ravel] using hh n l hn hl'

lemma kImo_holds {x0 x1 : Pts X} {i : Shp} {ks : List (K X)} {ms : List (Nd.Arr ℝ)} (hne : ks ≠ [])
    (h : List.Forall₂ (fun (k : K X) m => KMat [] [] x0 x1 k.eval m) ks ms) :
    ∃ a, blockDiagArr ms = .ok a ∧ KMat [ks.length] [ks.length] x0 x1 (K.imo i ks).eval a := by
  have hl : ms.length = ks.length := h.length_eq.symm
  cases ms with
  | nil => cases h; exact absurd rfl hne
  | cons m ms =>
    obtain ⟨hm, hall⟩ := blocks_shape h
    unfold blockDiagArr
    simp only [hall, if_true]
    refine ⟨_, rfl, ?_, fun p n q l hp hn hq hl' => ?_⟩
    · simp only [hm, hl]
      simp
    · obtain ⟨k, a, hk, ha, hh⟩ := blocks_get h (t := ravel [ks.length] p) (by simpa using ravel_lt hp)
      obtain ⟨i1, i2⟩ := idx_split hp hn
      obtain ⟨j1, j2⟩ := idx_split hq hl'
      simp only [hm, List.getD_cons_zero, List.getD_cons_succ, i1, i2, j1, j2, ha, Option.map_some, Option.getD_some]
      simp only [K.eval, K.evalG, evalAll_eq, List.getElem?_map, hk, Option.map_some, Option.getD_some]
      split_ifs with hpq
      · exact hh n l hn hl'
      · rfl

mutual
/-- Every well-formed covariance function has an operator view with the documented rows and columns. -/
lemma kview_holds (x0 : Pts X) (x1 : Option (Pts X)) : ∀ k : K X, k.WF → x0.inS = k.sh.in0 → (x1.getD x0).inS = k.sh.in1 →
    ∃ m, kview k x0 x1 = .ok m ∧ KMat k.sh.out0 k.sh.out1 x0 (x1.getD x0) k.eval m
  | .base sh c j ev, _, h0, h1 => by
    obtain ⟨m, e1, e2, e3⟩ := kLinop_get (.base sh c j ev) x0 (x1.getD x0) h0 h1
    rw [kview]
    exact ⟨m, e1, by rw [e2]; simp, e3⟩
  | .scaled k c, hw, h0, h1 => by
    obtain ⟨m, e1, e2, e3⟩ := kview_holds x0 x1 k hw h0 h1
    rw [kview, e1]
    refine ⟨_, rfl, e2, fun p n q l hp hn hq hl => ?_⟩
    have := e3 p n q l hp hn hq hl
    show c * m.get _ = _
    rw [K.sh] at *
    rw [this]
    simp only [K.eval, K.evalG]
  | .sum sh ks, hw, h0, h1 => by
    obtain ⟨hne, hsh, hall⟩ := hw
    obtain ⟨ms, e1, e2⟩ := kviewAll_holds x0 x1 ks hall (fun k hk => by rw [hsh k hk]; exact h0) (fun k hk => by rw [hsh k hk]; exact h1)
    have e2' := forall2_imp_mem (S := fun (k : K X) m => KMat sh.out0 sh.out1 x0 (x1.getD x0) k.eval m) e2 fun k hk a ha => by
      rwa [hsh k hk] at ha
    obtain ⟨a, e3, e4⟩ := kSum_holds (sh := sh) hne e2'
    rw [kview, e1]
    exact ⟨a, e3, e4⟩
  | .stack i0 i1 s idx ks, hw, h0, h1 => by
    obtain ⟨hlen, hne, hsh, hall⟩ := hw
    obtain ⟨ms, e1, e2⟩ := kviewAll_holds x0 x1 ks hall (fun k hk => by rw [hsh k hk]; exact h0) (fun k hk => by rw [hsh k hk]; exact h1)
    have e2' := forall2_imp_mem (S := fun (k : K X) m => KMat [] [] x0 (x1.getD x0) k.eval m) e2 fun k hk a ha => by
      rwa [hsh k hk] at ha
    obtain ⟨a, e3, e4⟩ := kStack_holds (i0 := i0) (i1 := i1) (idx := idx) hne hlen e2'
    rw [kview, e1]
    exact ⟨a, e3, e4⟩
  | .imo i ks, hw, h0, h1 => by
    obtain ⟨hne, hsh, hall⟩ := hw
    obtain ⟨ms, e1, e2⟩ := kviewAll_holds x0 x1 ks hall (fun k hk => by rw [hsh k hk]; exact h0) (fun k hk => by rw [hsh k hk]; exact h1)
    have e2' := forall2_imp_mem (S := fun (k : K X) m => KMat [] [] x0 (x1.getD x0) k.eval m) e2 fun k hk a ha => by
      rwa [hsh k hk] at ha
    obtain ⟨a, e3, e4⟩ := kImo_holds (i := i) hne e2'
    rw [kview, e1]
    exact ⟨a, e3, e4⟩
  | .zero sh, _, h0, h1 => by
    have h0' : x0.inS = sh.in0 := h0
    have h1' : (x1.getD x0).inS = sh.in1 := h1
    rw [kview, if_neg (by simp [h0', h1'])]
    refine ⟨_, rfl, ?_, fun p n q l hp hn hq hl => ?_⟩
    · cases x1 <;> rfl
    · simp only [K.eval, K.evalG]
/-- Every part. -/
lemma kviewAll_holds (x0 : Pts X) (x1 : Option (Pts X)) : ∀ ks : List (K X), allWF ks → (∀ k ∈ ks, x0.inS = k.sh.in0) →
    (∀ k ∈ ks, (x1.getD x0).inS = k.sh.in1) →
    ∃ ms, kviewAll ks x0 x1 = .ok ms ∧
      List.Forall₂ (fun (k : K X) m => KMat k.sh.out0 k.sh.out1 x0 (x1.getD x0) k.eval m) ks ms
  | [], _, _, _ => ⟨[], by rw [kviewAll], .nil⟩
  | k :: ks, hw, h0, h1 => by
    obtain ⟨m, e1, e2⟩ := kview_holds x0 x1 k hw.1 (h0 k List.mem_cons_self) (h1 k List.mem_cons_self)
    obtain ⟨ms, e3, e4⟩ := kviewAll_holds x0 x1 ks hw.2 (fun k hk => h0 k (List.mem_cons_of_mem _ hk)) fun k hk => h1 k (List.mem_cons_of_mem _ hk)
    refine ⟨m :: ms, ?_, .cons e2 e4⟩
    rw [kviewAll, e1, e3]
    rfl
end

/-- C76: `k.linop(x0, x1)` exists for every covariance function and all arrays of points of the right shapes, and contains the
values of `k(x0[:, None], x1[None, :])`: rows run over the outputs in C order, then the points, and so do the columns. -/
theorem linop_eq_array (k : K X) (hw : k.WF) (x0 : Pts X) (x1 : Option (Pts X)) (h0 : x0.inS = k.sh.in0)
    (h1 : (x1.getD x0).inS = k.sh.in1) :
    ∃ m, kview k x0 x1 = .ok m ∧
      m.shape = [k.sh.out0.prod * x0.batch.prod, k.sh.out1.prod * (x1.getD x0).batch.prod] ∧
      ∀ p n q l, Fits k.sh.out0 p → Fits x0.batch n → Fits k.sh.out1 q → Fits (x1.getD x0).batch l →
        m.get [ravel (k.sh.out0 ++ x0.batch) (p ++ n), ravel (k.sh.out1 ++ (x1.getD x0).batch) (q ++ l)] =
          (kCall k (x0.batch ++ (x1.getD x0).batch) (fun i => x0.pt (i.take x0.batch.length))
            fun i => (x1.getD x0).pt (i.drop x0.batch.length)).get (n ++ l ++ p ++ q) := by
  obtain ⟨m, e1, e2, e3⟩ := kview_holds x0 x1 k hw h0 h1
  refine ⟨m, e1, e2, fun p n q l hp hn hq hl => ?_⟩
  rw [e3 p n q l hp hn hq hl]
  have hnl : (n ++ l).length = (x0.batch ++ (x1.getD x0).batch).length := by simp [hn.length, hl.length]
  have a1 : (n ++ l ++ p ++ q).take (x0.batch ++ (x1.getD x0).batch).length = n ++ l := by
    rw [List.append_assoc (n ++ l) p q]; exact take_app hnl.symm
  have a2 : (n ++ l ++ p ++ q).drop (x0.batch ++ (x1.getD x0).batch).length = p ++ q := by
    rw [List.append_assoc (n ++ l) p q]; exact drop_app hnl.symm
  have a3 : (n ++ l ++ p ++ q).drop ((x0.batch ++ (x1.getD x0).batch).length + k.sh.out0.length) = q := by
    rw [← List.drop_drop, a2]; exact drop_app hp.length.symm
  show _ = k.eval (x0.pt (List.take _ (List.take _ _))) ((x1.getD x0).pt (List.drop _ (List.take _ _))) (ravel _ (List.take _ (List.drop _ _)))
    (ravel _ (List.drop _ _))
  rw [a1, a2, a3, take_app hn.length.symm, drop_app hn.length.symm, take_app hp.length.symm]

/-- C76: the operator used for point evaluations of a process (`linfunctls/_dirac.py:155, 285`, `_evaluation.py`) has the
entries of the operator that the covariance function's own class builds. -/
theorem linop_eq_dense (k : K X) (hw : k.WF) (x0 x1 : Pts X) (h0 : x0.inS = k.sh.in0) (h1 : x1.inS = k.sh.in1) :
    ∃ m d, kview k x0 (some x1) = .ok m ∧ kLinop k x0 x1 = .ok d ∧ m.shape = d.shape ∧
      ∀ r c, r < k.sh.out0.prod * x0.batch.prod → c < k.sh.out1.prod * x1.batch.prod → m.get [r, c] = d.get [r, c] := by
  obtain ⟨m, e1, e2, e3⟩ := kview_holds x0 (some x1) k hw h0 h1
  obtain ⟨d, f1, f2, f3⟩ := kLinop_get k x0 x1 h0 h1
  refine ⟨m, d, e1, f1, by rw [e2, f2]; simp, fun r c hr hc => ?_⟩
  have hr' : r < (k.sh.out0 ++ x0.batch).prod := by simpa using hr
  have hc' : c < (k.sh.out1 ++ x1.batch).prod := by simpa using hc
  obtain ⟨p, n, er, hp, hn⟩ := fits_split (fits_unravel hr')
  obtain ⟨q, l, ec, hq, hl⟩ := fits_split (fits_unravel hc')
  have hr2 := ravel_unravel hr'
  have hc2 := ravel_unravel hc'
  rw [er] at hr2
  rw [ec] at hc2
  have a := e3 p n q l hp hn hq hl
  have b := f3 p n q l hp hn hq hl
  simp only [Option.getD_some] at a
  rw [hr2, hc2] at a b
  rw [a, b]

/-- C76: symmetry: exchanging the point arrays transposes the operator view of a symmetric covariance function. -/
theorem linop_transpose (k : K X) (hw : k.WF) (hs : k.sh.in0 = k.sh.in1) (ho : k.sh.out0 = k.sh.out1)
    (hk : ∀ x y p q, p < k.sh.out0.prod → q < k.sh.out1.prod → k.eval x y p q = k.eval y x q p) (x0 x1 : Pts X)
    (h0 : x0.inS = k.sh.in0) (h1 : x1.inS = k.sh.in1) :
    ∃ m m', kview k x0 (some x1) = .ok m ∧ kview k x1 (some x0) = .ok m' ∧
      ∀ r c, r < k.sh.out0.prod * x0.batch.prod → c < k.sh.out1.prod * x1.batch.prod → m.get [r, c] = m'.get [c, r] := by
  obtain ⟨m, e1, e2, e3⟩ := kview_holds x0 (some x1) k hw h0 h1
  obtain ⟨m', f1, f2, f3⟩ := kview_holds x1 (some x0) k hw (h1.trans hs.symm) (h0.trans hs)
  refine ⟨m, m', e1, f1, fun r c hr hc => ?_⟩
  have hr' : r < (k.sh.out0 ++ x0.batch).prod := by simpa using hr
  have hc' : c < (k.sh.out1 ++ x1.batch).prod := by simpa using hc
  obtain ⟨p, n, er, hp, hn⟩ := fits_split (fits_unravel hr')
  obtain ⟨q, l, ec, hq, hl⟩ := fits_split (fits_unravel hc')
  have hr2 := ravel_unravel hr'
  have hc2 := ravel_unravel hc'
  rw [er] at hr2
  rw [ec] at hc2
  have a := e3 p n q l hp hn hq hl
  have b := f3 q l p n (ho ▸ hq) hl (ho ▸ hp) hn
  simp only [Option.getD_some] at a b
  rw [hr2, hc2, hk _ _ _ _ (ravel_lt hp) (ravel_lt hq)] at a
  have b1 : ravel (k.sh.out0 ++ x1.batch) (q ++ l) = c := by rw [ho]; exact hc2
  have b2 : ravel (k.sh.out1 ++ x0.batch) (p ++ n) = r := by rw [← ho]; exact hr2
  rw [b1, b2] at b
  rw [a, b, ho]

/-- Two independent outputs on two points and one point: a 4 × 2 block-diagonal matrix. -/
example : ∃ m, kview (K.imo [] [.base ⟨[], [], [], []⟩ 0 true fun x y _ _ => x * y, .scaled (.base ⟨[], [], [], []⟩ 1 true fun x y _ _ => x + y) 2])
    ⟨[], [2], fun i => (i.getD 0 0 : ℝ) + 1⟩ (some ⟨[], [1], fun _ => 3⟩) = .ok m ∧ m.shape = [4, 2] ∧ m.get [1, 0] = 6 ∧ m.get [1, 1] = 0 ∧
      m.get [3, 1] = 10 := by
  obtain ⟨m, e1, e2, e3⟩ := linop_eq_array (K.imo [] [.base ⟨[], [], [], []⟩ 0 true fun x y _ _ => x * y,
      .scaled (.base ⟨[], [], [], []⟩ 1 true fun x y _ _ => x + y) 2]) (by simp [K.WF, allWF, K.sh])
    ⟨[], [2], fun i => (i.getD 0 0 : ℝ) + 1⟩ (some ⟨[], [1], fun _ => 3⟩) rfl rfl
  refine ⟨m, e1, by simpa [K.sh] using e2, ?_, ?_, ?_⟩
  · have := e3 [0] [1] [0] [0] (by simp [Fits, K.sh]) (by simp [Fits]) (by simp [Fits, K.sh]) (by simp [Fits])
    simp [ravel, kCall, K.sh, K.eval, K.evalG, evalAll] at this
    rw [this]; norm_num
  · have := e3 [0] [1] [1] [0] (by simp [Fits, K.sh]) (by simp [Fits]) (by simp [Fits, K.sh]) (by simp [Fits])
    simpa [ravel, kCall, K.sh, K.eval, K.evalG, evalAll] using this
  · have := e3 [1] [1] [1] [0] (by simp [Fits, K.sh]) (by simp [Fits]) (by simp [Fits, K.sh]) (by simp [Fits])
    simp [ravel, kCall, K.sh, K.eval, K.evalG, evalAll] at this
    rw [this]; norm_num

/-- A symmetric covariance function on two and three points. -/
example : ∃ m m', kview (K.imo [] [.base ⟨[], [], [], []⟩ 0 true fun x y _ _ => x * y, .base ⟨[], [], [], []⟩ 1 true fun x y _ _ => x + y])
    ⟨[], [2], fun i => (i.getD 0 0 : ℝ) + 1⟩ (some ⟨[], [3], fun i => (i.getD 0 0 : ℝ) - 3⟩) = .ok m ∧
    kview (K.imo [] [.base ⟨[], [], [], []⟩ 0 true fun x y _ _ => x * y, .base ⟨[], [], [], []⟩ 1 true fun x y _ _ => x + y])
      ⟨[], [3], fun i => (i.getD 0 0 : ℝ) - 3⟩ (some ⟨[], [2], fun i => (i.getD 0 0 : ℝ) + 1⟩) = .ok m' ∧ m.get [3, 5] = m'.get [5, 3] := by
  obtain ⟨m, m', h1, h2, h3⟩ := linop_transpose (K.imo [] [.base ⟨[], [], [], []⟩ 0 true fun x y _ _ => x * y,
      .base ⟨[], [], [], []⟩ 1 true fun x y _ _ => x + y]) (by simp [K.WF, allWF, K.sh]) rfl rfl
    (by
      intro x y p q hp hq
      simp only [K.sh, List.length_cons, List.length_nil, List.prod_cons, List.prod_nil] at hp hq
      have hp' : p = 0 ∨ p = 1 := by omega
      have hq' : q = 0 ∨ q = 1 := by omega
      rcases hp' with rfl | rfl <;> rcases hq' with rfl | rfl <;> simp [K.eval, K.evalG, evalAll] <;> ring)
    ⟨[], [2], fun i => (i.getD 0 0 : ℝ) + 1⟩ ⟨[], [3], fun i => (i.getD 0 0 : ℝ) - 3⟩ rfl rfl
  exact ⟨m, m', h1, h2, h3 3 5 (by simp [K.sh]) (by simp [K.sh])⟩

/-! ## The JAX view of cross-covariances -/

mutual
/-- The class has a JAX view other than a stack's. -/
def PV.HasJax : PV X → Prop
  | .base .. => True
  | .point .. => True
  | .quad .. => False
  | .scaled c _ => PV.HasJax c
  | .sum _ _ _ _ cs => hasJaxAll cs
  | .linop .. => False
  | .stack .. => False
  | .zero .. => True
  | .param .. => False
/-- Every part. -/
def hasJaxAll : List (PV X) → Prop
  | [] => True
  | c :: cs => PV.HasJax c ∧ hasJaxAll cs
end

mutual
/-- C76: scaled sums of closed forms, point evaluations and zeros have equal JAX and NumPy views, including the refusals. -/
theorem pv_jax_partial (x : Pts X) : ∀ c : PV X, c.HasJax → c.callG true x = c.call x
  | .base .., _ => by show PV.callG true _ x = PV.callG false _ x; rw [PV.callG, PV.callG]
  | .point .., _ => by show PV.callG true _ x = PV.callG false _ x; rw [PV.callG, PV.callG]
  | .scaled c s, h => by
    have := pv_jax_partial x c h
    show PV.callG true _ x = PV.callG false _ x; rw [PV.callG, PV.callG, this]
  | .sum i o r rev cs, h => by
    have := pvAll_jax x cs h
    show PV.callG true _ x = PV.callG false _ x; rw [PV.callG, PV.callG, this]
  | .zero .., _ => by show PV.callG true _ x = PV.callG false _ x; rw [PV.callG, PV.callG]
/-- Every part. -/
lemma pvAll_jax (x : Pts X) : ∀ cs : List (PV X), hasJaxAll cs → callAllG true cs x = callAllG false cs x
  | [], _ => by rw [callAllG, callAllG]
  | c :: cs, h => by
    have h1 := pv_jax_partial x c h.1
    have h2 := pvAll_jax x cs h.2
    rw [callAllG, callAllG, h1, h2]
end

/-- C76: the other classes have no JAX view: quadrature, operators applied to the vector, parametric covariances. -/
theorem pv_jax_refuses (x : Pts X) : ∀ c : PV X, ((∃ k o T rev, c = .quad k o T rev) ∨ (∃ A d, c = .linop A d) ∨
    ∃ i C b n rev, c = .param i C b n rev) → x.inS = c.inS → c.callG true x = .error .notImplemented := by
  rintro c (⟨k, o, T, rev, rfl⟩ | ⟨A, d, rfl⟩ | ⟨i, C, b, n, rev, rfl⟩) h <;>
  · rw [PV.callG]
    unfold PV.checked
    rw [if_neg (by simpa using h)]
    rfl

/-- A scaled sum of a closed form and a zero; a numerical integral has no JAX view. -/
example : (PV.scaled (.sum [] [] [] false [.base [] [] [] false fun x _ _ => x, .zero [] [] [] false]) 3).HasJax ∧
    (PV.quad (.base ⟨[], [], [], []⟩ 0 true fun x y _ _ => x * y) [] { toFun := fun g _ => g 1 0, map_add' := fun _ _ => rfl, map_smul' := fun _ _ => rfl } false : PV ℝ).callG true ⟨[], [], fun _ => 2⟩ =
      .error .notImplemented :=
  ⟨⟨trivial, trivial, trivial⟩, pv_jax_refuses _ _ (.inl ⟨_, _, _, _, rfl⟩) rfl⟩

end LinPDE.XCov
