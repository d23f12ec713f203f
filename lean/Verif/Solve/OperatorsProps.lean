import Verif.Solve.Operators
import Verif.GP.JetTensor

/-! # C73: conditioning on several differential operators -/

namespace LinPDE.Solve
open LinPDE.GP LinPDE.Block Matrix

variable {d : ℕ} {I : Set (Ix d)} {K : Ix d → Pt d → Ix d → Pt d → ℝ} {κ : Type}

/-- An observation of a nonzero multiple of one of the operators `base k`. -/
structure Keyed (base : κ → I →₀ ℝ) (o : OpObs I) (k : κ) : Prop where
  op : ∃ s : ℝ, s ≠ 0 ∧ o.a = s • base k
  noise : ∀ z, o.noise = some z → 0 ≤ z.2

/-- The points observed with one kind of operator. -/
def keyPts [DecidableEq κ] (os : List (OpObs I × κ)) (k : κ) : List (Pt d) := (os.filter fun o => o.2 = k).flatMap fun o => o.1.X

/-- The list of batches. -/
noncomputable abbrev batches (h : JetKernel I K) (m : jetF I) (os : List (OpObs I × κ)) : List (Batch (h.prior m)) :=
  os.map fun o => o.1.batch h m

lemma batches_get (h : JetKernel I K) (m : jetF I) (os : List (OpObs I × κ)) (q : Fin (batches h m os).length) :
    (batches h m os).get q = (os.get (q.cast (List.length_map _))).1.batch h m := by
  simp

/-- The observation behind an index. -/
noncomputable def oAt (h : JetKernel I K) (m : jetF I) (os : List (OpObs I × κ)) (i : Idx (batches h m os)) : OpObs I × κ :=
  os.get (i.1.cast (List.length_map _))

/-- The position inside the observation. -/
noncomputable def pAt (h : JetKernel I K) (m : jetF I) (os : List (OpObs I × κ)) (i : Idx (batches h m os)) : Fin (oAt h m os i).1.X.length :=
  i.2.cast (by rw [batches_get]; rfl)

/-- The point behind an index. -/
noncomputable def xAt (h : JetKernel I K) (m : jetF I) (os : List (OpObs I × κ)) (i : Idx (batches h m os)) : Pt d :=
  (oAt h m os i).1.X.get (pAt h m os i)

lemma jL_ops (h : JetKernel I K) (m : jetF I) (os : List (OpObs I × κ)) (i : Idx (batches h m os)) :
    jL (batches h m os) i = h.op m (oAt h m os i).1.a (xAt h m os i) := by
  have key : ∀ (b : Batch (h.prior m)) (o : OpObs I) (hb : b = o.batch h m) (j : Fin b.n),
      b.L j = h.op m o.a (o.X.get (j.cast (by rw [hb]; rfl))) := by
    intro b o hb j
    subst hb
    rfl
  exact key _ _ (batches_get h m os i.1) i.2

lemma keyPts_injective [DecidableEq κ] (h : JetKernel I K) (m : jetF I) (os : List (OpObs I × κ)) (hn : ∀ k, (keyPts os k).Nodup)
    {i j : Idx (batches h m os)} (ho : (oAt h m os i).2 = (oAt h m os j).2) (hx : xAt h m os i = xAt h m os j) : i = j := by
  have h1 := hn (oAt h m os i).2
  unfold keyPts at h1
  rw [List.nodup_flatMap, List.pairwise_filter] at h1
  obtain ⟨h1, h2⟩ := h1
  rw [List.pairwise_iff_get] at h2
  have hq : i.1 = j.1 := by
    rcases lt_trichotomy i.1 j.1 with hlt | heq | hlt
    · have := h2 (i.1.cast (List.length_map _)) (j.1.cast (List.length_map _)) hlt (by simp [oAt]) (decide_eq_true ho.symm)
      refine absurd (this (List.get_mem (oAt h m os i).1.X (pAt h m os i))) ?_
      rw [show (oAt h m os i).1.X.get (pAt h m os i) = _ from hx]
      exact not_not.mpr (List.get_mem (oAt h m os j).1.X (pAt h m os j))
    · exact heq
    · have := h2 (j.1.cast (List.length_map _)) (i.1.cast (List.length_map _)) hlt (decide_eq_true ho.symm) (by simp [oAt])
      refine absurd (this (List.get_mem (oAt h m os j).1.X (pAt h m os j))) ?_
      rw [show (oAt h m os j).1.X.get (pAt h m os j) = _ from hx.symm]
      exact not_not.mpr (List.get_mem (oAt h m os i).1.X (pAt h m os i))
  obtain ⟨q, i⟩ := i
  obtain ⟨r, j⟩ := j
  obtain rfl : q = r := hq
  congr 1
  have h3 : ((oAt h m os ⟨q, i⟩).1.X).Nodup := h1 _ (by
    rw [List.mem_filter]
    exact ⟨List.get_mem _ _, by simp⟩)
  have h4 := List.nodup_iff_injective_get.mp h3 hx
  have h5 : (pAt h m os ⟨q, i⟩).1 = (pAt h m os ⟨q, j⟩).1 := by rw [h4]
  exact Fin.ext h5

lemma ops_independent [DecidableEq κ] (h : JetKernel I K) (m : jetF I) {base : κ → I →₀ ℝ} (hb : LinearIndependent ℝ base)
    (os : List (OpObs I × κ)) (hk : ∀ o ∈ os, Keyed base o.1 o.2) (hn : ∀ k, (keyPts os k).Nodup) (z : Pt d) :
    LinearIndependent ℝ fun i : {i : Idx (batches h m os) // xAt h m os i = z} => (oAt h m os i.1).1.a := by
  have hs : ∀ i : {i : Idx (batches h m os) // xAt h m os i = z}, ∃ s : ℝ, s ≠ 0 ∧ (oAt h m os i.1).1.a = s • base (oAt h m os i.1).2 :=
    fun i => (hk _ (List.get_mem _ _)).op
  choose s hs0 hs using hs
  have h1 : LinearIndependent ℝ fun i : {i : Idx (batches h m os) // xAt h m os i = z} => base (oAt h m os i.1).2 :=
    hb.comp (fun i : {i : Idx (batches h m os) // xAt h m os i = z} => (oAt h m os i.1).2) fun i j hij =>
      Subtype.ext (keyPts_injective h m os hn hij (i.2.trans j.2.symm))
  have h2 := h1.units_smul fun i => Units.mk0 (s i) (hs0 i)
  convert h2 using 1
  funext i
  exact hs i

/-- C73: a process with strict kernel can be conditioned, one call after the other, on nonzero multiples of linearly independent
differential operators, if no operator is observed twice at the same point. The posterior mean has all derivatives, it satisfies
`L f = Y - b` wherever `b` is not random, and these quantities are not left uncertain. -/
theorem operators_solved [DecidableEq κ] (h : JetKernel I K) (hs : Strict I K) (m : jetF I) (e : Env) (he : e.CholOK) {base : κ → I →₀ ℝ}
    (hb : LinearIndependent ℝ base) (o : OpObs I × κ) (os : List (OpObs I × κ)) (hk : ∀ w ∈ o :: os, Keyed base w.1 w.2)
    (hn : ∀ k, (keyPts (o :: os) k).Nodup) :
    ∃ c, condAll e h m o.1 (os.map Prod.fst) = .ok c ∧ ∃ J, HasJet I c.mean J ∧ ∀ w ∈ o :: os, (∀ z, w.1.noise = some z → z.2 = 0) →
      ∀ (i : ℕ) (hi : i < w.1.X.length),
        (w.1.a.sum fun α t => t * J α w.1.X[i]) = w.1.Y.getD i 0 - (w.1.noise.elim 0 fun z => z.1.getD i 0) ∧
        c.functlCov e (fun _ : Fin 1 => h.op m w.1.a w.1.X[i]) = .ok 0 := by
  have hN : NoisePSD (batches h m (o :: os)) := by
    intro b hb
    obtain ⟨w, hw, rfl⟩ := List.mem_map.mp hb
    unfold Batch.noiseCov
    cases hv : w.1.noise with
    | none =>
      simp only [OpObs.batch, hv, Option.map_none]
      exact Matrix.PosSemidef.zero
    | some v =>
      simp only [OpObs.batch, hv, Option.map_some]
      exact Matrix.PosSemidef.one.smul ((hk w hw).noise v hv)
  obtain ⟨c, hc, -, J, hJ, hi⟩ := collocation_noise h hs m e he (o.1.batch h m) (batches h m os)
    (fun i => (oAt h m (o :: os) i).1.a) (fun i => xAt h m (o :: os) i) (fun i => jL_ops h m (o :: os) i)
    (ops_independent h m hb (o :: os) hk hn) hN
  refine ⟨c, ?_, J, hJ, fun w hw hwn i hi' => ?_⟩
  · unfold condAll
    rw [List.map_map]
    exact hc
  obtain ⟨q, hq⟩ := List.get_of_mem hw
  have hlen : (o.1.batch h m :: batches h m os).length = (o :: os).length := by simp [batches]
  have hbq : (o.1.batch h m :: batches h m os).get (q.cast hlen.symm) = w.1.batch h m := by
    have := batches_get h m (o :: os) (q.cast hlen.symm)
    rw [← hq]
    exact this
  have gen : ∀ (b : Batch (h.prior m)) (hb : b = w.1.batch h m), (∀ k j, b.noiseCov k j = 0) ∧
      ∀ (k : Fin b.n), k.1 = i → b.Y k = w.1.Y.getD i 0 ∧ b.bMean k = w.1.noise.elim 0 fun z => z.1.getD i 0 := by
    intro b hb
    subst hb
    refine ⟨fun k j => ?_, fun k hk => ⟨by simp [OpObs.batch, hk], ?_⟩⟩
    · unfold Batch.noiseCov
      cases hv : w.1.noise with
      | none => simp only [OpObs.batch, hv, Option.map_none]; rfl
      | some v => simp only [OpObs.batch, hv, Option.map_some, hwn v hv, zero_smul]; rfl
    · unfold Batch.bMean
      cases hv : w.1.noise with
      | none => simp only [OpObs.batch, hv, Option.map_none]; rfl
      | some v => simp only [OpObs.batch, hv, Option.map_some, hk]; rfl
  have hn' : ((o.1.batch h m :: batches h m os).get (q.cast hlen.symm)).n = w.1.X.length := by rw [hbq]; rfl
  have h1 := hi ⟨q.cast hlen.symm, ⟨i, lt_of_lt_of_eq hi' hn'.symm⟩⟩ fun j => (gen _ hbq).1 _ _
  have e1 : oAt h m (o :: os) ⟨q.cast hlen.symm, ⟨i, lt_of_lt_of_eq hi' hn'.symm⟩⟩ = w := hq
  have e2 : ∀ (w' : OpObs I × κ) (k : Fin w'.1.X.length), w' = w → k.1 = i → w'.1.X.get k = w.1.X[i] := by
    intro w' k hw' hk
    subst hw'
    simp [hk]
  have e3 : xAt h m (o :: os) ⟨q.cast hlen.symm, ⟨i, lt_of_lt_of_eq hi' hn'.symm⟩⟩ = w.1.X[i] :=
    e2 _ (pAt h m (o :: os) ⟨q.cast hlen.symm, ⟨i, lt_of_lt_of_eq hi' hn'.symm⟩⟩) e1 rfl
  rw [e3, e1, ((gen _ hbq).2 _ rfl).1, ((gen _ hbq).2 _ rfl).2] at h1
  exact h1

/-- Non-vacuity: `f''(0) = 1` and `-2 f(0) + 3 = 7` for a Matérn-5/2 process. -/
example (e : Env) (he : e.CholOK) (m : jetF (box fun j => (((![2] : Fin 1 → ℕ) j : ℕ) : ℕ∞))) :
    ∃ (c : Cond ((matern_jet ![2] ![3]).prior m)) (J : Ix 1 → Pt 1 → ℝ), HasJet (box fun j => (((![2] : Fin 1 → ℕ) j : ℕ) : ℕ∞)) c.mean J ∧
      J (fun _ => 2) 0 = 1 ∧ c.mean 0 = -2 := by
  have h2 : (fun _ => 2 : Ix 1) ∈ box (d := 1) fun j => (((![2] : Fin 1 → ℕ) j : ℕ) : ℕ∞) := fun j => by fin_cases j; simp
  have h0 := (matern_jet ![2] ![3]).zero_mem
  set base : Bool → (box fun j => (((![2] : Fin 1 → ℕ) j : ℕ) : ℕ∞) : Set (Ix 1)) →₀ ℝ :=
    fun k => if k then Finsupp.single ⟨fun _ => 2, h2⟩ 1 else Finsupp.single ⟨0, h0⟩ 1 with hbase
  have hb : LinearIndependent ℝ base := by
    have : base = (fun i => Finsupp.single i 1) ∘ fun k => if k then ⟨fun _ => 2, h2⟩ else ⟨0, h0⟩ := by
      funext k
      cases k <;> rfl
    rw [this]
    refine (Finsupp.linearIndependent_single_one ℝ _).comp _ fun k k' hk => ?_
    cases k <;> cases k' <;> simp at hk ⊢
    · exact two_ne_zero (congrFun hk 0).symm
    · exact two_ne_zero (congrFun hk 0)
  obtain ⟨c, -, J, hJ, hi⟩ := operators_solved (matern_jet ![2] ![3]) (matern_strict _ fun j => by fin_cases j; simp) m e he hb
    (⟨Finsupp.single ⟨fun _ => 2, h2⟩ 1, [0], [1], none⟩, true) [(⟨(-2 : ℝ) • Finsupp.single ⟨0, h0⟩ 1, [0], [7], some ([3], 0)⟩, false)]
    (by
      intro w hw
      simp only [List.mem_cons, List.not_mem_nil, or_false] at hw
      rcases hw with rfl | rfl
      · exact ⟨⟨1, one_ne_zero, (one_smul _ _).symm⟩, fun z hz => by cases hz⟩
      · exact ⟨⟨-2, by norm_num, rfl⟩, fun z hz => by cases hz; exact le_rfl⟩)
    (by intro k; cases k <;> simp [keyPts])
  refine ⟨c, J, hJ, ?_, ?_⟩
  · have := (hi _ List.mem_cons_self (fun z hz => by cases hz) 0 (by simp)).1
    simpa using this
  · have := (hi _ (List.mem_cons_of_mem _ (List.mem_singleton.mpr rfl)) (fun z hz => by cases hz; rfl) 0 (by simp)).1
    rw [← hJ.zero]
    rw [Finsupp.smul_single, Finsupp.sum_single_index (zero_mul _)] at this
    have : (-2 : ℝ) • (1 : ℝ) * J 0 0 = 7 - 3 := this
    rw [smul_eq_mul] at this
    linarith

/-- Reading off an observation given by a list of parameters. -/
lemma opObs_mem {h : JetKernel I K} {m : jetF I} {e : Env} {J : Ix d → Pt d → ℝ} {c : Cond (h.prior m)} {os : List (OpObs I × κ)}
    (hi : ∀ w ∈ os, (∀ z, w.1.noise = some z → z.2 = 0) → ∀ (i : ℕ) (hi : i < w.1.X.length),
        (w.1.a.sum fun α t => t * J α w.1.X[i]) = w.1.Y.getD i 0 - (w.1.noise.elim 0 fun z => z.1.getD i 0) ∧
        c.functlCov e (fun _ : Fin 1 => h.op m w.1.a w.1.X[i]) = .ok 0)
    {Z : Type} (a : I →₀ ℝ) (k : κ) (zs : List Z) (φ : Z → Pt d) (ψ β : Z → ℝ) {noise : Option (List ℝ × ℝ)}
    (hn : (noise = none ∧ ∀ z, β z = 0) ∨ noise = some (zs.map β, 0))
    (hw : (⟨a, zs.map φ, zs.map ψ, noise⟩, k) ∈ os) {z : Z} (hz : z ∈ zs) :
    (a.sum fun α t => t * J α (φ z)) = ψ z - β z ∧ c.functlCov e (fun _ : Fin 1 => h.op m a (φ z)) = .ok 0 := by
  obtain ⟨i, hi', rfl⟩ := List.getElem_of_mem hz
  have := hi _ hw (by
    intro z hz
    rcases hn with ⟨rfl, -⟩ | rfl
    · cases hz
    · cases hz; rfl) i (by simpa using hi')
  rcases hn with ⟨rfl, h0⟩ | rfl
  · simpa [hi', h0] using this
  · simpa [hi'] using this

end LinPDE.Solve
