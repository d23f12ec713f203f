import Verif.Solve.Model
import Verif.GP.JetTensor

/-!
# C69: conditioning on values and on an equation
-/

namespace LinPDE.Solve
open LinPDE.Domains LinPDE.Pde LinPDE.GP LinPDE.Block Matrix

variable {d : ℕ} {I : Set (Ix d)} {K : Ix d → Pt d → Ix d → Pt d → ℝ}

/-- C69: a kernel multiplied by a nonnegative constant (`2.0 ** 2 * k` in the scripts). -/
lemma smul_jet (h : JetKernel I K) {v : ℝ} (hv : 0 ≤ v) : JetKernel I fun α x β y => v * K α x β y where
  lower := h.lower
  zero_mem := h.zero_mem
  left β hβ y := (h.left β hβ y).smul v
  psd := h.psd.smul hv

lemma smul_strict (hs : Strict I K) {v : ℝ} (hv : 0 < v) : Strict I fun α x β y => v * K α x β y := hs.smul hv

/-- All points at which the given operator is observed. -/
def ptsOf (pde : Bool) (os : List (Obs d)) : List (Pt d) := (os.filter fun o => o.pde == pde).flatMap Obs.X

/-- Position of an observation in a list of batches. -/
lemma batch_get (h : JetKernel I K) (m : jetF I) (a : I →₀ ℝ) (os : List (Obs d)) (q : Fin (os.map (Obs.batch h m a)).length) :
    (os.map (Obs.batch h m a)).get q = (os.get (q.cast (List.length_map _))).batch h m a := by
  simp

/-- The observation behind an index. -/
noncomputable def obsAt (h : JetKernel I K) (m : jetF I) (a : I →₀ ℝ) (os : List (Obs d)) (i : Idx (os.map (Obs.batch h m a))) : Obs d :=
  os.get (i.1.cast (List.length_map _))

/-- The position inside the observation. -/
noncomputable def posAt (h : JetKernel I K) (m : jetF I) (a : I →₀ ℝ) (os : List (Obs d)) (i : Idx (os.map (Obs.batch h m a))) :
    Fin (obsAt h m a os i).X.length :=
  i.2.cast (by rw [batch_get]; rfl)

lemma jL_obs (h : JetKernel I K) (m : jetF I) (a : I →₀ ℝ) (os : List (Obs d)) (i : Idx (os.map (Obs.batch h m a))) :
    jL (os.map (Obs.batch h m a)) i =
      h.op m (opOf h a (obsAt h m a os i).pde) ((obsAt h m a os i).X.get (posAt h m a os i)) := by
  have key : ∀ (b : Batch (h.prior m)) (o : Obs d) (hb : b = o.batch h m a) (j : Fin b.n),
      b.L j = h.op m (opOf h a o.pde) (o.X.get (j.cast (by rw [hb]; rfl))) := by
    intro b o hb j
    subst hb
    rfl
  exact key _ _ (batch_get h m a os i.1) i.2

/-- Points observed with the same operator at different indices are different. -/
lemma pts_injective (h : JetKernel I K) (m : jetF I) (a : I →₀ ℝ) (os : List (Obs d)) (hn : ∀ pde, (ptsOf pde os).Nodup)
    {i j : Idx (os.map (Obs.batch h m a))} (ho : (obsAt h m a os i).pde = (obsAt h m a os j).pde)
    (hx : (obsAt h m a os i).X.get (posAt h m a os i) = (obsAt h m a os j).X.get (posAt h m a os j)) : i = j := by
  have h1 := hn (obsAt h m a os i).pde
  unfold ptsOf at h1
  rw [List.nodup_flatMap, List.pairwise_filter] at h1
  obtain ⟨h1, h2⟩ := h1
  rw [List.pairwise_iff_get] at h2
  have hq : i.1 = j.1 := by
    rcases lt_trichotomy i.1 j.1 with hlt | heq | hlt
    · have := h2 (i.1.cast (List.length_map _)) (j.1.cast (List.length_map _)) hlt (by simp [obsAt])
        (by simp only [beq_iff_eq]; exact ho.symm)
      refine absurd (this (List.get_mem (obsAt h m a os i).X (posAt h m a os i))) ?_
      rw [hx]
      exact not_not.mpr (List.get_mem (obsAt h m a os j).X (posAt h m a os j))
    · exact heq
    · have := h2 (j.1.cast (List.length_map _)) (i.1.cast (List.length_map _)) hlt
        (by simp only [beq_iff_eq]; exact ho.symm) (by simp [obsAt])
      refine absurd (this (List.get_mem (obsAt h m a os j).X (posAt h m a os j))) ?_
      rw [← hx]
      exact not_not.mpr (List.get_mem (obsAt h m a os i).X (posAt h m a os i))
  obtain ⟨q, i⟩ := i
  obtain ⟨r, j⟩ := j
  obtain rfl : q = r := hq
  congr 1
  have h3 : ((obsAt h m a os ⟨q, i⟩).X).Nodup := h1 _ (by
    rw [List.mem_filter]
    exact ⟨List.get_mem _ _, by simp⟩)
  have h4 := List.nodup_iff_injective_get.mp h3 hx
  have h5 : (posAt h m a os ⟨q, i⟩).1 = (posAt h m a os ⟨q, j⟩).1 := by rw [h4]
  exact Fin.ext h5

/-- The identity and the operator of the equation are linearly independent. -/
def Indep (h : JetKernel I K) (a : I →₀ ℝ) : Prop :=
  LinearIndependent ℝ ![(Finsupp.single ⟨0, h.zero_mem⟩ 1 : I →₀ ℝ), a]

lemma indep_opOf (h : JetKernel I K) {a : I →₀ ℝ} (ha : Indep h a) : LinearIndependent ℝ (opOf h a) := by
  have e : opOf h a = ![(Finsupp.single ⟨0, h.zero_mem⟩ 1 : I →₀ ℝ), a] ∘ fun b : Bool => if b then 1 else 0 := by
    funext b
    cases b <;> rfl
  rw [e]
  exact ha.comp _ fun b c hbc => by cases b <;> cases c <;> simp_all

lemma obs_independent (h : JetKernel I K) (m : jetF I) {a : I →₀ ℝ} (ha : Indep h a) (os : List (Obs d))
    (hn : ∀ pde, (ptsOf pde os).Nodup) (z : Pt d) :
    LinearIndependent ℝ fun i : {i : Idx (os.map (Obs.batch h m a)) // (obsAt h m a os i).X.get (posAt h m a os i) = z} =>
      opOf h a (obsAt h m a os i.1).pde :=
  (indep_opOf h ha).comp (fun i : {i : Idx (os.map (Obs.batch h m a)) // (obsAt h m a os i).X.get (posAt h m a os i) = z} =>
    (obsAt h m a os i.1).pde) fun i j hij => Subtype.ext (pts_injective h m a os hn hij (i.2.trans j.2.symm))

/-- Noise with nonnegative variance. -/
def NoiseOK (os : List (Obs d)) : Prop := ∀ o ∈ os, ∀ v, o.noise = some v → 0 ≤ v

lemma noisePSD_obs (h : JetKernel I K) (m : jetF I) (a : I →₀ ℝ) {os : List (Obs d)} (hN : NoiseOK os) :
    NoisePSD (os.map (Obs.batch h m a)) := by
  intro b hb
  obtain ⟨o, ho, rfl⟩ := List.mem_map.mp hb
  unfold Batch.noiseCov
  cases hv : o.noise with
  | none =>
    simp only [Obs.batch, hv, Option.map_none]
    exact Matrix.PosSemidef.zero
  | some v =>
    simp only [Obs.batch, hv, Option.map_some]
    exact Matrix.PosSemidef.one.smul (hN o ho v hv)

/-- Conditioning on the values of the process and on an equation at distinct points succeeds; the posterior mean has all
derivatives and satisfies the noise-free observations, which are not left uncertain. -/
lemma solve_spec (h : JetKernel I K) (hs : Strict I K) (m : jetF I) (e : Env) (he : e.CholOK) {a : I →₀ ℝ} (ha : Indep h a)
    (o : Obs d) (os : List (Obs d)) (hn : ∀ pde, (ptsOf pde (o :: os)).Nodup) (hN : NoiseOK (o :: os)) :
    ∃ c, solve e h m a o os = .ok c ∧ ∃ J, HasJet I c.mean J ∧ ∀ w ∈ o :: os, w.noise = none → ∀ (i : ℕ) (hi : i < w.X.length),
      ((opOf h a w.pde).sum fun α t => t * J α w.X[i]) = w.Y.getD i 0 ∧
      c.functlCov e (fun _ : Fin 1 => h.op m (opOf h a w.pde) w.X[i]) = .ok 0 := by
  have key := collocation h hs m e he (o.batch h m a) (os.map (Obs.batch h m a))
    (fun i => opOf h a (obsAt h m a (o :: os) i).pde) (fun i => (obsAt h m a (o :: os) i).X.get (posAt h m a (o :: os) i))
    (fun i => jL_obs h m a (o :: os) i) (obs_independent h m ha (o :: os) hn) (noisePSD_obs h m a hN)
  obtain ⟨c, hc, -, -, J, hJ, hi⟩ := key
  refine ⟨c, hc, J, hJ, fun w hw hwn i hi' => ?_⟩
  obtain ⟨q, hq⟩ := List.get_of_mem hw
  have hlen : (o.batch h m a :: os.map (Obs.batch h m a)).length = (o :: os).length := by simp
  have hb : (o.batch h m a :: os.map (Obs.batch h m a)).get (q.cast hlen.symm) = w.batch h m a := by
    have := batch_get h m a (o :: os) (q.cast (by simp))
    rw [← hq]
    exact this
  have gen : ∀ (b : Batch (h.prior m)) (hb : b = w.batch h m a), b.noise = none ∧ ∀ (k : Fin b.n), k.1 = i → b.Y k = w.Y.getD i 0 := by
    intro b hb
    subst hb
    refine ⟨by simp [Obs.batch, hwn], fun k hk => ?_⟩
    simp [Obs.batch, hk]
  have hn' : ((o.batch h m a :: os.map (Obs.batch h m a)).get (q.cast hlen.symm)).n = w.X.length := by rw [hb]; rfl
  have h1 := hi ⟨q.cast hlen.symm, ⟨i, lt_of_lt_of_eq hi' hn'.symm⟩⟩ (gen _ hb).1
  have e1 : obsAt h m a (o :: os) ⟨q.cast hlen.symm, ⟨i, lt_of_lt_of_eq hi' hn'.symm⟩⟩ = w := hq
  have e2 : ∀ (w' : Obs d) (k : Fin w'.X.length), w' = w → k.1 = i → w'.X.get k = w.X[i] := by
    intro w' k hw' hk
    subst hw'
    simp [hk]
  have e3 := e2 _ (posAt h m a (o :: os) ⟨q.cast hlen.symm, ⟨i, lt_of_lt_of_eq hi' hn'.symm⟩⟩) e1 rfl
  rw [e3, e1, (gen _ hb).2 _ rfl] at h1
  exact h1

/-- The index of a point of an observation. -/
noncomputable def mkIdx (h : JetKernel I K) (m : jetF I) (a : I →₀ ℝ) (os : List (Obs d)) (q : Fin os.length) (i : Fin (os.get q).X.length) :
    Idx (os.map (Obs.batch h m a)) :=
  ⟨q.cast (List.length_map _).symm, i.cast (by rw [batch_get]; rfl)⟩

lemma pts_nodup (h : JetKernel I K) (m : jetF I) (a : I →₀ ℝ) (os : List (Obs d))
    (hi : ∀ i j : Idx (os.map (Obs.batch h m a)), (obsAt h m a os i).pde = (obsAt h m a os j).pde →
      (obsAt h m a os i).X.get (posAt h m a os i) = (obsAt h m a os j).X.get (posAt h m a os j) → i = j) (pde : Bool) :
    (ptsOf pde os).Nodup := by
  have key : ∀ (q r : Fin os.length) (i : Fin (os.get q).X.length) (j : Fin (os.get r).X.length), (os.get q).pde = (os.get r).pde →
      (os.get q).X.get i = (os.get r).X.get j → q = r ∧ i.1 = j.1 := by
    intro q r i j h1 h2
    have h3 := hi (mkIdx h m a os q i) (mkIdx h m a os r j) h1 h2
    have h4 : q = r := by
      have := congrArg (fun k => k.1.1) h3
      exact Fin.ext this
    refine ⟨h4, ?_⟩
    subst h4
    have h5 := eq_of_heq (Sigma.mk.inj h3).2
    have h6 := congrArg Fin.val h5
    exact h6
  unfold ptsOf
  rw [List.nodup_flatMap, List.pairwise_filter]
  constructor
  · intro o ho
    obtain ⟨q, rfl⟩ := List.get_of_mem (List.mem_of_mem_filter ho)
    rw [List.nodup_iff_injective_get]
    intro i j hij
    exact Fin.ext (key q q i j rfl hij).2
  · rw [List.pairwise_iff_get]
    intro q r hqr h1 h2 z hz hz'
    obtain ⟨i, rfl⟩ := List.get_of_mem hz
    obtain ⟨j, hj⟩ := List.get_of_mem hz'
    exact hqr.ne (key q r i j (by rw [beq_iff_eq.mp h1, beq_iff_eq.mp h2]) hj.symm).1

/-- C69: for exact observations, the joint Gram matrix is positive definite exactly if no value is observed twice and the
equation is not observed twice at one point. -/
theorem solvable_iff (h : JetKernel I K) (hs : Strict I K) (m : jetF I) {a : I →₀ ℝ} (ha : Indep h a) (os : List (Obs d))
    (hN : ∀ o ∈ os, o.noise = none) : (jG (os.map (Obs.batch h m a))).PosDef ↔ ∀ pde, (ptsOf pde os).Nodup := by
  have hN' : ∀ b ∈ os.map (Obs.batch h m a), b.noise = none := by
    intro b hb
    obtain ⟨o, ho, rfl⟩ := List.mem_map.mp hb
    simp [Obs.batch, hN o ho]
  rw [collocation_gram_iff h hs m _ (fun i => opOf h a (obsAt h m a os i).pde)
    (fun i => (obsAt h m a os i).X.get (posAt h m a os i)) (fun i => jL_obs h m a os i) hN']
  constructor
  · intro hl
    refine pts_nodup h m a os fun i j h1 h2 => ?_
    have := (hl ((obsAt h m a os j).X.get (posAt h m a os j))).injective (a₁ := ⟨i, h2⟩) (a₂ := ⟨j, rfl⟩) (by simp only [h1])
    exact congrArg Subtype.val this
  · exact fun hn => obs_independent h m ha os hn

/-- Reading off an observation given by a list of parameters. -/
lemma obs_mem {h : JetKernel I K} {m : jetF I} {a : I →₀ ℝ} {e : Env} {J : Ix d → Pt d → ℝ} {c : Cond (h.prior m)} {os : List (Obs d)}
    (hi : ∀ w ∈ os, w.noise = none → ∀ (i : ℕ) (hi : i < w.X.length), ((opOf h a w.pde).sum fun α t => t * J α w.X[i]) = w.Y.getD i 0 ∧
      c.functlCov e (fun _ : Fin 1 => h.op m (opOf h a w.pde) w.X[i]) = .ok 0)
    {Z : Type} (b : Bool) (zs : List Z) (φ : Z → Pt d) (ψ : Z → ℝ) {noise : Option ℝ} (hn : noise = none) (hw : ⟨b, zs.map φ, zs.map ψ, noise⟩ ∈ os)
    {z : Z} (hz : z ∈ zs) : ((opOf h a b).sum fun α t => t * J α (φ z)) = ψ z ∧
      c.functlCov e (fun _ : Fin 1 => h.op m (opOf h a b) (φ z)) = .ok 0 := by
  obtain ⟨i, hi', rfl⟩ := List.getElem_of_mem hz
  have := hi _ hw hn i (by simpa using hi')
  simpa [hi'] using this

lemma value_sum (h : JetKernel I K) (a : I →₀ ℝ) {f : Pt d → ℝ} {J : Ix d → Pt d → ℝ} (hJ : HasJet I f J) (x : Pt d) :
    ((opOf h a false).sum fun α t => t * J α x) = f x := by
  unfold opOf
  rw [if_neg (by simp), Finsupp.sum_single_index (by simp), one_mul, hJ.zero]

end LinPDE.Solve
