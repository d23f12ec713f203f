import Verif.Solve.MaxPrinciple
import Verif.Solve.PoissonProps
import Verif.Solve.HeatProps
import Verif.GP.Averaging

/-!
# C75: collocation converges

The observations become dense: the residual of the equation tends to zero between the collocation points because the posterior
variance does (`GP/Optimal.lean`), and the error tends to zero because of the maximum principle.
-/

namespace LinPDE.Solve
open LinPDE.Domains LinPDE.Pde LinPDE.GP LinPDE.Block LinPDE.PosDef Matrix
open LinPDE.Matern (DOp OpAt)

variable {d : ℕ} {I : Set (Ix d)} {K : Ix d → Pt d → Ix d → Pt d → ℝ}

/-- The derivatives of the kernel are jointly continuous. -/
def ContK (I : Set (Ix d)) (K : Ix d → Pt d → Ix d → Pt d → ℝ) : Prop :=
  ∀ α ∈ I, ∀ β ∈ I, Continuous fun p : Pt d × Pt d => K α p.1 β p.2

lemma prod_cont {N : Fin d → ℕ∞} {φ : Fin d → ℕ → ℝ → ℝ} (hφ : ∀ j, Chain (N j) (φ j)) : ContK (box N) (prodK φ) := by
  intro α hα β hβ
  unfold prodK jetK
  refine continuous_finset_prod _ fun j _ => continuous_const.mul ?_
  have h1 := (hφ j).cont (α j + β j) (by
    push_cast
    exact add_le_add (hα j) (hβ j))
  exact h1.comp (((continuous_apply j).comp continuous_fst).sub ((continuous_apply j).comp continuous_snd))

/-- C75: products of Matérn kernels. -/
theorem matern_cont (p : Fin d → ℕ) (s : Fin d → ℝ) : ContK (box fun j => (p j : ℕ∞)) (matK p s) := prod_cont fun j => scaled_chain _ _

/-- C75: squared-exponential kernels. -/
theorem expquad_cont (l : Fin d → ℝ) : ContK Set.univ (expK l) := by
  rw [box_top]
  exact prod_cont fun j => gauss_chain _

lemma smul_cont (h : ContK I K) (v : ℝ) : ContK I fun α x β y => v * K α x β y := fun α hα β hβ => continuous_const.mul (h α hα β hβ)

lemma op_cov_cont (h : JetKernel I K) (hc : ContK I K) (m : jetF I) (a : I →₀ ℝ) :
    Continuous fun p : Pt d × Pt d => (h.prior m).cov (h.op m a p.1) (h.op m a p.2) := by
  simp only [op_cov]
  exact continuous_finset_sum _ fun α _ => continuous_finset_sum _ fun β _ => continuous_const.mul (hc α α.2 β β.2)

/-- Functions at a finite distance from the prior mean differ from it by a continuous function. -/
lemma within_cont {X : Type} [TopologicalSpace X] {P : Prior X} (hP : P.Regular) (hk : Continuous fun p : X × X => P.k p.1 p.2) {f : P.F} {B : ℝ}
    (hf : Within P f B) : Continuous fun x => f.1 x - P.m.1 x := by
  rw [continuous_iff_continuousAt]
  intro x
  have hV : Continuous fun y : X => B * (P.k y y - 2 * P.k y x + P.k x x) := by
    have h1 : Continuous fun y : X => P.k y y := hk.comp (continuous_id.prodMk continuous_id)
    have h2 : Continuous fun y : X => P.k y x := hk.comp (continuous_id.prodMk continuous_const)
    exact continuous_const.mul ((h1.sub (continuous_const.mul h2)).add continuous_const)
  have hle : ∀ y, (f.1 y - P.m.1 y - (f.1 x - P.m.1 x)) ^ 2 ≤ B * (P.k y y - 2 * P.k y x + P.k x x) := by
    intro y
    have h1 := hf (hP.ev y - hP.ev x)
    have h2 : P.cov (hP.ev y - hP.ev x) (hP.ev y - hP.ev x) = P.k y y - 2 * P.k y x + P.k x x := by
      have hc : P.cross (hP.ev y - hP.ev x) = P.cross (hP.ev y) - P.cross (hP.ev x) := rfl
      have hd : ∀ f, (hP.ev y - hP.ev x).1 f = (hP.ev y).1 f - (hP.ev x).1 f := fun f => rfl
      have hs : (hP.ev x).1 (P.cross (hP.ev y)) = (hP.ev y).1 (P.cross (hP.ev x)) := hP.symm _ _
      simp only [Prior.cov]
      rw [hc, hd, map_sub, map_sub, hs]
      show P.k y y - P.k y x - (P.k y x - P.k x x) = _
      ring
    rw [h2] at h1
    refine le_trans (le_of_eq ?_) h1
    show _ = ((f.1 y - f.1 x) - (P.m.1 y - P.m.1 x)) ^ 2
    ring
  have h0 : Filter.Tendsto (fun y => B * (P.k y y - 2 * P.k y x + P.k x x)) (nhds x) (nhds 0) := by
    have := hV.tendsto x
    convert! this using 2
    ring
  have h1 : Filter.Tendsto (fun y => (f.1 y - P.m.1 y - (f.1 x - P.m.1 x)) ^ 2) (nhds x) (nhds 0) :=
    squeeze_zero (fun y => sq_nonneg _) hle h0
  have h2 : Filter.Tendsto (fun y => |f.1 y - P.m.1 y - (f.1 x - P.m.1 x)|) (nhds x) (nhds 0) := by
    have := (Real.continuous_sqrt.tendsto 0).comp h1
    simpa [Function.comp_def, Real.sqrt_sq_eq_abs] using this
  have h3 := (tendsto_zero_iff_abs_tendsto_zero _).mpr h2
  have h4 := h3.add_const (f.1 x - P.m.1 x)
  rw [ContinuousAt]
  simpa using h4

/-- The values of the observations are those of `f`. -/
def Fits (h : JetKernel I K) (a : I →₀ ℝ) (f : jetF I) (os : List (Obs d)) : Prop :=
  ∀ w ∈ os, ∀ (i : ℕ) (hi : i < w.X.length), ((opOf h a w.pde).sum fun α t => t * jet f α w.X[i]) = w.Y.getD i 0

/-- `f` satisfies the observations, which have no noise. -/
def Solves (h : JetKernel I K) (a : I →₀ ℝ) (f : jetF I) (os : List (Obs d)) : Prop :=
  ∀ w ∈ os, w.noise = none ∧ ∀ (i : ℕ) (hi : i < w.X.length), ((opOf h a w.pde).sum fun α t => t * jet f α w.X[i]) = w.Y.getD i 0

lemma fits_data (h : JetKernel I K) (m : jetF I) (a : I →₀ ℝ) {f : jetF I} {os : List (Obs d)} (hf : Fits h a f os) :
    DataOf (P := h.prior m) (os.map (Obs.batch h m a)) f 0 := by
  intro i
  have key : ∀ (b : Batch (h.prior m)) (w : Obs d), w ∈ os → b = w.batch h m a → ∀ j : Fin b.n, b.Y j = (b.L j).1 f + b.bMean j + 0 := by
    rintro b w hw rfl j
    have h1 := hf w hw j.1 j.2
    have h2 : (w.batch h m a).bMean j = 0 := by
      cases hn : w.noise with
      | none => simp only [Batch.bMean, Obs.batch, hn, Option.map_none]; rfl
      | some v => simp only [Batch.bMean, Obs.batch, hn, Option.map_some]; rfl
    rw [h2, add_zero, add_zero]
    show w.Y.getD j 0 = (h.op m (opOf h a w.pde) (w.X.get j)).1 f
    rw [op_apply, ← h1]
    rfl
  exact key _ _ (List.get_mem os _) (batch_get h m a os i.1) i.2

lemma noise_eq (h : JetKernel I K) (m : jetF I) (a : I →₀ ℝ) (w : Obs d) : (w.batch h m a).noiseCov = w.noise.getD 0 • 1 := by
  cases hn : w.noise with
  | none => simp only [Batch.noiseCov, Obs.batch, hn, Option.map_none, Option.getD_none]; exact (zero_smul ℝ (1 : Matrix (Fin w.X.length) (Fin w.X.length) ℝ)).symm
  | some v => simp only [Batch.noiseCov, Obs.batch, hn, Option.map_some, Option.getD_some]; rfl

lemma obs_gram (h : JetKernel I K) (hs : Strict I K) (m : jetF I) {a : I →₀ ℝ} (ha : Indep h a) (os : List (Obs d))
    (hn : ∀ pde, (ptsOf pde os).Nodup) (hN : NoiseOK os) : (jG (os.map (Obs.batch h m a))).PosDef :=
  jG_posDef_of_cov _ ((ops_cov h hs m (a := fun i => opOf h a (obsAt h m a os i).pde) (x := fun i => (obsAt h m a os i).X.get (posAt h m a os i))
    fun i => jL_obs h m a os i).mpr (obs_independent h m ha os hn)) (noisePSD_obs h m a hN)

/-- Every function that produced the data lies in the uncertainty region of the posterior. -/
lemma solve_region (h : JetKernel I K) (hs : Strict I K) (m : jetF I) {a : I →₀ ℝ} (ha : Indep h a) {f : jetF I} {B : ℝ}
    (hB : 0 ≤ B) (hf : Within (h.prior m) f B) (e : Env) (he : e.CholOK) (o : Obs d) (os : List (Obs d))
    (hn : ∀ pde, (ptsOf pde (o :: os)).Nodup) (hN : NoiseOK (o :: os)) (hfit : Fits h a f (o :: os)) :
    ∃ c, solve e h m a o os = .ok c ∧ ∀ x, ∃ v, c.covfunc e x x = .ok v ∧ (f.1 x - c.mean x) ^ 2 ≤ B * v := by
  have hP := jet_regular h m
  have hG : (jG (o.batch h m a :: os.map (Obs.batch h m a))).PosDef := obs_gram h hs m ha (o :: os) hn hN
  obtain ⟨c, hc, -⟩ := run_posterior e he hP _ _ hG
  have := (worst_case_error e he hP _ _ hG (noisePSD_obs h m a (os := o :: os) hN) c hc hB le_rfl hf (ε := 0) (fun a => by simp)
    (fits_data h m a (os := o :: os) hfit)).2
  rw [add_zero] at this
  exact ⟨c, hc, this⟩

/-- Near observations, with little noise compared to their number, the observed quantity is predicted, uniformly on compact sets. -/
lemma solve_close_noise (h : JetKernel I K) (hs : Strict I K) (hK : ContK I K) (m : jetF I) {a : I →₀ ℝ} (ha : Indep h a) {f : jetF I} {B : ℝ}
    (hB : 0 ≤ B) (hf : Within (h.prior m) f B) {S : Set (Pt d)} (hS : IsCompact S) {τ : ℝ} (hτ : 0 < τ) :
    ∃ η > 0, ∃ γ : ℝ, 0 < γ ∧ ∀ (e : Env), e.CholOK → ∀ (o : Obs d) (os : List (Obs d)), (∀ pde, (ptsOf pde (o :: os)).Nodup) → NoiseOK (o :: os) →
      Fits h a f (o :: os) →
      ∃ c, solve e h m a o os = .ok c ∧ ∃ J, HasJet I c.mean J ∧ (Continuous fun x => f.1 x - c.mean x) ∧
        ∀ pde, ∀ x ∈ S, (∃ w ∈ o :: os, w.pde = pde ∧ ∃ T : Finset (Pt d), T.Nonempty ∧ w.noise.getD 0 ≤ γ * T.card ∧ ∀ z ∈ T, z ∈ w.X ∧ dist z x < η) →
          |((opOf h a pde).sum fun α t => t * jet f α x) - (opOf h a pde).sum fun α t => t * J α x| < τ := by
  classical
  have hP := jet_regular h m
  have hcons := fun pde => consistent_noise hP (fun x => h.op m (opOf h a pde) x) (op_cov_cont h hK m (opOf h a pde)) hS hB le_rfl hf hτ
  obtain ⟨η0, hη0, γ0, hγ0, c0⟩ := hcons false
  obtain ⟨η1, hη1, γ1, hγ1, c1⟩ := hcons true
  refine ⟨min η0 η1, lt_min hη0 hη1, min γ0 γ1, lt_min hγ0 hγ1, fun e he o os hn hNO hsol => ?_⟩
  have hG : (jG (o.batch h m a :: os.map (Obs.batch h m a))).PosDef := obs_gram h hs m ha (o :: os) hn hNO
  have hN : NoisePSD (o.batch h m a :: os.map (Obs.batch h m a)) := noisePSD_obs h m a (os := o :: os) hNO
  have hY : DataOf (o.batch h m a :: os.map (Obs.batch h m a)) f 0 := fits_data h m a hsol
  have h0 : NoiseWithin (o.batch h m a :: os.map (Obs.batch h m a)) 0 0 := fun a => by simp
  obtain ⟨c, hc, k0⟩ := c0 e he _ _ hG hN 0 h0 hY
  obtain ⟨c', hc', k1⟩ := c1 e he _ _ hG hN 0 h0 hY
  obtain rfl : c = c' := Except.ok.inj (hc.symm.trans hc')
  obtain ⟨c', hc', hm, -⟩ := run_posterior e he hP _ _ hG
  obtain rfl : c = c' := Except.ok.inj (hc.symm.trans hc')
  have hm : c.mean = (postMeanF (o.batch h m a :: os.map (Obs.batch h m a))).1 := funext fun x => by rw [hm, postMeanF_apply]
  have hfm : ∀ (b : I →₀ ℝ) x, c.functlMean (fun _ : Fin 1 => h.op m b x) 0 =
      b.sum fun α t => t * jet (postMeanF (o.batch h m a :: os.map (Obs.batch h m a))) α x := by
    intro b x
    rw [(functl_one e he hP hG hc (h.op m b x)).1]
    exact op_apply h m b x _
  refine ⟨c, hc, jet (postMeanF (o.batch h m a :: os.map (Obs.batch h m a))), hm ▸ jet_spec _, ?_, ?_⟩
  · have hk : Continuous fun p : Pt d × Pt d => (h.prior m).k p.1 p.2 := hK 0 h.zero_mem 0 h.zero_mem
    have e1 := within_cont hP hk hf
    have e2 := within_cont hP hk (f := (posterior (h.prior m) (o.batch h m a :: os.map (Obs.batch h m a))).m) (B := B + 0)
      (minimal hP hG hN hB le_rfl hf h0 hY)
    have e3 := e1.sub e2
    convert! e3 using 1
    funext x
    rw [hm]
    show _ = f.1 x - (h.prior m).m.1 x - ((postMeanF (o.batch h m a :: os.map (Obs.batch h m a))).1 x - (h.prior m).m.1 x)
    ring
  · rintro pde x hx ⟨w, hw, rfl, T, hT, hγ, hz⟩
    have hidx : ∀ z : T, ∃ i : Fin w.X.length, w.X.get i = z := fun z => List.get_of_mem (hz z z.2).1
    choose idx hidx using hidx
    have hinj : Function.Injective idx := fun z z' hzz => Subtype.ext (by rw [← hidx z, ← hidx z', hzz])
    have hcard : (Finset.univ.image idx).card = T.card := by
      rw [Finset.card_image_of_injective _ hinj, Finset.card_univ, Fintype.card_coe]
    have hne : (Finset.univ.image idx).Nonempty := by rw [← Finset.card_pos, hcard]; exact hT.card_pos
    have hex : ∀ η' γ' : ℝ, min η0 η1 ≤ η' → min γ0 γ1 ≤ γ' → ∃ b ∈ o.batch h m a :: os.map (Obs.batch h m a), ∃ v : ℝ, b.noiseCov = v • 1 ∧
        ∃ T : Finset (Fin b.n), T.Nonempty ∧ v ≤ γ' * T.card ∧ ∀ i ∈ T, ∃ z, dist z x < η' ∧ b.L i = h.op m (opOf h a w.pde) z := by
      intro η' γ' hη' hγ'
      refine ⟨w.batch h m a, List.mem_map_of_mem (f := Obs.batch h m a) hw, _, noise_eq h m a w, Finset.univ.image idx, hne, ?_, fun i hi => ?_⟩
      · refine le_of_le_of_eq ?_ (congrArg (fun k : ℕ => γ' * (k : ℝ)) hcard.symm)
        exact hγ.trans (mul_le_mul_of_nonneg_right hγ' (Nat.cast_nonneg _))
      · obtain ⟨z, -, rfl⟩ := Finset.mem_image.mp hi
        refine ⟨z, (hz z z.2).2.trans_le hη', ?_⟩
        rw [← hidx z]
        rfl
    have := op_apply h m (opOf h a w.pde) x f
    rw [← this, ← hfm]
    cases hp : w.pde with
    | false => exact k0 x hx (hp ▸ hex η0 γ0 (min_le_left _ _) (min_le_left _ _))
    | true => exact k1 x hx (hp ▸ hex η1 γ1 (min_le_right _ _) (min_le_right _ _))

/-- Near an observation the observed quantity is predicted, uniformly on compact sets. -/
lemma solve_close (h : JetKernel I K) (hs : Strict I K) (hK : ContK I K) (m : jetF I) {a : I →₀ ℝ} (ha : Indep h a) {f : jetF I} {B : ℝ}
    (hB : 0 ≤ B) (hf : Within (h.prior m) f B) {S : Set (Pt d)} (hS : IsCompact S) {τ : ℝ} (hτ : 0 < τ) :
    ∃ η > 0, ∀ (e : Env), e.CholOK → ∀ (o : Obs d) (os : List (Obs d)), (∀ pde, (ptsOf pde (o :: os)).Nodup) → Solves h a f (o :: os) →
      ∃ c, solve e h m a o os = .ok c ∧ ∃ J, HasJet I c.mean J ∧ (Continuous fun x => f.1 x - c.mean x) ∧
        ∀ pde, ∀ x ∈ S, (∃ w ∈ o :: os, w.pde = pde ∧ ∃ z ∈ w.X, dist z x < η) →
          |((opOf h a pde).sum fun α t => t * jet f α x) - (opOf h a pde).sum fun α t => t * J α x| < τ := by
  obtain ⟨η, hη, γ, hγ, key⟩ := solve_close_noise h hs hK m ha hB hf hS hτ
  refine ⟨η, hη, fun e he o os hn hsol => ?_⟩
  obtain ⟨c, hc, J, hJ, h1, h2⟩ := key e he o os hn (fun w hw v hv => by rw [(hsol w hw).1] at hv; cases hv) fun w hw => (hsol w hw).2
  refine ⟨c, hc, J, hJ, h1, fun pde x hx => ?_⟩
  rintro ⟨w, hw, hp, z, hz, hd⟩
  refine h2 pde x hx ⟨w, hw, hp, {z}, Finset.singleton_nonempty z, ?_, fun z' hz' => ?_⟩
  · rw [(hsol w hw).1]
    simpa using hγ.le
  · obtain rfl := Finset.mem_singleton.mp hz'
    exact ⟨hz, hd⟩

/-- Within distance `η` of an observation the observed quantity is predicted up to `τ`. -/
def Close (h : JetKernel I K) (m : jetF I) (a : I →₀ ℝ) (f : jetF I) (S : Set (Pt d)) (η τ : ℝ) : Prop :=
  ∀ (e : Env), e.CholOK → ∀ (o : Obs d) (os : List (Obs d)), (∀ pde, (ptsOf pde (o :: os)).Nodup) → Solves h a f (o :: os) →
    ∃ c, solve e h m a o os = .ok c ∧ ∃ J, HasJet I c.mean J ∧ (Continuous fun x => f.1 x - c.mean x) ∧
      ∀ pde, ∀ x ∈ S, (∃ w ∈ o :: os, w.pde = pde ∧ ∃ z ∈ w.X, z ∈ S ∧ dist z x < η) →
        |((opOf h a pde).sum fun α t => t * jet f α x) - (opOf h a pde).sum fun α t => t * J α x| ≤ τ

lemma exists_close (h : JetKernel I K) (hs : Strict I K) (hK : ContK I K) (m : jetF I) {a : I →₀ ℝ} (ha : Indep h a) {f : jetF I} {B : ℝ}
    (hB : 0 ≤ B) (hf : Within (h.prior m) f B) {S : Set (Pt d)} (hS : IsCompact S) {τ : ℝ} (hτ : 0 < τ) : ∃ η > 0, Close h m a f S η τ := by
  obtain ⟨η, hη, key⟩ := solve_close h hs hK m ha hB hf hS hτ
  refine ⟨η, hη, fun e he o os hn hsol => ?_⟩
  obtain ⟨c, hc, J, hJ, h1, h2⟩ := key e he o os hn hsol
  exact ⟨c, hc, J, hJ, h1, fun pde x hx ⟨w, hw, hp, z, hz, _, hd⟩ => (h2 pde x hx ⟨w, hw, hp, z, hz, hd⟩).le⟩

/-- The grid lies in the interval. -/
lemma intervalGrid_bounds {l u e : ℝ} (h0 : 0 ≤ e) (h1 : e ≤ u - l) {n : ℕ} {x : ℝ} (hx : x ∈ intervalGrid l u n e) :
    l ≤ x ∧ x ≤ u := by
  obtain ⟨i, hi, rfl⟩ := List.getElem_of_mem hx
  have hn : i < n := by simpa [intervalGrid, linspace] using hi
  unfold intervalGrid
  rcases Nat.lt_or_ge n 2 with h2 | h2
  · have hi0 : i = 0 := by omega
    simp only [linspace, List.getElem_map, List.getElem_range]
    rw [if_neg (by omega), hi0]
    simp only [Nat.cast_zero, zero_mul, add_zero]
    constructor <;> linarith
  · have e0 := linspace_get (l + e) (u - e) n i hi h2
    rw [e0]
    have hn' : (0 : ℝ) < (n : ℝ) - 1 := by
      have : (2 : ℝ) ≤ n := by exact_mod_cast h2
      linarith
    have hi1 : (i : ℝ) ≤ (n : ℝ) - 1 := by
      have : ((i + 1 : ℕ) : ℝ) ≤ n := by exact_mod_cast hn
      push_cast at this
      linarith
    set τ : ℝ := (i : ℝ) / ((n : ℝ) - 1) with hτ
    have hτ0 : 0 ≤ τ := div_nonneg (Nat.cast_nonneg i) hn'.le
    have hτ1 : τ ≤ 1 := (div_le_one hn').mpr hi1
    have e1 : l + e + (i : ℝ) * ((u - e - (l + e)) / ((n : ℝ) - 1)) = (1 - τ) * (l + e) + τ * (u - e) := by
      rw [hτ]
      field_simp
      ring
    rw [e1]
    have := convex_Icc l u (x := l + e) ⟨by linarith, by linarith⟩ (y := u - e) ⟨by linarith, by linarith⟩ (a := 1 - τ) (b := τ)
      (by linarith) hτ0 (by ring)
    simpa using this

/-- Grids become dense. -/
lemma grid_fill {l r x δ : ℝ} (hx : l ≤ x ∧ x ≤ r) (h0 : 0 ≤ δ) (h1 : 2 * δ < r - l) {n : ℕ} (hn : 2 ≤ n) :
    ∃ z ∈ intervalGrid l r n δ, |z - x| ≤ δ + (r - l) / ((n : ℝ) - 1) := by
  have hn' : (0 : ℝ) < (n : ℝ) - 1 := by
    have : (2 : ℝ) ≤ n := by exact_mod_cast hn
    linarith
  set b := r - δ - (l + δ) with hb
  have hb0 : 0 < b := by linarith
  set y := max (l + δ) (min x (r - δ)) with hy
  have hy1 : l + δ ≤ y := le_max_left _ _
  have hy2 : y ≤ r - δ := max_le (by linarith) (min_le_right _ _)
  have hyx : |y - x| ≤ δ := by
    rw [hy, abs_le]
    rcases le_total x (r - δ) with ha | ha
    · rw [min_eq_left ha]
      rcases le_total (l + δ) x with hc | hc
      · rw [max_eq_right hc]; constructor <;> linarith
      · rw [max_eq_left hc]; constructor <;> linarith [hx.1]
    · rw [min_eq_right ha, max_eq_right (by linarith)]; constructor <;> linarith [hx.2]
  set s := (y - (l + δ)) / (b / ((n : ℝ) - 1)) with hs
  have hst : 0 < b / ((n : ℝ) - 1) := div_pos hb0 hn'
  have hs0 : 0 ≤ s := div_nonneg (by linarith) hst.le
  have hs1 : s ≤ (n : ℝ) - 1 := by
    rw [hs, div_le_iff₀ hst]
    have : ((n : ℝ) - 1) * (b / ((n : ℝ) - 1)) = b := by field_simp
    rw [this]
    linarith
  have hfl := Nat.floor_le hs0
  have hfl2 := Nat.lt_floor_add_one s
  have hlt : ⌊s⌋₊ < n := by
    have : (⌊s⌋₊ : ℝ) < n := by linarith
    exact_mod_cast this
  have hlen : ⌊s⌋₊ < (linspace (l + δ) (r - δ) n).length := by simpa [linspace] using hlt
  refine ⟨(linspace (l + δ) (r - δ) n)[⌊s⌋₊], List.getElem_mem _, ?_⟩
  rw [linspace_get _ _ _ _ _ hn]
  have hys : y = l + δ + s * (b / ((n : ℝ) - 1)) := by
    rw [hs]
    field_simp
    ring
  have hz : |l + δ + ⌊s⌋₊ * ((r - δ - (l + δ)) / ((n : ℝ) - 1)) - y| ≤ (r - l) / ((n : ℝ) - 1) := by
    rw [hys, ← hb]
    have e1 : l + δ + ⌊s⌋₊ * (b / ((n : ℝ) - 1)) - (l + δ + s * (b / ((n : ℝ) - 1))) = -((s - ⌊s⌋₊) * (b / ((n : ℝ) - 1))) := by ring
    rw [e1, abs_neg, abs_of_nonneg (mul_nonneg (by linarith) hst.le)]
    calc (s - ⌊s⌋₊) * (b / ((n : ℝ) - 1)) ≤ 1 * (b / ((n : ℝ) - 1)) := mul_le_mul_of_nonneg_right (by linarith) hst.le
      _ = b / ((n : ℝ) - 1) := one_mul _
      _ ≤ (r - l) / ((n : ℝ) - 1) := div_le_div_of_nonneg_right (by linarith) hn'.le
  have := abs_sub_le (l + δ + ⌊s⌋₊ * ((r - δ - (l + δ)) / ((n : ℝ) - 1))) y x
  linarith

/-- From some size on, grids with small insets are dense enough. -/
lemma grid_dense (l r : ℝ) {η : ℝ} (hη : 0 < η) : ∃ N : ℕ, ∀ n ≥ N, ∀ δ, 0 ≤ δ → δ ≤ η / 2 → 2 * δ < r - l → ∀ x, l ≤ x ∧ x ≤ r →
    ∃ z ∈ intervalGrid l r n δ, |z - x| < η := by
  obtain ⟨N, hN⟩ := exists_nat_gt ((r - l) / (η / 2) + 2)
  refine ⟨max N 2, fun n hn δ h0 h1 h2 x hx => ?_⟩
  have hn2 : 2 ≤ n := (le_max_right _ _).trans hn
  obtain ⟨z, hz, h3⟩ := grid_fill hx h0 h2 hn2
  refine ⟨z, hz, lt_of_le_of_lt h3 ?_⟩
  have h4 : (N : ℝ) ≤ n := by exact_mod_cast (le_max_left _ _).trans hn
  have h5 : (r - l) / (η / 2) < (n : ℝ) - 1 := by linarith
  have h6 : (r - l) / ((n : ℝ) - 1) < η / 2 := by
    have hn' : (0 : ℝ) < (n : ℝ) - 1 := by
      have : (2 : ℝ) ≤ n := by exact_mod_cast hn2
      linarith
    rw [div_lt_iff₀ (by linarith)] at h5
    rw [div_lt_iff₀ hn']
    linarith
  linarith

/-- Fine grids have many points near every point. -/
lemma grid_many {l r : ℝ} (hlr : l < r) {η : ℝ} (hη : 0 < η) (k : ℕ) : ∃ N : ℕ, ∀ n ≥ N, ∀ x, l ≤ x ∧ x ≤ r →
    ∃ Z : Finset ℝ, Z.card = k ∧ ∀ z ∈ Z, z ∈ intervalGrid l r n 0 ∧ |z - x| < η := by
  classical
  rcases Nat.eq_zero_or_pos k with rfl | hk
  · exact ⟨0, fun n _ x _ => ⟨∅, rfl, fun z hz => by simp at hz⟩⟩
  have hk' : (0 : ℝ) < k := by exact_mod_cast hk
  set ρ : ℝ := min (η / 2) ((r - l) / 2) with hρ
  have hρ0 : 0 < ρ := lt_min (by linarith) (by linarith)
  have hρ1 : ρ ≤ η / 2 := min_le_left _ _
  have hρ2 : ρ ≤ (r - l) / 2 := min_le_right _ _
  have hw : 0 < ρ / (2 * k) := by positivity
  obtain ⟨N, hN⟩ := grid_dense l r hw
  refine ⟨N, fun n hn x hx => ?_⟩
  obtain ⟨s, hs0, hs1, hs2, hs3⟩ : ∃ s, l ≤ s ∧ s + ρ ≤ r ∧ x - ρ ≤ s ∧ s ≤ x := by
    rcases le_total (x + ρ) r with h | h
    · exact ⟨x, hx.1, h, by linarith, le_rfl⟩
    · exact ⟨x - ρ, by linarith, by linarith [hx.2], le_rfl, by linarith⟩
  have hp : ∀ i : Fin k, l ≤ s + (2 * (i : ℝ) + 1) * (ρ / (2 * k)) ∧ s + (2 * (i : ℝ) + 1) * (ρ / (2 * k)) ≤ r := by
    intro i
    have hi : ((i : ℕ) : ℝ) + 1 ≤ k := by exact_mod_cast i.2
    have h1 : (2 * (i : ℝ) + 1) * (ρ / (2 * k)) ≤ ρ := by
      rw [mul_div_assoc', div_le_iff₀ (by positivity)]
      nlinarith
    have h2 : 0 ≤ (2 * (i : ℝ) + 1) * (ρ / (2 * k)) := by positivity
    constructor <;> linarith
  choose z hz hzd using fun i => hN n hn 0 le_rfl (by positivity) (by linarith) _ (hp i)
  have hinj : Function.Injective z := by
    have key : ∀ i j : Fin k, i < j → z i < z j := by
      intro i j hij
      have h1 := abs_lt.mp (hzd i)
      have h2 := abs_lt.mp (hzd j)
      have h3 : ((i : ℕ) : ℝ) + 1 ≤ ((j : ℕ) : ℝ) := by exact_mod_cast hij
      nlinarith [h1.2, h2.1]
    intro i j hij
    rcases lt_trichotomy i j with h | h | h
    · exact absurd hij (key i j h).ne
    · exact h
    · exact absurd hij (key j i h).ne'
  refine ⟨Finset.univ.image z, by rw [Finset.card_image_of_injective _ hinj]; simp, fun y hy => ?_⟩
  obtain ⟨i, -, rfl⟩ := Finset.mem_image.mp hy
  refine ⟨hz i, ?_⟩
  have hi : ((i : ℕ) : ℝ) + 1 ≤ k := by exact_mod_cast i.2
  have h1 := abs_lt.mp (hzd i)
  have h2 : (2 * (i : ℝ) + 1) * (ρ / (2 * k)) + ρ / (2 * k) ≤ ρ := by
    have : (2 * (i : ℝ) + 1) * (ρ / (2 * k)) + ρ / (2 * k) = ρ * ((i + 1) / k) := by field_simp; ring
    rw [this]
    have : ((i : ℝ) + 1) / k ≤ 1 := (div_le_one hk').mpr hi
    nlinarith
  have h3 : 0 ≤ (2 * (i : ℝ) + 1) * (ρ / (2 * k)) - ρ / (2 * k) := by
    have : (2 * (i : ℝ) + 1) * (ρ / (2 * k)) - ρ / (2 * k) = 2 * i * (ρ / (2 * k)) := by ring
    rw [this]
    positivity
  rw [abs_lt]
  constructor <;> linarith [h1.1, h1.2]

end LinPDE.Solve
