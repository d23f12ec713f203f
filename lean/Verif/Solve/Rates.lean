import Verif.Solve.SmoothProps

/-!
# C78: lemmas for convergence rates

The derivatives of the kernels are Lipschitz on bounded sets, so that the observed quantities of functions at finite distance from the
prior mean are Hölder continuous; a function with many zeros in a short interval is small there (iterated Rolle).
-/

namespace LinPDE.Solve
open LinPDE.Domains LinPDE.Pde LinPDE.GP LinPDE.Block LinPDE.PosDef Matrix
open LinPDE.Matern (DOp OpAt phi psi phi_of_nonneg phi_of_nonpos hasDerivAt_psi)

variable {d : ℕ} {I : Set (Ix d)} {K : Ix d → Pt d → Ix d → Pt d → ℝ}

/-! ### Lipschitz kernels -/

/-- Bounded and Lipschitz in the second argument on `S`. -/
def BL (S : Set (Pt d)) (g : Pt d → Pt d → ℝ) : Prop :=
  ∃ C : ℝ, 0 ≤ C ∧ ∀ x ∈ S, ∀ y ∈ S, |g x y| ≤ C ∧ ∀ y' ∈ S, |g x y - g x y'| ≤ C * dist y y'

/-- The derivatives of the kernel are Lipschitz on bounded sets. -/
def LipK (I : Set (Ix d)) (K : Ix d → Pt d → Ix d → Pt d → ℝ) : Prop :=
  ∀ α ∈ I, ∀ β ∈ I, ∀ S : Set (Pt d), IsCompact S → BL S fun x y => K α x β y

lemma BL.mul {S : Set (Pt d)} {g g' : Pt d → Pt d → ℝ} (h : BL S g) (h' : BL S g') : BL S fun x y => g x y * g' x y := by
  obtain ⟨C, hC, h⟩ := h
  obtain ⟨C', hC', h'⟩ := h'
  refine ⟨2 * (C * C'), by positivity, fun x hx y hy => ⟨?_, fun y' hy' => ?_⟩⟩
  · rw [abs_mul]
    have := mul_le_mul (h x hx y hy).1 (h' x hx y hy).1 (abs_nonneg _) hC
    nlinarith [mul_nonneg hC hC']
  · have e : g x y * g' x y - g x y' * g' x y' = g x y * (g' x y - g' x y') + (g x y - g x y') * g' x y' := by ring
    have h1 := mul_le_mul (h x hx y hy).1 ((h' x hx y hy).2 y' hy') (abs_nonneg _) hC
    have h2 := mul_le_mul ((h x hx y hy).2 y' hy') (h' x hx y' hy').1 (abs_nonneg _) (mul_nonneg hC dist_nonneg)
    rw [← abs_mul] at h1 h2
    rw [e]
    refine (abs_add_le _ _).trans ((add_le_add h1 h2).trans (le_of_eq ?_))
    ring

lemma BL.const (S : Set (Pt d)) (c : ℝ) : BL S fun _ _ => c :=
  ⟨|c|, abs_nonneg c, fun _ _ _ _ => ⟨le_rfl, fun _ _ => by
    rw [sub_self, abs_zero]
    exact mul_nonneg (abs_nonneg c) dist_nonneg⟩⟩

lemma BL.prod {S : Set (Pt d)} {ι : Type} (s : Finset ι) {g : ι → Pt d → Pt d → ℝ} (h : ∀ i ∈ s, BL S (g i)) : BL S fun x y => ∏ i ∈ s, g i x y := by
  classical
  induction s using Finset.induction_on with
  | empty => simpa using BL.const S 1
  | insert i s hi ih =>
    simp only [Finset.prod_insert hi]
    exact (h i (Finset.mem_insert_self _ _)).mul (ih fun j hj => h j (Finset.mem_insert_of_mem hj))

/-- Profiles that are Lipschitz on bounded intervals. -/
def LocLip (φ : ℝ → ℝ) : Prop := ∀ R : ℝ, ∃ C : ℝ, 0 ≤ C ∧ ∀ s t, |s| ≤ R → |t| ≤ R → |φ s - φ t| ≤ C * |s - t|

lemma locLip_deriv {φ φ' : ℝ → ℝ} (h : ∀ t, HasDerivAt φ (φ' t) t) (hc : Continuous φ') : LocLip φ := by
  intro R
  obtain ⟨C, hC⟩ := (isCompact_Icc (a := -R) (b := R)).exists_bound_of_continuousOn hc.continuousOn
  refine ⟨|C|, abs_nonneg C, fun s t hs ht => ?_⟩
  have := (convex_Icc (-R) R).norm_image_sub_le_of_norm_hasDerivWithin_le (f := φ) (f' := φ') (C := |C|)
    (fun x _ => (h x).hasDerivWithinAt) (fun x hx => (hC x hx).trans (le_abs_self C)) (abs_le.mp ht) (abs_le.mp hs)
  simpa [Real.norm_eq_abs] using this

lemma LocLip.scale {φ : ℝ → ℝ} (h : LocLip φ) (a s : ℝ) : LocLip fun t => a * φ (s * t) := by
  intro R
  obtain ⟨C, hC, h⟩ := h (|s| * R)
  refine ⟨|a| * C * |s|, by positivity, fun u v hu hv => ?_⟩
  have := h (s * u) (s * v) (by rw [abs_mul]; exact mul_le_mul_of_nonneg_left hu (abs_nonneg s)) (by rw [abs_mul]; exact mul_le_mul_of_nonneg_left hv (abs_nonneg s))
  rw [← mul_sub, abs_mul] at this
  rw [← mul_sub, abs_mul]
  calc _ ≤ |a| * (C * (|s| * |u - v|)) := mul_le_mul_of_nonneg_left this (abs_nonneg a)
    _ = _ := by ring

lemma psi_cont (p n : ℕ) : Continuous (psi p n) := continuous_iff_continuousAt.mpr fun t => (hasDerivAt_psi p n t).continuousAt

/-- All derivatives of the Matérn profile up to the highest even one are Lipschitz on bounded intervals. -/
lemma matern_locLip {p n : ℕ} (hn : n ≤ 2 * p) : LocLip (phi p n) := by
  rcases hn.lt_or_eq with h | h
  · refine locLip_deriv (φ' := phi p (n + 1)) (fun t => (matern_chain p).deriv n (by exact_mod_cast (by omega : n + 1 ≤ p + p)) t)
      ((matern_chain p).cont (n + 1) (by exact_mod_cast (by omega : n + 1 ≤ p + p)))
  · have he : Even n := ⟨p, by omega⟩
    have e : ∀ t, phi p n t = psi p n |t| := fun t => by
      rcases le_total 0 t with ht | ht
      · rw [phi_of_nonneg ht, abs_of_nonneg ht]
      · rw [phi_of_nonpos ht (.inr (.inl he)), abs_of_nonpos ht, he.neg_one_pow, one_mul]
    intro R
    obtain ⟨C, hC, h⟩ := locLip_deriv (hasDerivAt_psi p n) (psi_cont p (n + 1)) R
    refine ⟨C, hC, fun s t hs ht => ?_⟩
    rw [e, e]
    refine (h |s| |t| (by rwa [abs_abs]) (by rwa [abs_abs])).trans (mul_le_mul_of_nonneg_left ?_ hC)
    exact abs_abs_sub_abs_le_abs_sub s t

lemma prod_lip {N : Fin d → ℕ∞} {φ : Fin d → ℕ → ℝ → ℝ} (hφ : ∀ j (i : ℕ), (i : ℕ∞) ≤ N j + N j → LocLip (φ j i)) : LipK (box N) (prodK φ) := by
  intro α hα β hβ S hS
  unfold prodK jetK
  refine BL.prod _ fun j _ => (BL.const S _).mul ?_
  obtain ⟨R, hR⟩ := hS.isBounded.exists_norm_le
  have hn : ((α j + β j : ℕ) : ℕ∞) ≤ N j + N j := by
    push_cast
    exact add_le_add (hα j) (hβ j)
  obtain ⟨C, hC, h⟩ := hφ j (α j + β j) hn (2 * |R|)
  have hb : ∀ x ∈ S, ∀ y ∈ S, |x j - y j| ≤ 2 * |R| := fun x hx y hy => by
    have h1 := (norm_le_pi_norm x j).trans (hR x hx)
    have h2 := (norm_le_pi_norm y j).trans (hR y hy)
    rw [Real.norm_eq_abs] at h1 h2
    have h3 := abs_sub (x j) (y j)
    have := le_abs_self R
    linarith
  refine ⟨C + (|φ j (α j + β j) 0| + C * (2 * |R|)), by positivity, fun x hx y hy => ⟨?_, fun y' hy' => ?_⟩⟩
  · have h1 := h (x j - y j) 0 (hb x hx y hy) (by simp)
    have h2 : C * |x j - y j - 0| ≤ C * (2 * |R|) := mul_le_mul_of_nonneg_left (by rw [sub_zero]; exact hb x hx y hy) hC
    have h3 := abs_sub_abs_le_abs_sub (φ j (α j + β j) (x j - y j)) (φ j (α j + β j) 0)
    linarith
  · have h1 := h (x j - y j) (x j - y' j) (hb x hx y hy) (hb x hx y' hy')
    have e : x j - y j - (x j - y' j) = -(y j - y' j) := by ring
    rw [e, abs_neg] at h1
    have h2 : |y j - y' j| ≤ dist y y' := by
      have := dist_le_pi_dist y y' j
      rwa [Real.dist_eq] at this
    refine h1.trans (mul_le_mul ?_ h2 (abs_nonneg _) (by positivity))
    have : 0 ≤ |φ j (α j + β j) 0| + C * (2 * |R|) := by positivity
    linarith

/-- Products of Matérn kernels. -/
lemma matern_lip (p : Fin d → ℕ) (s : Fin d → ℝ) : LipK (box fun j => (p j : ℕ∞)) (matK p s) :=
  prod_lip fun j i hi => (matern_locLip (by
    have : ((i : ℕ) : ℕ∞) ≤ ((p j + p j : ℕ) : ℕ∞) := by push_cast; exact hi
    have := ENat.coe_le_coe.mp this
    omega)).scale _ _

/-- Squared-exponential kernels. -/
lemma expquad_lip (l : Fin d → ℝ) : LipK Set.univ (expK l) := by
  rw [box_top]
  exact prod_lip fun j i _ => locLip_deriv (fun t => (gauss_chain _).deriv i le_top t) ((gauss_chain _).cont (i + 1) le_top)

lemma smul_lip (h : LipK I K) (v : ℝ) : LipK I fun α x β y => v * K α x β y := fun α hα β hβ S hS => (BL.const S v).mul (h α hα β hβ S hS)

/-- The variance of the difference of an operator at two points is at most proportional to their distance. -/
lemma op_var_le (h : JetKernel I K) (hK : LipK I K) (m : jetF I) (a : I →₀ ℝ) {S : Set (Pt d)} (hS : IsCompact S) :
    ∃ C : ℝ, 0 ≤ C ∧ ∀ x ∈ S, ∀ y ∈ S, (h.prior m).cov (h.op m a x - h.op m a y) (h.op m a x - h.op m a y) ≤ C * dist x y := by
  choose C hC hb using fun (α β : I) => hK α α.2 β β.2 S hS
  refine ⟨∑ α ∈ a.support, ∑ β ∈ a.support, |a α * a β| * (2 * C α β),
    Finset.sum_nonneg fun α _ => Finset.sum_nonneg fun β _ => mul_nonneg (abs_nonneg _) (mul_nonneg two_pos.le (hC α β)), fun x hx y hy => ?_⟩
  have hP := jet_regular h m
  have e : (h.prior m).cov (h.op m a x - h.op m a y) (h.op m a x - h.op m a y) =
      ((h.prior m).cov (h.op m a x) (h.op m a x) - (h.prior m).cov (h.op m a x) (h.op m a y)) -
        ((h.prior m).cov (h.op m a y) (h.op m a x) - (h.prior m).cov (h.op m a y) (h.op m a y)) := by
    have hc : (h.prior m).cross (h.op m a x - h.op m a y) = (h.prior m).cross (h.op m a x) - (h.prior m).cross (h.op m a y) := rfl
    have hd : ∀ f, (h.op m a x - h.op m a y).1 f = (h.op m a x).1 f - (h.op m a y).1 f := fun f => rfl
    simp only [Prior.cov]
    rw [hc, hd, map_sub, map_sub]
  rw [e, op_cov, op_cov, op_cov, op_cov]
  simp only [← Finset.sum_sub_distrib, Finset.sum_mul]
  refine Finset.sum_le_sum fun α _ => Finset.sum_le_sum fun β _ => ?_
  have h1 := ((hb α β) x hx x hx).2 y hy
  have h2 := ((hb α β) y hy x hx).2 y hy
  have e2 : a α * a β * K α x β x - a α * a β * K α x β y - (a α * a β * K α y β x - a α * a β * K α y β y) =
      a α * a β * ((K α x β x - K α x β y) - (K α y β x - K α y β y)) := by ring
  rw [e2]
  refine (le_abs_self _).trans ?_
  rw [abs_mul, mul_assoc]
  refine mul_le_mul_of_nonneg_left ?_ (abs_nonneg _)
  refine (abs_sub _ _).trans ?_
  linarith

/-! ### The posterior -/

/-- Without noise the posterior mean satisfies the observations, and no functional of it differs from that of the solution by more than
`√B` prior standard deviations. -/
lemma solve_post (h : JetKernel I K) (hs : Strict I K) (hK : ContK I K) (m : jetF I) {a : I →₀ ℝ} (ha : Indep h a) {f : jetF I} {B : ℝ}
    (hB : 0 ≤ B) (hf : Within (h.prior m) f B) (e : Env) (he : e.CholOK) (o : Obs d) (os : List (Obs d))
    (hn : ∀ pde, (ptsOf pde (o :: os)).Nodup) (hsol : Solves h a f (o :: os)) :
    ∃ c, solve e h m a o os = .ok c ∧ ∃ g : jetF I, g.1 = c.mean ∧ (Continuous fun x => f.1 x - c.mean x) ∧
      (∀ L : (h.prior m).Λ, (L.1 f - L.1 g) ^ 2 ≤ B * (h.prior m).cov L L) ∧
      ∀ w ∈ o :: os, ∀ z ∈ w.X, ((opOf h a w.pde).sum fun α t => t * jet f α z) = (opOf h a w.pde).sum fun α t => t * jet g α z := by
  have hP := jet_regular h m
  have hNO : NoiseOK (o :: os) := fun w hw v hv => by rw [(hsol w hw).1] at hv; cases hv
  have hG : (jG (o.batch h m a :: os.map (Obs.batch h m a))).PosDef := obs_gram h hs m ha (o :: os) hn hNO
  have hN : NoisePSD (o.batch h m a :: os.map (Obs.batch h m a)) := noisePSD_obs h m a (os := o :: os) hNO
  have hY : DataOf (o.batch h m a :: os.map (Obs.batch h m a)) f 0 := fits_data h m a (os := o :: os) fun w hw => (hsol w hw).2
  have h0 : NoiseWithin (o.batch h m a :: os.map (Obs.batch h m a)) 0 0 := fun a => by simp
  obtain ⟨c, hc, hm, -⟩ := run_posterior e he hP _ _ hG
  have hm : (postMeanF (o.batch h m a :: os.map (Obs.batch h m a))).1 = c.mean := funext fun x => by rw [hm, postMeanF_apply]
  have wc := worst_case hP hG hN hB le_rfl hf h0 hY
  rw [add_zero] at wc
  refine ⟨c, hc, postMeanF (o.batch h m a :: os.map (Obs.batch h m a)), hm, ?_, fun L => ?_, fun w hw z hz => ?_⟩
  · have hk : Continuous fun p : Pt d × Pt d => (h.prior m).k p.1 p.2 := hK 0 h.zero_mem 0 h.zero_mem
    have e1 := within_cont hP hk hf
    have e2 := within_cont hP hk (f := (posterior (h.prior m) (o.batch h m a :: os.map (Obs.batch h m a))).m) (B := B + 0)
      (minimal hP hG hN hB le_rfl hf h0 hY)
    have e3 := e1.sub e2
    convert! e3 using 1
    funext x
    rw [← hm]
    show _ = f.1 x - (h.prior m).m.1 x - ((postMeanF (o.batch h m a :: os.map (Obs.batch h m a))).1 x - (h.prior m).m.1 x)
    ring
  · have h1 := risk_ge hG L 0
    rw [risk_eq_cov hP] at h1
    simp only [Pi.zero_apply, zero_smul, Finset.sum_const_zero, Matrix.mulVec_zero, dotProduct_zero, add_zero] at h1
    rw [show L - 0 = L from Subtype.ext (sub_zero L.1)] at h1
    exact (wc L).trans (mul_le_mul_of_nonneg_left h1 hB)
  · obtain ⟨i, hi⟩ := List.get_of_mem hz
    have hv : (w.batch h m a).noiseCov = (0 : ℝ) • 1 := by rw [noise_eq, (hsol w hw).1]; rfl
    obtain ⟨V, hV, hle⟩ := nearest_average e he hP _ _ hG c hc (w.batch h m a) (List.mem_map_of_mem (f := Obs.batch h m a) hw) hv
      ({i} : Finset (Fin w.X.length)) (Finset.singleton_nonempty i) (h.op m (opOf h a w.pde) z) (s := 0) (fun j hj => by
        obtain rfl := Finset.mem_singleton.mp hj
        have : (w.batch h m a).L j = h.op m (opOf h a w.pde) z := by rw [← hi]; rfl
        rw [this]
        exact le_of_eq (by ring))
    rw [zero_div, add_zero] at hle
    have hV' : (posterior (h.prior m) (o.batch h m a :: os.map (Obs.batch h m a))).cov (h.op m (opOf h a w.pde) z) (h.op m (opOf h a w.pde) z) = V := by
      have := Except.ok.inj ((functl_one e he hP hG hc (h.op m (opOf h a w.pde) z)).2.symm.trans hV)
      exact congrFun (congrFun this 0) 0
    have h2 := wc (h.op m (opOf h a w.pde) z)
    rw [hV'] at h2
    have h3 : ((h.op m (opOf h a w.pde) z).1 f - (h.op m (opOf h a w.pde) z).1 (postMeanF (o.batch h m a :: os.map (Obs.batch h m a)))) ^ 2 ≤ 0 :=
      h2.trans (mul_nonpos_of_nonneg_of_nonpos hB hle)
    have h4 := pow_eq_zero_iff (two_ne_zero) |>.mp (le_antisymm h3 (sq_nonneg _))
    rw [op_apply, op_apply] at h4
    linarith

/-- The error near observations, with noise: with the observations at `k` points within `η` of a point the observed quantity is predicted
up to the square root of `B (C η + v / k)`. -/
lemma solve_rate (h : JetKernel I K) (hs : Strict I K) (hK : ContK I K) (hL : LipK I K) (m : jetF I) {a : I →₀ ℝ} (ha : Indep h a)
    {S : Set (Pt d)} (hS : IsCompact S) :
    ∃ C : ℝ, 0 ≤ C ∧ ∀ {f : jetF I} {B : ℝ}, 0 ≤ B → Within (h.prior m) f B → ∀ e : Env, e.CholOK → ∀ (o : Obs d) (os : List (Obs d)),
      (∀ pde, (ptsOf pde (o :: os)).Nodup) → NoiseOK (o :: os) → Fits h a f (o :: os) →
      ∃ c, solve e h m a o os = .ok c ∧ ∃ J, HasJet I c.mean J ∧ (Continuous fun x => f.1 x - c.mean x) ∧
        ∀ w ∈ o :: os, ∀ x ∈ S, ∀ T : Finset (Pt d), T.Nonempty → ∀ η : ℝ, (∀ z ∈ T, z ∈ w.X ∧ z ∈ S ∧ dist x z ≤ η) →
          |((opOf h a w.pde).sum fun α t => t * jet f α x) - (opOf h a w.pde).sum fun α t => t * J α x| ≤ √(B * (C * η + w.noise.getD 0 / T.card)) := by
  classical
  have hP := jet_regular h m
  obtain ⟨C0, hC0, v0⟩ := op_var_le h hL m (opOf h a false) hS
  obtain ⟨C1, hC1, v1⟩ := op_var_le h hL m (opOf h a true) hS
  refine ⟨max C0 C1, hC0.trans (le_max_left _ _), fun {f B} hB hf e he o os hn hNO hsol => ?_⟩
  have hv : ∀ (pde : Bool), ∀ x ∈ S, ∀ y ∈ S, (h.prior m).cov (h.op m (opOf h a pde) x - h.op m (opOf h a pde) y) (h.op m (opOf h a pde) x - h.op m (opOf h a pde) y) ≤
      max C0 C1 * dist x y := by
    intro pde x hx y hy
    cases pde with
    | false => exact (v0 x hx y hy).trans (mul_le_mul_of_nonneg_right (le_max_left _ _) dist_nonneg)
    | true => exact (v1 x hx y hy).trans (mul_le_mul_of_nonneg_right (le_max_right _ _) dist_nonneg)
  have hG : (jG (o.batch h m a :: os.map (Obs.batch h m a))).PosDef := obs_gram h hs m ha (o :: os) hn hNO
  have hN : NoisePSD (o.batch h m a :: os.map (Obs.batch h m a)) := noisePSD_obs h m a (os := o :: os) hNO
  have hY : DataOf (o.batch h m a :: os.map (Obs.batch h m a)) f 0 := fits_data h m a hsol
  have h0 : NoiseWithin (o.batch h m a :: os.map (Obs.batch h m a)) 0 0 := fun a => by simp
  obtain ⟨c, hc, hm, -⟩ := run_posterior e he hP _ _ hG
  have hm : c.mean = (postMeanF (o.batch h m a :: os.map (Obs.batch h m a))).1 := funext fun x => by rw [hm, postMeanF_apply]
  have wc := worst_case hP hG hN hB le_rfl hf h0 hY
  rw [add_zero] at wc
  refine ⟨c, hc, jet (postMeanF (o.batch h m a :: os.map (Obs.batch h m a))), hm ▸ jet_spec _, ?_, fun w hw x hx T hT η hz => ?_⟩
  · have hk : Continuous fun p : Pt d × Pt d => (h.prior m).k p.1 p.2 := hK 0 h.zero_mem 0 h.zero_mem
    have e1 := within_cont hP hk hf
    have e2 := within_cont hP hk (f := (posterior (h.prior m) (o.batch h m a :: os.map (Obs.batch h m a))).m) (B := B + 0)
      (minimal hP hG hN hB le_rfl hf h0 hY)
    have e3 := e1.sub e2
    convert! e3 using 1
    funext x
    rw [hm]
    show _ = f.1 x - (h.prior m).m.1 x - ((postMeanF (o.batch h m a :: os.map (Obs.batch h m a))).1 x - (h.prior m).m.1 x)
    ring
  · have hidx : ∀ z : T, ∃ i : Fin w.X.length, w.X.get i = z := fun z => List.get_of_mem (hz z z.2).1
    choose idx hidx using hidx
    have hinj : Function.Injective idx := fun z z' hzz => Subtype.ext (by rw [← hidx z, ← hidx z', hzz])
    have hcard : (Finset.univ.image idx).card = T.card := by
      rw [Finset.card_image_of_injective _ hinj, Finset.card_univ, Fintype.card_coe]
    have hne : (Finset.univ.image idx).Nonempty := by rw [← Finset.card_pos, hcard]; exact hT.card_pos
    obtain ⟨V, hV, hle⟩ := nearest_average e he hP _ _ hG c hc (w.batch h m a) (List.mem_map_of_mem (f := Obs.batch h m a) hw) (noise_eq h m a w)
      (Finset.univ.image idx) hne (h.op m (opOf h a w.pde) x) (s := max C0 C1 * η) (fun i hi => by
        obtain ⟨z, -, rfl⟩ := Finset.mem_image.mp hi
        have hLz : (w.batch h m a).L (idx z) = h.op m (opOf h a w.pde) z := by rw [← hidx z]; rfl
        rw [hLz]
        have hd := (hv w.pde x hx z (hz z z.2).2.1).trans (mul_le_mul_of_nonneg_left (hz z z.2).2.2 (hC0.trans (le_max_left _ _)))
        refine le_trans (le_of_eq ?_) hd
        have hcr : ∀ L M : (h.prior m).Λ, (h.prior m).cross (L - M) = (h.prior m).cross L - (h.prior m).cross M := fun _ _ => rfl
        have hap : ∀ (L M : (h.prior m).Λ) f, (L - M).1 f = L.1 f - M.1 f := fun _ _ _ => rfl
        have hsy := hP.symm (h.op m (opOf h a w.pde) x) (h.op m (opOf h a w.pde) z)
        simp only [Prior.cov] at hsy ⊢
        rw [hcr, hap, map_sub, map_sub]
        linarith)
    have hle : V ≤ max C0 C1 * η + w.noise.getD 0 / T.card := by
      refine hle.trans (le_of_eq ?_)
      exact congrArg (fun k : ℕ => max C0 C1 * η + w.noise.getD 0 / (k : ℝ)) hcard
    have hV' : (posterior (h.prior m) (o.batch h m a :: os.map (Obs.batch h m a))).cov (h.op m (opOf h a w.pde) x) (h.op m (opOf h a w.pde) x) = V := by
      have := Except.ok.inj ((functl_one e he hP hG hc (h.op m (opOf h a w.pde) x)).2.symm.trans hV)
      exact congrFun (congrFun this 0) 0
    have h2 : ((h.op m (opOf h a w.pde) x).1 f - (h.op m (opOf h a w.pde) x).1 (postMeanF (o.batch h m a :: os.map (Obs.batch h m a)))) ^ 2 ≤ B * V :=
      hV' ▸ wc (h.op m (opOf h a w.pde) x)
    rw [op_apply, op_apply] at h2
    exact Real.abs_le_sqrt (h2.trans (mul_le_mul_of_nonneg_left hle hB))

/-! ### Functions with many zeros -/

/-- Iterated Rolle: with `q + 1` zeros in an interval of length `ℓ`, and a `q`-th derivative varying by at most `M`, a function is at most
`ℓ^q M`. -/
lemma rolle_chain : ∀ (q : ℕ) {D : ℕ → ℝ → ℝ} (_ : ∀ k < q, ∀ t, HasDerivAt (D k) (D (k + 1) t) t) {a b : ℝ} {z : ℕ → ℝ}
    (_ : ∀ i < q, z i < z (i + 1)) (_ : ∀ i ≤ q, z i ∈ Set.Icc a b ∧ D 0 (z i) = 0) {M : ℝ} (_ : ∀ s ∈ Set.Icc a b, ∀ t ∈ Set.Icc a b, |D q s - D q t| ≤ M),
    ∀ t ∈ Set.Icc a b, |D 0 t| ≤ (b - a) ^ q * M
  | 0, D, _, a, b, z, _, h0, M, hM, t, ht => by
    obtain ⟨h1, h2⟩ := h0 0 le_rfl
    have := hM t ht (z 0) h1
    rw [h2, sub_zero] at this
    simpa using this
  | q + 1, D, hD, a, b, z, hz, h0, M, hM, t, ht => by
    have hz' : ∀ i, ∃ y, i < q + 1 → z i < y ∧ y < z (i + 1) ∧ D 1 y = 0 := by
      intro i
      by_cases hi : i < q + 1
      · obtain ⟨y, hy, hy0⟩ := exists_hasDerivAt_eq_zero (f := D 0) (f' := D 1) (hz i hi)
          (fun x _ => (hD 0 (by omega) x).continuousAt.continuousWithinAt)
          (by rw [(h0 i (by omega)).2, (h0 (i + 1) (by omega)).2]) fun x _ => hD 0 (by omega) x
        exact ⟨y, fun _ => ⟨hy.1, hy.2, hy0⟩⟩
      · exact ⟨0, fun h => absurd h hi⟩
    choose y hy using hz'
    have ih := rolle_chain q (D := fun k => D (k + 1)) (fun k hk => hD (k + 1) (by omega)) (a := a) (b := b) (z := y)
      (fun i hi => (hy i (by omega)).2.1.trans (hy (i + 1) (by omega)).1)
      (fun i hi => ⟨⟨(h0 i (by omega)).1.1.trans (hy i (by omega)).1.le, (hy i (by omega)).2.1.le.trans (h0 (i + 1) (by omega)).1.2⟩, (hy i (by omega)).2.2⟩)
      (M := M) hM
    obtain ⟨h1, h2⟩ := h0 0 (by omega)
    have := (convex_Icc a b).norm_image_sub_le_of_norm_hasDerivWithin_le (f := D 0) (f' := D 1) (C := (b - a) ^ q * M)
      (fun x _ => (hD 0 (by omega) x).hasDerivWithinAt) (fun x hx => ih x hx) h1 ht
    rw [h2, sub_zero, Real.norm_eq_abs, Real.norm_eq_abs] at this
    have hM0 : 0 ≤ (b - a) ^ q * M := (abs_nonneg _).trans (ih t ht)
    have hle : |t - z 0| ≤ b - a := by
      rw [abs_le]
      constructor <;> linarith [ht.1, ht.2, h1.1, h1.2]
    calc _ ≤ (b - a) ^ q * M * (b - a) := this.trans (mul_le_mul_of_nonneg_left hle hM0)
      _ = _ := by rw [pow_succ]; ring

/-- Around every point of an interval a uniform grid has `q + 1` consecutive points. -/
lemma grid_near {l r x δ : ℝ} (hx : l ≤ x ∧ x ≤ r) (h0 : 0 ≤ δ) (h1 : 2 * δ < r - l) (q : ℕ) {n : ℕ} (hn : q + 2 ≤ n) :
    ∃ (a b : ℝ) (z : ℕ → ℝ), x ∈ Set.Icc a b ∧ l ≤ a ∧ b ≤ r ∧ b - a ≤ δ + (q + 1) * ((r - l) / ((n : ℝ) - 1)) ∧ (∀ i < q, z i < z (i + 1)) ∧
      ∀ i ≤ q, z i ∈ Set.Icc a b ∧ z i ∈ intervalGrid l r n δ := by
  have hn' : (0 : ℝ) < (n : ℝ) - 1 := by
    have : (2 : ℝ) ≤ n := by exact_mod_cast (by omega : 2 ≤ n)
    linarith
  set b := r - δ - (l + δ) with hb
  have hb0 : 0 < b := by linarith
  set st := b / ((n : ℝ) - 1) with hst
  have hst0 : 0 < st := div_pos hb0 hn'
  have hend : ((n : ℝ) - 1) * st = b := by rw [hst]; field_simp
  have hstle : st ≤ (r - l) / ((n : ℝ) - 1) := div_le_div_of_nonneg_right (by linarith) hn'.le
  -- the clipped point
  set y := max (l + δ) (min x (r - δ)) with hy
  have hy1 : l + δ ≤ y := le_max_left _ _
  have hy2 : y ≤ r - δ := max_le (by linarith) (min_le_right _ _)
  set s := (y - (l + δ)) / st with hs
  have hs0 : 0 ≤ s := div_nonneg (by linarith) hst0.le
  have hs1 : s ≤ (n : ℝ) - 1 := by
    rw [hs, div_le_iff₀ hst0, hend]
    linarith
  have hys : y = l + δ + s * st := by
    rw [hs]
    field_simp
    ring
  set j := min ⌊s⌋₊ (n - 1 - q) with hj
  have hjn : j + q ≤ n - 1 := by omega
  have hjr : ((j + q : ℕ) : ℝ) ≤ (n : ℝ) - 1 := by
    have : ((j + q : ℕ) : ℝ) ≤ ((n - 1 : ℕ) : ℝ) := by exact_mod_cast hjn
    rwa [Nat.cast_sub (by omega), Nat.cast_one] at this
  have hjs : (j : ℝ) ≤ s := (show (j : ℝ) ≤ (⌊s⌋₊ : ℝ) by exact_mod_cast min_le_left _ _).trans (Nat.floor_le hs0)
  have hsj : s ≤ j + q + 1 := by
    rcases le_total ⌊s⌋₊ (n - 1 - q) with h | h
    · have : j = ⌊s⌋₊ := min_eq_left h
      rw [this]
      have := (Nat.lt_floor_add_one s).le
      have hq : (0 : ℝ) ≤ q := Nat.cast_nonneg q
      linarith
    · have hjq : j = n - 1 - q := min_eq_right h
      have : j + q + 1 = n := by omega
      have h2 : ((j + q + 1 : ℕ) : ℝ) = n := by exact_mod_cast this
      push_cast at h2
      linarith
  set z : ℕ → ℝ := fun i => l + δ + (j + i : ℕ) * st with hz
  have hzl : ∀ i ≤ q, l + δ ≤ z i ∧ z i ≤ r - δ := by
    intro i hi
    have h2 : ((j + i : ℕ) : ℝ) ≤ (n : ℝ) - 1 := le_trans (by exact_mod_cast (by omega : j + i ≤ j + q)) hjr
    have h3 : ((j + i : ℕ) : ℝ) * st ≤ ((n : ℝ) - 1) * st := mul_le_mul_of_nonneg_right h2 hst0.le
    have h4 : 0 ≤ ((j + i : ℕ) : ℝ) * st := by positivity
    simp only [hz]
    rw [hend] at h3
    constructor <;> linarith
  have hmono : ∀ i i' : ℕ, i ≤ i' → z i ≤ z i' := by
    intro i i' hi
    have : ((j + i : ℕ) : ℝ) * st ≤ ((j + i' : ℕ) : ℝ) * st := mul_le_mul_of_nonneg_right (by exact_mod_cast (by omega : j + i ≤ j + i')) hst0.le
    simp only [hz]
    linarith
  have hz0y : z 0 ≤ y := by
    rw [hys]
    have : (j : ℝ) * st ≤ s * st := mul_le_mul_of_nonneg_right hjs hst0.le
    simp only [hz, add_zero]
    linarith
  have hyq : y ≤ z q + st := by
    rw [hys]
    have : s * st ≤ (j + q + 1) * st := mul_le_mul_of_nonneg_right hsj hst0.le
    simp only [hz]
    push_cast
    linarith
  have hzq : z q - z 0 = q * st := by
    simp only [hz]
    push_cast
    ring
  refine ⟨min x (z 0), max x (z q), z, ⟨min_le_left _ _, le_max_left _ _⟩, le_min hx.1 (by linarith [(hzl 0 (by omega)).1]),
    max_le hx.2 (by linarith [(hzl q le_rfl).2]), ?_, fun i hi => ?_, fun i hi => ⟨⟨(min_le_right _ _).trans (hmono 0 i (by omega)),
      (hmono i q hi).trans (le_max_right _ _)⟩, ?_⟩⟩
  · have hx1 : x - δ ≤ y ∧ y ≤ x + δ := by
      rw [hy]
      rcases le_total x (r - δ) with ha | ha
      · rw [min_eq_left ha]
        rcases le_total (l + δ) x with hc | hc
        · rw [max_eq_right hc]; constructor <;> linarith
        · rw [max_eq_left hc]; constructor <;> linarith [hx.1]
      · rw [min_eq_right ha, max_eq_right (by linarith)]; constructor <;> linarith [hx.2]
    have hq0 : (0 : ℝ) ≤ q := Nat.cast_nonneg q
    have hqs : (q + 1) * st ≤ (q + 1) * ((r - l) / ((n : ℝ) - 1)) := mul_le_mul_of_nonneg_left hstle (by linarith)
    have h2 : max x (z q) - min x (z 0) ≤ δ + (q + 1) * st := by
      have hqst : 0 ≤ q * st := by positivity
      rcases le_total x (z q) with ha | ha <;> rcases le_total x (z 0) with hc | hc
      · rw [max_eq_right ha, min_eq_left hc]; linarith
      · rw [max_eq_right ha, min_eq_right hc]; linarith
      · rw [max_eq_left ha, min_eq_left hc]; linarith
      · rw [max_eq_left ha, min_eq_right hc]; linarith
    linarith
  · simp only [hz]
    push_cast
    linarith
  · have hlt : j + i < n := by omega
    have hlen : j + i < (linspace (l + δ) (r - δ) n).length := by simpa [linspace] using hlt
    have : z i = (linspace (l + δ) (r - δ) n)[j + i] := by
      rw [linspace_get _ _ _ _ _ (by omega)]
    rw [this]
    exact List.getElem_mem _

end LinPDE.Solve
