import Verif.Solve.Rates

/-!
# C78: how fast the solvers converge

The error of the posterior mean in terms of the number of points. The constants depend on the kernel, the domain and the equation,
neither on the solution nor on the grids; the solution enters through its distance to the prior mean.
-/

namespace LinPDE.Solve
open LinPDE.Domains LinPDE.Pde LinPDE.GP LinPDE.Block LinPDE.PosDef Matrix Topology Filter
open LinPDE.Matern (DOp OpAt)
open scoped ContDiff

/-! ### The Poisson equation on an interval -/

/-- The observations of the script: exact values at both ends, and the equation on the grid. -/
lemma poisson1_setup {I : Set (Ix 1)} {K : Ix 1 → Pt 1 → Ix 1 → Pt 1 → ℝ} (h : JetKernel I K)
    {l r : ℝ} (hlr : l < r) {α : ℝ} (hα : α ≠ 0) (hI : orders (poissonOp 1 α) ⊆ I) (rhs sol : Option Fn)
    (hq : ∀ s, rhs = some s → s.inS = [] ∧ s.outS = []) (hsol : ∀ s, sol = some s → s.inS = [] ∧ s.outS = []) {g : ℝ → ℝ}
    (hg : ∀ x, (rhs.getD (.zero [] [])).ev [x] = [g x]) {f : jetF I}
    (hpde : ∀ x, l ≤ x ∧ x ≤ r → OpAt (poissonOp 1 α) f.1 ![x] (g x)) (n : ℕ) {δ : ℝ} (h0 : 0 ≤ δ) (hδ : 2 * δ < r - l) :
    ∃ (P : BVP) (b o : Obs 1), mkPoissonProblem (.dom (.interval l r)) rhs α (some (.array [2] [f.1 ![l], f.1 ![r]])) sol = .ok P ∧
      poisson1Obs P n δ = .ok (b, o) ∧ (∀ pde, (ptsOf pde [b, o]).Nodup) ∧ Solves h (coefs (poissonOp 1 α) hI) f [b, o] ∧
      b.pde = false ∧ ![l] ∈ b.X ∧ ![r] ∈ b.X ∧ o.pde = true ∧ ∀ z ∈ intervalGrid l r n δ, ![z] ∈ o.X := by
  obtain ⟨s, hP⟩ := mkPoissonProblem_interval hlr hα rhs sol (f.1 ![l]) (f.1 ![r]) hq hsol
  have hq' : (rhs.getD (.zero [] [])).inS = [] := by
    cases rhs with
    | none => rfl
    | some s => exact (hq s rfl).1
  have inj : Function.Injective fun x : ℝ => (![x] : Pt 1) := fun x y hxy => by simpa using congrFun hxy 0
  have hbounds : ∀ x ∈ intervalGrid l r n δ, l ≤ x ∧ x ≤ r := fun x hx => intervalGrid_bounds h0 (by linarith) hx
  refine ⟨_, _, _, hP, poisson1Obs_eq _ hq' hg _ _ s n δ, fun pde => ?_, fun w hw => ?_, rfl, by simp, by simp, rfl, fun z hz =>
    List.mem_map_of_mem (f := fun x : ℝ => (![x] : Pt 1)) hz⟩
  · cases pde
    · change ([![l], ![r]] ++ [] : List (Pt 1)).Nodup
      simp only [List.append_nil, List.nodup_cons, List.mem_singleton, List.not_mem_nil, not_false_eq_true, List.nodup_nil, and_true]
      exact fun hh => hlr.ne (inj hh)
    · change (((intervalGrid l r n δ).map fun x => (![x] : Pt 1)) ++ []).Nodup
      rw [List.append_nil]
      exact (intervalGrid_nodup (by intro hh; linarith) n).map inj
  · simp only [List.mem_cons, List.not_mem_nil, or_false] at hw
    rcases hw with rfl | rfl
    · refine solves_mk h _ false [(l, f.1 ![l]), (r, f.1 ![r])] (fun z => ![z.1]) (fun z => z.2) (fun z hz => ?_) rfl
      rw [value_sum h _ (jet_spec f)]
      simp only [List.mem_cons, List.not_mem_nil, or_false] at hz
      rcases hz with rfl | rfl <;> rfl
    · refine solves_mk h _ true (intervalGrid l r n δ) (fun x => ![x]) g (fun z hz => ?_) rfl
      exact poisson_jet h.lower hI f _ (hpde z (hbounds z hz))

/-- The derivatives along the line. -/
lemma jet1_deriv {I : Set (Ix 1)} {f : Pt 1 → ℝ} {J : Ix 1 → Pt 1 → ℝ} (hJ : HasJet I f J) {k : ℕ} (hk : (Pi.single 0 (k + 1) : Ix 1) ∈ I) (t : ℝ) :
    HasDerivAt (fun t : ℝ => J (Pi.single 0 k) ![t]) (J (Pi.single 0 (k + 1)) ![t]) t := by
  have h := hJ.partial (α := Pi.single 0 k) (j := 0) (by rw [← Pi.single_add]; exact hk) ![t]
  rw [← Pi.single_add] at h
  have h3 : HasDerivAt (fun s : ℝ => J (Pi.single 0 k) (![t] + s • Pi.single 0 1)) (J (Pi.single 0 (k + 1)) ![t]) (t - t) := by rwa [sub_self]
  have h4 := h3.comp_sub_const t t
  refine h4.congr_of_eventuallyEq (Filter.Eventually.of_forall fun s => ?_)
  refine congrArg (J (Pi.single 0 k)) ?_
  funext i
  fin_cases i
  simp

lemma poisson1_sum {I : Set (Ix 1)} {α : ℝ} (hI : orders (poissonOp 1 α) ⊆ I) (J : Ix 1 → Pt 1 → ℝ) (x : Pt 1) :
    ((coefs (poissonOp 1 α) hI).sum fun β t => t * J β x) = -α * J (Pi.single 0 2) x := by
  rw [coefs_sum]
  simp [opSum, poissonOp]

/-- C78: on an interval, for every kernel with `q` more derivatives than the equation needs there is a constant `C`, depending on the
kernel and the interval only, such that for all equations and all solutions at squared distance `B` of the prior mean the error of the
script with `n ≥ q + 2` points and inset `δ` is at most `C √B ρ^(q + 1/2)`, where `ρ = δ + (r - l) / (n - 1)`; the residual is at most
`|α|` times as large. -/
theorem poisson1_rate {I : Set (Ix 1)} {K : Ix 1 → Pt 1 → Ix 1 → Pt 1 → ℝ} (h : JetKernel I K) (hs : Strict I K) (hK : ContK I K) (hL : LipK I K)
    (m : jetF I) {l r : ℝ} (hlr : l < r) (q : ℕ) (hqI : (Pi.single 0 (2 + q) : Ix 1) ∈ I) :
    ∃ C : ℝ, 0 ≤ C ∧ ∀ {α : ℝ}, α ≠ 0 → ∀ (hI : orders (poissonOp 1 α) ⊆ I) (rhs sol : Option Fn),
      (∀ s, rhs = some s → s.inS = [] ∧ s.outS = []) → (∀ s, sol = some s → s.inS = [] ∧ s.outS = []) → ∀ {g : ℝ → ℝ},
      (∀ x, (rhs.getD (.zero [] [])).ev [x] = [g x]) → ∀ {f : jetF I} {B : ℝ}, 0 ≤ B → Within (h.prior m) f B →
      (∀ x, l ≤ x ∧ x ≤ r → OpAt (poissonOp 1 α) f.1 ![x] (g x)) → ∀ n ≥ q + 2, ∀ δ : ℝ, 0 ≤ δ → 2 * δ < r - l → ∀ e : Env, e.CholOK →
      ∃ (P : BVP) (b o : Obs 1) (c : Cond (h.prior m)),
        mkPoissonProblem (.dom (.interval l r)) rhs α (some (.array [2] [f.1 ![l], f.1 ![r]])) sol = .ok P ∧ poisson1Obs P n δ = .ok (b, o) ∧
        solve e h m (coefs (poissonOp 1 α) hI) b [o] = .ok c ∧ ∀ x, l ≤ x ∧ x ≤ r →
          |f.1 ![x] - c.mean ![x]| ≤ C * √B * ((δ + (r - l) / ((n : ℝ) - 1)) ^ q * √(δ + (r - l) / ((n : ℝ) - 1))) ∧
          ∃ y, OpAt (poissonOp 1 α) c.mean ![x] y ∧ |g x - y| ≤ |α| * (C * √B * ((δ + (r - l) / ((n : ℝ) - 1)) ^ q * √(δ + (r - l) / ((n : ℝ) - 1)))) := by
  obtain ⟨C, hC, hvar⟩ := op_var_le h hL m (Finsupp.single ⟨Pi.single 0 (2 + q), hqI⟩ (1 : ℝ)) (cbox_compact ![l] ![r])
  set E : ℝ := ((q : ℝ) + 1) ^ q * √(C * (q + 1)) with hE
  have hE0 : 0 ≤ E := by positivity
  refine ⟨E * (1 + (r - l) ^ 2 / 8), by positivity, fun {α} hα hI rhs sol hq hsol {g} hg {f B} hB hf hpde n hn δ h0 hδ e he => ?_⟩
  obtain ⟨P, b, o, k1, k2, k3, k4, b1, b2, b3, o1, o2⟩ := poisson1_setup h hlr hα hI rhs sol hq hsol hg hpde n h0 hδ
  obtain ⟨c, hc, G, hGm, hcont, hdual, hint⟩ := solve_post h hs hK m (poisson_indep h hα one_ne_zero hI) hB hf e he b [o] k3 k4
  have hJ : HasJet I c.mean (jet G) := hGm ▸ jet_spec G
  have hn1 : (0 : ℝ) < (n : ℝ) - 1 := by
    have : (2 : ℝ) ≤ n := by exact_mod_cast (by omega : 2 ≤ n)
    linarith
  set ρ : ℝ := δ + (r - l) / ((n : ℝ) - 1) with hρ
  have hρ0 : 0 ≤ ρ := add_nonneg h0 (div_nonneg (by linarith) hn1.le)
  have hmem : ∀ x, l ≤ x ∧ x ≤ r → (![x] : Pt 1) ∈ cbox ![l] ![r] := fun x hx j => by fin_cases j; exact hx
  have hpt : ∀ x : Pt 1, x = ![x 0] := fun x => by funext j; fin_cases j; rfl
  set D : ℕ → ℝ → ℝ := fun k t => jet f (Pi.single 0 (2 + k)) ![t] - jet G (Pi.single 0 (2 + k)) ![t] with hD
  have hDd : ∀ k < q, ∀ t, HasDerivAt (D k) (D (k + 1) t) t := by
    intro k hk t
    have hkI : (Pi.single 0 (2 + k + 1) : Ix 1) ∈ I := h.lower (fun i => by
      fin_cases i
      show 2 + k + 1 ≤ 2 + q
      omega) hqI
    exact (jet1_deriv (jet_spec f) hkI t).sub (jet1_deriv (jet_spec G) hkI t)
  have hDz : ∀ z ∈ intervalGrid l r n δ, D 0 z = 0 := by
    intro z hz
    have := hint o (by simp) ![z] (o2 z hz)
    rw [o1] at this
    change ((coefs (poissonOp 1 α) hI).sum fun β t => t * jet f β ![z]) = (coefs (poissonOp 1 α) hI).sum fun β t => t * jet G β ![z] at this
    rw [poisson1_sum, poisson1_sum] at this
    have := mul_left_cancel₀ (neg_ne_zero.mpr hα) this
    simp only [hD, add_zero]
    linarith
  have hsqrt : ∀ s t, (l ≤ s ∧ s ≤ r) → (l ≤ t ∧ t ≤ r) → |D q s - D q t| ≤ √(B * (C * |s - t|)) := by
    intro s t hs ht
    refine Real.abs_le_sqrt ?_
    have h1 := hdual (h.op m (Finsupp.single ⟨Pi.single 0 (2 + q), hqI⟩ (1 : ℝ)) ![s] - h.op m (Finsupp.single ⟨Pi.single 0 (2 + q), hqI⟩ (1 : ℝ)) ![t])
    have h2 := hvar ![s] (hmem s hs) ![t] (hmem t ht)
    have hd : ∀ (L M : (h.prior m).Λ) (f : jetF I), (L - M).1 f = L.1 f - M.1 f := fun _ _ _ => rfl
    rw [hd, hd, op_apply, op_apply, op_apply, op_apply, Finsupp.sum_single_index (by simp), Finsupp.sum_single_index (by simp),
      Finsupp.sum_single_index (by simp), Finsupp.sum_single_index (by simp)] at h1
    have e1 : dist (![s] : Pt 1) ![t] = |s - t| := by
      rw [dist_pi_def]
      simp [Real.dist_eq]
    rw [e1] at h2
    have h3 := h1.trans (mul_le_mul_of_nonneg_left h2 hB)
    refine le_trans (le_of_eq ?_) h3
    simp only [hD, one_mul]
    ring
  have hD0 : ∀ x, l ≤ x ∧ x ≤ r → |D 0 x| ≤ E * √B * (ρ ^ q * √ρ) := by
    intro x hx
    obtain ⟨a, b, z, hab, ha, hb, hlen, hz1, hz2⟩ := grid_near hx h0 hδ q hn
    have hle : b - a ≤ (q + 1) * ρ := by
      refine hlen.trans ?_
      have : (0 : ℝ) ≤ q * δ := by positivity
      rw [hρ, mul_add]
      linarith
    have hba : 0 ≤ b - a := by linarith [hab.1, hab.2]
    have := rolle_chain q (D := D) hDd hz1 (fun i hi => ⟨(hz2 i hi).1, hDz _ (hz2 i hi).2⟩) (M := √(B * (C * (b - a)))) (fun s hs t ht => by
      refine (hsqrt s t ⟨ha.trans hs.1, hs.2.trans hb⟩ ⟨ha.trans ht.1, ht.2.trans hb⟩).trans (Real.sqrt_le_sqrt ?_)
      refine mul_le_mul_of_nonneg_left (mul_le_mul_of_nonneg_left ?_ hC) hB
      rw [abs_le]
      constructor <;> linarith [hs.1, hs.2, ht.1, ht.2]) x hab
    refine this.trans ?_
    calc (b - a) ^ q * √(B * (C * (b - a))) ≤ ((q + 1) * ρ) ^ q * √(B * (C * ((q + 1) * ρ))) := by
          refine mul_le_mul (pow_le_pow_left₀ hba hle q) (Real.sqrt_le_sqrt ?_) (Real.sqrt_nonneg _) (by positivity)
          exact mul_le_mul_of_nonneg_left (mul_le_mul_of_nonneg_left hle hC) hB
      _ = E * √B * (ρ ^ q * √ρ) := by
          rw [show C * ((q + 1) * ρ) = C * (q + 1) * ρ by ring, Real.sqrt_mul hB, Real.sqrt_mul (by positivity : 0 ≤ C * ((q : ℝ) + 1)), mul_pow, hE]
          ring
  set W : ℝ := E * √B * (ρ ^ q * √ρ) with hW
  have hW0 : 0 ≤ W := by positivity
  have hres : ∀ x ∈ cbox ![l] ![r], |((coefs (poissonOp 1 α) hI).sum fun β t => t * jet f β x) - (coefs (poissonOp 1 α) hI).sum fun β t => t * jet G β x| ≤ |α| * W := by
    intro x hx
    have := hD0 (x 0) (hx 0)
    rw [poisson1_sum, poisson1_sum, ← mul_sub, abs_mul, abs_neg]
    refine mul_le_mul_of_nonneg_left ?_ (abs_nonneg α)
    rw [hpt x]
    exact this
  have hbd : ∀ x ∈ cbox ![l] ![r], (∃ j, x j = (![l] : Pt 1) j ∨ x j = (![r] : Pt 1) j) → |f.1 x - c.mean x| ≤ 0 := by
    rintro x hx ⟨j, hj⟩
    obtain rfl : j = 0 := Subsingleton.elim _ _
    have hj : x 0 = l ∨ x 0 = r := hj
    have hin : x ∈ b.X := by
      rw [hpt x]
      rcases hj with hj | hj <;> rw [hj] <;> assumption
    have := hint b (by simp) x hin
    rw [b1, value_sum h _ (jet_spec f), value_sum h _ hJ] at this
    rw [this, sub_self, abs_zero]
  have hCle : W ≤ E * (1 + (r - l) ^ 2 / 8) * √B * (ρ ^ q * √ρ) := by
    have : E * (1 + (r - l) ^ 2 / 8) * √B * (ρ ^ q * √ρ) = W + W * ((r - l) ^ 2 / 8) := by rw [hW]; ring
    rw [this]
    have : 0 ≤ W * ((r - l) ^ 2 / 8) := by positivity
    linarith
  refine ⟨P, b, o, c, k1, k2, hc, fun x hx => ⟨?_, ?_⟩⟩
  · have := poisson_close h.lower hα hI 0 (jet_spec f) hJ hcont hres hbd (hmem x hx)
    refine this.trans ?_
    have h1 : |α| * W / |α| = W := mul_div_cancel_left₀ _ (abs_pos.mpr hα).ne'
    rw [h1, zero_add]
    have h2 : E * (1 + (r - l) ^ 2 / 8) * √B * (ρ ^ q * √ρ) = W + W * ((r - l) ^ 2 / 8) := by rw [hW]; ring
    rw [h2]
    show W * ((r - l) ^ 2 / 8) ≤ _
    linarith
  · refine ⟨_, poisson_sum h hI hJ ![x] rfl, ?_⟩
    have := hres ![x] (hmem x hx)
    rw [poisson_jet h.lower hI f _ (hpde x hx)] at this
    exact this.trans (mul_le_mul_of_nonneg_left hCle (abs_nonneg α))

/-- C78: on an interval, for every smooth right-hand side and all boundary values the problem has a smooth solution `u`, and for Matérn
kernels with `k ≥ 2` derivatives (smoothness `k + 1/2`) and any length scale the error of the script with `n ≥ k` points and inset `δ` is at most
`C ρ^(k - 3/2)`, where `ρ = δ + (r - l) / (n - 1)`. -/
theorem poisson1_smooth_rate {k : ℕ} (hk : 2 ≤ k) {s : ℝ} (hs : s ≠ 0) (m : jetF (box fun _ : Fin 1 => (k : ℕ∞))) (hm : ContDiff ℝ ∞ m.1)
    {l r : ℝ} (hlr : l < r) {α : ℝ} (hα : α ≠ 0) (q sol : Option Fn)
    (hq : ∀ s, q = some s → s.inS = [] ∧ s.outS = []) (hsol : ∀ s, sol = some s → s.inS = [] ∧ s.outS = []) {g : ℝ → ℝ}
    (hg : ∀ x, (q.getD (.zero [] [])).ev [x] = [g x]) (hgs : ContDiff ℝ ∞ g) (a b : ℝ) :
    ∃ (u u' : ℝ → ℝ) (hI : orders (poissonOp 1 α) ⊆ box fun _ : Fin 1 => (k : ℕ∞)) (C : ℝ), (∀ x, HasDerivAt u (u' x) x) ∧
      (∀ x, HasDerivAt u' (-(g x) / α) x) ∧ u l = a ∧ u r = b ∧ ∀ n ≥ k, ∀ δ : ℝ, 0 ≤ δ → 2 * δ < r - l → ∀ e : Env, e.CholOK →
      ∃ (P : BVP) (B o : Obs 1) (c : Cond ((matern_jet (fun _ : Fin 1 => k) fun _ => s).prior m)),
        mkPoissonProblem (.dom (.interval l r)) q α (some (.array [2] [a, b])) sol = .ok P ∧ poisson1Obs P n δ = .ok (B, o) ∧
        solve e (matern_jet (fun _ : Fin 1 => k) fun _ => s) m (coefs (poissonOp 1 α) hI) B [o] = .ok c ∧ ∀ x, l ≤ x ∧ x ≤ r →
          |u x - c.mean ![x]| ≤ C * (δ + (r - l) / ((n : ℝ) - 1)) ^ ((k : ℝ) - 3 / 2) ∧
          ∃ y, OpAt (poissonOp 1 α) c.mean ![x] y ∧ |g x - y| ≤ C * (δ + (r - l) / ((n : ℝ) - 1)) ^ ((k : ℝ) - 3 / 2) := by
  obtain ⟨u, u', hu, d1, d2, hl, hr⟩ := poisson1_exists hlr hα hgs a b
  have hI : orders (poissonOp 1 α) ⊆ box fun _ : Fin 1 => (k : ℕ∞) := by
    rintro _ ⟨j, rfl⟩
    exact single_box (p := fun _ : Fin 1 => k) hk
  obtain ⟨f, B, hB, hw, hfF⟩ := smooth_near (fun _ : Fin 1 => k) (fun _ => hs) m hm (F := fun z => u (z 0)) (hu.comp (contDiff_apply ℝ ℝ 0)) (|l| + |r|)
  have hin : ∀ x, l ≤ x ∧ x ≤ r → f.1 =ᶠ[𝓝 ![x]] fun z => u (z 0) := by
    intro x hx
    refine hfF _ ((pi_norm_le_iff_of_nonneg (by positivity)).mpr fun i => ?_)
    obtain rfl : i = 0 := Subsingleton.elim _ _
    show |x| ≤ |l| + |r|
    rw [abs_le]
    constructor <;> linarith [neg_abs_le l, le_abs_self r, abs_nonneg l, abs_nonneg r, hx.1, hx.2]
  have hv : ∀ x, l ≤ x ∧ x ≤ r → f.1 ![x] = u x := fun x hx => (hin x hx).self_of_nhds
  obtain ⟨C, hC, hrate⟩ := poisson1_rate (matern_jet (fun _ : Fin 1 => k) fun _ => s) (matern_strict _ fun _ => hs) (matern_cont _ _) (matern_lip _ _) m hlr
    (k - 2) (single_box (p := fun _ : Fin 1 => k) (by omega))
  refine ⟨u, u', hI, C * √B * (1 + |α|), d1, d2, hl, hr, fun n hn δ h0 h1 e he => ?_⟩
  obtain ⟨P, b', o, c, k1, k2, k3, k4⟩ := hrate hα hI q sol hq hsol hg hB hw (fun x hx => opAt_congr (hin x hx) (by
      refine ⟨fun _ t => u' (x + t), fun _ => -(g x) / α, fun i => Eventually.of_forall fun t => ?_, fun i => ?_, ?_⟩
      · obtain rfl : i = 0 := Subsingleton.elim _ _
        have := HasDerivAt.comp_const_add (f := u) (f' := u' (x + t)) x t (d1 _)
        refine this.congr_of_eventuallyEq (Eventually.of_forall fun t' => ?_)
        simp
      · exact HasDerivAt.comp_const_add (f := u') x 0 (by simpa using d2 x)
      · simp only [Fin.sum_univ_one]
        field_simp)) n (by omega) δ h0 h1 e he
  rw [hv l ⟨le_rfl, hlr.le⟩, hv r ⟨hlr.le, le_rfl⟩, hl, hr] at k1
  have hn1 : (0 : ℝ) < (n : ℝ) - 1 := by
    have : (2 : ℝ) ≤ n := by exact_mod_cast (by omega : 2 ≤ n)
    linarith
  have hρ : 0 < δ + (r - l) / ((n : ℝ) - 1) := add_pos_of_nonneg_of_pos h0 (div_pos (by linarith) hn1)
  set ρ := δ + (r - l) / ((n : ℝ) - 1) with hρd
  have hpow : ρ ^ (k - 2) * √ρ = ρ ^ ((k : ℝ) - 3 / 2) := by
    rw [Real.sqrt_eq_rpow, ← Real.rpow_natCast, ← Real.rpow_add hρ, Nat.cast_sub hk]
    congr 1
    push_cast
    ring
  rw [hpow] at k4
  have hA : 0 ≤ C * √B * ρ ^ ((k : ℝ) - 3 / 2) := by positivity
  have e1 : C * √B * (1 + |α|) * ρ ^ ((k : ℝ) - 3 / 2) = C * √B * ρ ^ ((k : ℝ) - 3 / 2) + |α| * (C * √B * ρ ^ ((k : ℝ) - 3 / 2)) := by ring
  have e2 : 0 ≤ |α| * (C * √B * ρ ^ ((k : ℝ) - 3 / 2)) := by positivity
  refine ⟨P, b', o, c, k1, k2, k3, fun x hx => ?_⟩
  obtain ⟨h3, y, h4, h5⟩ := k4 x hx
  rw [← hv x hx, e1]
  exact ⟨by linarith, y, h4, by linarith⟩

/-! ### The Poisson equation on a box -/

variable {d : ℕ} {I : Set (Ix d)} {K : Ix d → Pt d → Ix d → Pt d → ℝ}

lemma max_extent (bs : List (ℝ × ℝ)) : ∃ W : ℝ, 1 ≤ W ∧ ∀ b ∈ bs, b.2 - b.1 ≤ W := by
  induction bs with
  | nil => exact ⟨1, le_rfl, by simp⟩
  | cons b bs ih =>
    obtain ⟨W, h1, h2⟩ := ih
    refine ⟨max W (b.2 - b.1), h1.trans (le_max_left _ _), fun c hc => ?_⟩
    rcases List.mem_cons.mp hc with rfl | hc
    · exact le_max_right _ _
    · exact (h2 c hc).trans (le_max_left _ _)

/-- C78: on a box of any dimension there is a constant `C`, depending on the kernel, the box and the operator only, such that for all
right-hand sides and all solutions at squared distance `B` of the prior mean the error and the residual of the script with at least `N ≥ 2` points
in each direction and inset `ε` are at most `C √B √(ε + 1 / (N - 1))`. -/
theorem poisson_rate (h : JetKernel I K) (hs : Strict I K) (hK : ContK I K) (hL : LipK I K) (m : jetF I)
    {bs : List (ℝ × ℝ)} (hbs : ∀ b ∈ bs, b.1 < b.2) (hd : bs.length = d) (h0 : d ≠ 0) {α : ℝ} (hα : α ≠ 0) (hI : orders (poissonOp d α) ⊆ I) :
    ∃ C : ℝ, 0 ≤ C ∧ ∀ (fb rhs : Fn), rhs.inS = [d] ∧ rhs.outS = [] → fb.inS = [d] → ∀ {u g : List ℝ → ℝ}, (∀ x, fb.ev x = [u x]) →
      (∀ x, rhs.ev x = [g x]) → ∀ {f : jetF I} {B : ℝ}, 0 ≤ B → Within (h.prior m) f B → (∀ x, OnSide bs x → f.1 (toPt d x) = u x) →
      (∀ x, InBox bs x → OpAt (poissonOp d α) f.1 (toPt d x) (g x)) → ∀ N ≥ 2, ∀ nBc nPde sB sP : List ℕ, asShape (d - 1) nBc = .ok sB →
      asShape d nPde = .ok sP → (∀ n ∈ sB, n ≥ N) → (∀ n ∈ sP, n ≥ N) → ∀ ε : ℝ, 0 < ε → (∀ b ∈ bs, 2 * ε < b.2 - b.1) → ∀ e : Env, e.CholOK →
      ∃ (P : BVP) (o : Obs d) (os : List (Obs d)) (c : Cond (h.prior m)),
        mkPoissonProblem (.dom (.box bs)) (some rhs) α (some (.fn fb)) none = .ok P ∧ poissonObs d P nBc nPde ε = .ok (o :: os) ∧
        solve e h m (coefs (poissonOp d α) hI) o os = .ok c ∧ ∀ x, InBox bs x →
          |f.1 (toPt d x) - c.mean (toPt d x)| ≤ C * √B * √(ε + 1 / ((N : ℝ) - 1)) ∧
          ∃ y, OpAt (poissonOp d α) c.mean (toPt d x) y ∧ |g x - y| ≤ C * √B * √(ε + 1 / ((N : ℝ) - 1)) := by
  have j0 : Fin d := ⟨0, Nat.pos_of_ne_zero h0⟩
  obtain ⟨C, hC, hrate⟩ := solve_rate h hs hK hL m (poisson_indep h hα h0 hI) (cbox_compact (boxLo d bs) (boxHi d bs))
  obtain ⟨W, hW1, hW⟩ := max_extent bs
  set A : ℝ := 1 / |α| * ((boxHi d bs j0 - boxLo d bs j0) ^ 2 / 8) with hA
  have hA0 : 0 ≤ A := mul_nonneg (by positivity) (by positivity)
  refine ⟨√(C * (2 * W)) * (1 + A), by positivity, fun fb rhs hr hfb {u g} hu hg {f B} hB hf hside hpde N hN nBc nPde sB sP hsB hsP hnB hnP ε hε hε2 e he => ?_⟩
  have hN1 : (0 : ℝ) < (N : ℝ) - 1 := by
    have : (2 : ℝ) ≤ N := by exact_mod_cast hN
    linarith
  set ρ : ℝ := ε + 1 / ((N : ℝ) - 1) with hρ
  have hρ0 : 0 < ρ := add_pos hε (by positivity)
  set η : ℝ := 2 * W * ρ with hη
  have hη0 : 0 < η := by positivity
  set τ : ℝ := √(B * (C * η)) with hτ
  have hτ0 : 0 ≤ τ := Real.sqrt_nonneg _
  have hτe : τ = √(C * (2 * W)) * √B * √ρ := by
    rw [hτ, hη, show B * (C * (2 * W * ρ)) = C * (2 * W) * B * ρ by ring, Real.sqrt_mul (by positivity), Real.sqrt_mul (by positivity)]
  have hclose : Close h m (coefs (poissonOp d α) hI) f (cbox (boxLo d bs) (boxHi d bs)) η τ := by
    intro e he o os hn hsol
    obtain ⟨c, hc, J, hJ, h1, h2⟩ := hrate hB hf e he o os hn (fun w hw v hv => by rw [(hsol w hw).1] at hv; cases hv) fun w hw => (hsol w hw).2
    refine ⟨c, hc, J, hJ, h1, ?_⟩
    rintro pde x hx ⟨w, hw, rfl, z, hz, hzS, hd⟩
    have := h2 w hw x hx {z} (Finset.singleton_nonempty z) η (fun z' hz' => by
      obtain rfl := Finset.mem_singleton.mp hz'
      exact ⟨hz, hzS, by rw [dist_comm]; exact hd.le⟩)
    rw [(hsol w hw).1] at this
    simpa [hτ] using this
  obtain ⟨P, o, os, c, k1, k2, k3, k4⟩ := poisson_of_close h m hbs hd j0 hα hI fb rhs hr hfb hu hg hside hpde hη0 hclose hε hε2 (N := N) (by
    intro δ hδ b hb n hn x hx
    have hδ0 : 0 ≤ δ ∧ δ ≤ ε := by rcases hδ with rfl | rfl <;> constructor <;> linarith
    obtain ⟨z, hz, hzx⟩ := grid_fill hx hδ0.1 (by linarith [hε2 b hb]) (hN.trans hn)
    refine ⟨z, hz, hzx.trans_lt ?_⟩
    have hnN : (N : ℝ) - 1 ≤ (n : ℝ) - 1 := by
      have : (N : ℝ) ≤ n := by exact_mod_cast hn
      linarith
    have h1 : (b.2 - b.1) / ((n : ℝ) - 1) ≤ W / ((N : ℝ) - 1) := div_le_div₀ (by linarith) (hW b hb) hN1 hnN
    have h2 : W * ρ = W * ε + W / ((N : ℝ) - 1) := by rw [hρ]; ring
    have h3 : ε ≤ W * ε := le_mul_of_one_le_left hε.le hW1
    have h4 : 0 < W * ρ := by positivity
    rw [hη, mul_assoc]
    linarith [hδ0.2]) hsB hsP hnB hnP e he
  refine ⟨P, o, os, c, k1, k2, k3, fun x hx => ?_⟩
  obtain ⟨h3, y, h4, h5⟩ := k4 x hx
  have e1 : √(C * (2 * W)) * (1 + A) * √B * √ρ = τ + τ * A := by rw [hτe]; ring
  rw [e1]
  refine ⟨h3.trans (le_of_eq ?_), y, h4, h5.trans ?_⟩
  · rw [hA]
    ring
  · have : 0 ≤ τ * A := by positivity
    linarith

/-- C78: the same rate for every smooth solution and products of Matérn kernels with two derivatives. -/
theorem poisson_smooth_rate (p : Fin d → ℕ) (hp : ∀ j, 2 ≤ p j) {s : Fin d → ℝ} (hs : ∀ j, s j ≠ 0) (m : jetF (box fun j => (p j : ℕ∞)))
    (hm : ContDiff ℝ ∞ m.1) {bs : List (ℝ × ℝ)} (hbs : ∀ b ∈ bs, b.1 < b.2) (hd : bs.length = d) (h0 : d ≠ 0) {α : ℝ} (hα : α ≠ 0)
    (fb rhs : Fn) (hr : rhs.inS = [d] ∧ rhs.outS = []) (hfb : fb.inS = [d]) {u g : List ℝ → ℝ} (hu : ∀ x, fb.ev x = [u x]) (hg : ∀ x, rhs.ev x = [g x])
    {F : Pt d → ℝ} (hF : ContDiff ℝ ∞ F) (hside : ∀ x, OnSide bs x → F (toPt d x) = u x)
    (hpde : ∀ x, InBox bs x → OpAt (poissonOp d α) F (toPt d x) (g x)) :
    ∃ (hI : orders (poissonOp d α) ⊆ box fun j => (p j : ℕ∞)) (C : ℝ), ∀ N ≥ 2, ∀ nBc nPde sB sP : List ℕ, asShape (d - 1) nBc = .ok sB →
      asShape d nPde = .ok sP → (∀ n ∈ sB, n ≥ N) → (∀ n ∈ sP, n ≥ N) → ∀ ε : ℝ, 0 < ε → (∀ b ∈ bs, 2 * ε < b.2 - b.1) → ∀ e : Env, e.CholOK →
      ∃ (P : BVP) (o : Obs d) (os : List (Obs d)) (c : Cond ((matern_jet p s).prior m)),
        mkPoissonProblem (.dom (.box bs)) (some rhs) α (some (.fn fb)) none = .ok P ∧ poissonObs d P nBc nPde ε = .ok (o :: os) ∧
        solve e (matern_jet p s) m (coefs (poissonOp d α) hI) o os = .ok c ∧ ∀ x, InBox bs x →
          |F (toPt d x) - c.mean (toPt d x)| ≤ C * √(ε + 1 / ((N : ℝ) - 1)) ∧
          ∃ y, OpAt (poissonOp d α) c.mean (toPt d x) y ∧ |g x - y| ≤ C * √(ε + 1 / ((N : ℝ) - 1)) := by
  have hI : orders (poissonOp d α) ⊆ box fun j => (p j : ℕ∞) := by
    rintro _ ⟨j, rfl⟩
    exact single_box (hp j)
  have hcomp := cbox_compact (fun i : Fin d => (bs.getD i (0, 0)).1) fun i : Fin d => (bs.getD i (0, 0)).2
  obtain ⟨R, hR⟩ := hcomp.isBounded.exists_norm_le
  obtain ⟨f, B, hB, hw, hfF⟩ := smooth_near p hs m hm hF R
  have hin : ∀ x, InBox bs x → f.1 =ᶠ[𝓝 (toPt d x)] F := fun x hx => hfF _ (hR _ ((inBox_iff hd x).mp hx).2)
  obtain ⟨C, -, hrate⟩ := poisson_rate (matern_jet p s) (matern_strict p hs) (matern_cont p s) (matern_lip p s) m hbs hd h0 hα hI
  refine ⟨hI, C * √B, fun N hN nBc nPde sB sP hsB hsP h1 h2 ε hε hε' e he => ?_⟩
  obtain ⟨P, o, os, c, k1, k2, k3, k4⟩ := hrate fb rhs hr hfb hu hg hB hw (fun x hx => (hin x hx.1).self_of_nhds.trans (hside x hx))
    (fun x hx => opAt_congr (hin x hx) (hpde x hx)) N hN nBc nPde sB sP hsB hsP h1 h2 ε hε hε' e he
  refine ⟨P, o, os, c, k1, k2, k3, fun x hx => ?_⟩
  rw [← (hin x hx).self_of_nhds]
  exact k4 x hx

/-! ### The heat equation -/

/-- Around every point of an interval a uniform grid has `k` points. -/
lemma grid_block {l r x : ℝ} (hlr : l < r) (hx : l ≤ x ∧ x ≤ r) {k : ℕ} (hk : 1 ≤ k) {n : ℕ} (hn : k + 1 ≤ n) :
    ∃ Z : Finset ℝ, Z.card = k ∧ ∀ z ∈ Z, z ∈ intervalGrid l r n 0 ∧ |x - z| ≤ k * ((r - l) / ((n : ℝ) - 1)) := by
  classical
  obtain ⟨a, b, z, hab, -, -, hlen, hz1, hz2⟩ := grid_near hx le_rfl (by linarith) (k - 1) (n := n) (by omega)
  have hmono : StrictMonoOn z (Set.Iic (k - 1)) := strictMonoOn_Iic_of_lt_succ fun i hi => hz1 i hi
  refine ⟨(Finset.range k).image z, ?_, fun y hy => ?_⟩
  · rw [Finset.card_image_of_injOn, Finset.card_range]
    refine hmono.injOn.mono fun i hi => ?_
    have := Finset.mem_range.mp (Finset.mem_coe.mp hi)
    show i ≤ k - 1
    omega
  · obtain ⟨i, hi, rfl⟩ := Finset.mem_image.mp hy
    have hi := Finset.mem_range.mp hi
    obtain ⟨h1, h2⟩ := hz2 i (by omega)
    refine ⟨h2, ?_⟩
    have hk' : ((k - 1 : ℕ) : ℝ) + 1 = k := by
      rw [Nat.cast_sub hk]
      push_cast
      ring
    rw [hk', zero_add] at hlen
    rw [abs_le]
    constructor <;> linarith [hab.1, hab.2, h1.1, h1.2]

/-- C78: for the heat equation there is a constant `C`, depending on the kernel, the domain and the operator only, such that for all
right-hand sides and initial values, all solutions at squared distance `B` of the prior mean and every noise variance `v` on the boundary values, the
error and the residual of the script are at most `C √B √(δ + 1 / (N - 1) + k / (n_bc - 1) + v / k)` for every `k < n_bc`, where `N ≥ 2` is the
least number of points in the other directions and `δ` the inset: without noise `k = 1` gives the rate `n_bc^(-1/2)` in the number of
boundary values, with noise `k ≈ √n_bc` gives `n_bc^(-1/4)`. -/
theorem heat_rate {p : Fin 2 → ℕ} (hp : HeatSmooth (n := 0) p) {K : Ix 2 → Pt 2 → Ix 2 → Pt 2 → ℝ} (h : JetKernel (box fun j => (p j : ℕ∞)) K)
    (hs : Strict (box fun j => (p j : ℕ∞)) K) (hK : ContK (box fun j => (p j : ℕ∞)) K) (hL : LipK (box fun j => (p j : ℕ∞)) K)
    (m : jetF (box fun j => (p j : ℕ∞))) {t0 T l r : ℝ} (ht : t0 < T) (hlr : l < r) {α : ℝ} (hα : 0 ≤ α) :
    ∃ C : ℝ, 0 ≤ C ∧ ∀ (f0 q sol : Option Fn), (∀ s, f0 = some s → s.inS = []) → (∀ s, q = some s → s.inS = [2] ∧ s.outS = []) →
      (∀ s, sol = some s → s.inS = [2] ∧ s.outS = []) → ∀ {u0 : ℝ → ℝ} {g : ℝ → ℝ → ℝ}, (∀ x, (f0.getD (.zero [] [])).ev [x] = [u0 x]) →
      (∀ t x, (q.getD (.zero [2] [])).ev [t, x] = [g t x]) → ∀ {f : jetF (box fun j => (p j : ℕ∞))} {B : ℝ}, 0 ≤ B → Within (h.prior m) f B →
      (∀ x, l ≤ x ∧ x ≤ r → f.1 ![t0, x] = u0 x) → (∀ t, t0 ≤ t ∧ t ≤ T → f.1 ![t, l] = 0 ∧ f.1 ![t, r] = 0) →
      (∀ t x, t0 ≤ t ∧ t ≤ T → l ≤ x ∧ x ≤ r → HeatAt (n := 0) α f.1 ![t, x] (g t x)) → ∀ noise : Option ℝ, (∀ v, noise = some v → 0 ≤ v) →
      ∀ N ≥ 2, ∀ k ≥ 1, ∀ nIc nBc n0 n1 : ℕ, nIc ≥ N → nBc ≥ k + 1 → n0 ≥ N → n1 ≥ N → ∀ δ : ℝ, 0 < δ → 2 * δ < r - l → ∀ e : Env, e.CholOK →
      ∃ (P : IBVP) (o : Obs 2) (os : List (Obs 2)) (c : Cond (h.prior m)),
        mkHeatProblem t0 (.dom (.interval l r)) T q α f0 sol = .ok P ∧ heatObs P nIc nBc [n0, n1] δ noise = .ok (o, os) ∧
        solve e h m (heatCoefs hp α) o os = .ok c ∧ ∀ t x, t0 ≤ t ∧ t ≤ T → l ≤ x ∧ x ≤ r →
          |f.1 ![t, x] - c.mean ![t, x]| ≤ C * √B * √(δ + 1 / ((N : ℝ) - 1) + k / ((nBc : ℝ) - 1) + noise.getD 0 / k) ∧
          ∃ y, HeatAt (n := 0) α c.mean ![t, x] y ∧ |g t x - y| ≤ C * √B * √(δ + 1 / ((N : ℝ) - 1) + k / ((nBc : ℝ) - 1) + noise.getD 0 / k) := by
  classical
  obtain ⟨C, hC, hrate⟩ := solve_rate h hs hK hL m (heat_independent hp α h.zero_mem) (cbox_compact ![t0, l] ![T, r])
  obtain ⟨W, hW1, hW⟩ := max_extent [(t0, T), (l, r)]
  have hWt : T - t0 ≤ W := hW (t0, T) (by simp)
  have hWx : r - l ≤ W := hW (l, r) (by simp)
  set A : ℝ := C * W + 1 with hA
  have hA0 : 0 ≤ A := by positivity
  refine ⟨√A * (1 + (T - t0)), mul_nonneg (Real.sqrt_nonneg _) (by linarith), fun f0 q sol hf0 hq hsol {u0 g} hu hg {f B} hB hf hic hbc hpde noise hv
    N hN k hk nIc nBc n0 n1 hnI hnB hn0 hn1 δ h0 hδ e he => ?_⟩
  have hN1 : (0 : ℝ) < (N : ℝ) - 1 := by
    have : (2 : ℝ) ≤ N := by exact_mod_cast hN
    linarith
  have hk0 : (0 : ℝ) < k := by exact_mod_cast hk
  have hnB1 : (0 : ℝ) < (nBc : ℝ) - 1 := by
    have : (2 : ℝ) ≤ nBc := by exact_mod_cast (by omega : 2 ≤ nBc)
    linarith
  have hv0 : 0 ≤ noise.getD 0 := by
    cases noise with
    | none => exact le_rfl
    | some v => exact hv v rfl
  set ρ : ℝ := δ + 1 / ((N : ℝ) - 1) + k / ((nBc : ℝ) - 1) + noise.getD 0 / k with hρ
  have p1 : 0 ≤ 1 / ((N : ℝ) - 1) := by positivity
  have p2 : 0 ≤ k / ((nBc : ℝ) - 1) := by positivity
  have p3 : 0 ≤ noise.getD 0 / k := by positivity
  have hρ0 : 0 ≤ ρ := by linarith
  set τ : ℝ := √(B * (A * ρ)) with hτ
  have hτ0 : 0 ≤ τ := Real.sqrt_nonneg _
  have hτe : τ = √A * √B * √ρ := by
    rw [hτ, show B * (A * ρ) = A * B * ρ by ring, Real.sqrt_mul (by positivity), Real.sqrt_mul (by positivity)]
  have hcell : ∀ {w : ℝ} {n : ℕ}, w ≤ W → 0 ≤ w → n ≥ N → w / ((n : ℝ) - 1) ≤ W * (1 / ((N : ℝ) - 1)) := by
    intro w n hw hw0 hn
    rw [mul_one_div]
    refine div_le_div₀ (by linarith) hw hN1 ?_
    have : (N : ℝ) ≤ n := by exact_mod_cast hn
    linarith
  -- bounds on the squared errors
  have hq1 : ∀ {η : ℝ}, η ≤ W * (δ + 1 / ((N : ℝ) - 1)) → √(B * (C * η)) ≤ τ := by
    intro η hη
    refine Real.sqrt_le_sqrt (mul_le_mul_of_nonneg_left ?_ hB)
    have h1 := mul_le_mul_of_nonneg_left hη hC
    have h2 : A * ρ = C * (W * (δ + 1 / ((N : ℝ) - 1))) + (C * W * (k / ((nBc : ℝ) - 1) + noise.getD 0 / k) + ρ) := by rw [hA, hρ]; ring
    have h3 : 0 ≤ C * W * (k / ((nBc : ℝ) - 1) + noise.getD 0 / k) := by positivity
    linarith
  have hq2 : √(B * (C * (k * ((T - t0) / ((nBc : ℝ) - 1))) + noise.getD 0 / k)) ≤ τ := by
    refine Real.sqrt_le_sqrt (mul_le_mul_of_nonneg_left ?_ hB)
    have h1 : k * ((T - t0) / ((nBc : ℝ) - 1)) ≤ W * (k / ((nBc : ℝ) - 1)) := by
      have : k * ((T - t0) / ((nBc : ℝ) - 1)) = (T - t0) * (k / ((nBc : ℝ) - 1)) := by ring
      rw [this]
      exact mul_le_mul_of_nonneg_right hWt p2
    have h2 := mul_le_mul_of_nonneg_left h1 hC
    have h3 : A * ρ = C * (W * (k / ((nBc : ℝ) - 1))) + noise.getD 0 / k +
        (C * W * (δ + 1 / ((N : ℝ) - 1) + noise.getD 0 / k) + (δ + 1 / ((N : ℝ) - 1) + k / ((nBc : ℝ) - 1))) := by rw [hA, hρ]; ring
    have h4 : 0 ≤ C * W * (δ + 1 / ((N : ℝ) - 1) + noise.getD 0 / k) := by positivity
    linarith
  obtain ⟨P, hP, hO⟩ := heatObs_eq ht hlr α f0 q sol hf0 hq hsol hu hg nIc nBc n0 n1 δ noise
  set o0 : Obs 2 := ⟨false, (intervalGrid l r nIc δ).map fun x => ![t0, x], (intervalGrid l r nIc δ).map u0, none⟩ with ho0
  set o1 : Obs 2 := ⟨false, (intervalGrid t0 T nBc 0).map fun t => ![t, l], (intervalGrid t0 T nBc 0).map fun _ => 0, noise⟩ with ho1
  set o2 : Obs 2 := ⟨false, (intervalGrid t0 T nBc 0).map fun t => ![t, r], (intervalGrid t0 T nBc 0).map fun _ => 0, noise⟩ with ho2
  set o3 : Obs 2 := ⟨true, (intervalGrid t0 T n0 0 ×ˢ intervalGrid l r n1 0).map fun z => ![z.1, z.2],
        (intervalGrid t0 T n0 0 ×ˢ intervalGrid l r n1 0).map fun z => g z.1 z.2, none⟩ with ho3
  obtain ⟨hnd, hfits⟩ := heat_fits hp h ht hlr hic hbc hpde noise nIc nBc n0 n1 h0 hδ ho0 ho1 ho2 ho3
  have hNO : NoiseOK [o0, o1, o2, o3] := by
    intro o ho v hov
    simp only [List.mem_cons, List.not_mem_nil, or_false] at ho
    rcases ho with rfl | rfl | rfl | rfl
    · cases hov
    · exact hv v hov
    · exact hv v hov
    · cases hov
  obtain ⟨c, hc, J, hJ, hcont, hcl⟩ := hrate hB hf e he o0 [o1, o2, o3] hnd hNO hfits
  have hmem : ∀ t x, t0 ≤ t ∧ t ≤ T → l ≤ x ∧ x ≤ r → (![t, x] : Pt 2) ∈ cbox ![t0, l] ![T, r] := fun t x ht hx j => by
    fin_cases j
    · exact ht
    · exact hx
  have hdist : ∀ {x : Pt 2} {s z η : ℝ}, 0 ≤ η → |x 0 - s| ≤ η → |x 1 - z| ≤ η → dist x ![s, z] ≤ η := by
    intro x s z η hη h1 h2
    rw [dist_pi_le_iff hη]
    intro j
    fin_cases j
    · exact h1
    · exact h2
  have single : ∀ {x : Pt 2} (w : Obs 2), w ∈ [o0, o1, o2, o3] → w.noise = none → x ∈ cbox ![t0, l] ![T, r] → ∀ z ∈ w.X, z ∈ cbox ![t0, l] ![T, r] →
      ∀ η, η ≤ W * (δ + 1 / ((N : ℝ) - 1)) → dist x z ≤ η →
      |((opOf h (heatCoefs hp α) w.pde).sum fun α t => t * jet f α x) - (opOf h (heatCoefs hp α) w.pde).sum fun α t => t * J α x| ≤ τ := by
    intro x w hw hn hx z hz hzS η hη hd
    have := hcl w hw x hx {z} (Finset.singleton_nonempty z) η (fun z' hz' => by
      obtain rfl := Finset.mem_singleton.mp hz'
      exact ⟨hz, hzS, hd⟩)
    rw [hn] at this
    refine this.trans (le_trans (le_of_eq ?_) (hq1 hη))
    simp
  have many : ∀ {x : Pt 2} {b : ℝ} (w : Obs 2), w ∈ [o0, o1, o2, o3] → w.noise = noise → w.X = (intervalGrid t0 T nBc 0).map (fun t => (![t, b] : Pt 2)) →
      x ∈ cbox ![t0, l] ![T, r] → x 1 = b →
      |((opOf h (heatCoefs hp α) w.pde).sum fun α t => t * jet f α x) - (opOf h (heatCoefs hp α) w.pde).sum fun α t => t * J α x| ≤ τ := by
    intro x b w hw hn hX hx hb
    obtain ⟨Z, hZ, hz⟩ := grid_block (l := t0) (r := T) ht (hx 0) hk hnB
    have hcard : (Z.image fun t => (![t, b] : Pt 2)).card = k := by
      rw [Finset.card_image_of_injective _ fun a a' haa => by simpa using congrFun haa 0, hZ]
    have hη0 : 0 ≤ k * ((T - t0) / ((nBc : ℝ) - 1)) := mul_nonneg hk0.le (div_nonneg (by linarith) hnB1.le)
    have := hcl w hw x hx (Z.image fun t => ![t, b]) (by rw [← Finset.card_pos, hcard]; omega) (k * ((T - t0) / ((nBc : ℝ) - 1))) (fun z hz' => by
      obtain ⟨t, ht', rfl⟩ := Finset.mem_image.mp hz'
      rw [hX]
      refine ⟨List.mem_map_of_mem (f := fun t => (![t, b] : Pt 2)) (hz t ht').1, ?_, hdist hη0 (hz t ht').2 (by rw [hb, sub_self, abs_zero]; exact hη0)⟩
      exact hmem t b (intervalGrid_bounds le_rfl (by linarith) (hz t ht').1) (hb ▸ hx 1))
    rw [hn, hcard] at this
    exact this.trans hq2
  have hres : ∀ x ∈ cbox ![t0, l] ![T, r], |((heatCoefs hp α).sum fun β t => t * jet f β x) - (heatCoefs hp α).sum fun β t => t * J β x| ≤ τ := by
    intro x hx
    obtain ⟨z, hz, hzx⟩ := grid_fill (l := l) (r := r) (hx 1) le_rfl (by linarith) (hN.trans hn1)
    obtain ⟨s, hs, hsx⟩ := grid_fill (l := t0) (r := T) (hx 0) le_rfl (by linarith) (hN.trans hn0)
    rw [zero_add, abs_sub_comm] at hzx hsx
    exact single o3 (by simp) rfl hx ![s, z] (List.mem_map_of_mem (f := fun z : ℝ × ℝ => (![z.1, z.2] : Pt 2)) (List.mem_product.mpr ⟨hs, hz⟩ : (s, z) ∈ _))
      (hmem s z (intervalGrid_bounds le_rfl (by linarith) hs) (intervalGrid_bounds le_rfl (by linarith) hz)) (W * (1 / ((N : ℝ) - 1)))
      (mul_le_mul_of_nonneg_left (by linarith) (by linarith))
      (hdist (by positivity) (hsx.trans (hcell hWt (by linarith) hn0)) (hzx.trans (hcell hWx (by linarith) hn1)))
  have hbd : ∀ x ∈ cbox ![t0, l] ![T, r], x 0 = t0 ∨ x 1 = l ∨ x 1 = r → |f.1 x - c.mean x| ≤ τ := by
    intro x hx hj
    have : |((opOf h (heatCoefs hp α) false).sum fun α t => t * jet f α x) - (opOf h (heatCoefs hp α) false).sum fun α t => t * J α x| ≤ τ := by
      rcases hj with hj | hj | hj
      · obtain ⟨z, hz, hzx⟩ := grid_fill (l := l) (r := r) (hx 1) h0.le hδ (hN.trans hnI)
        have hη : δ + (r - l) / ((nIc : ℝ) - 1) ≤ W * (δ + 1 / ((N : ℝ) - 1)) := by
          have h1 := hcell hWx (by linarith) hnI
          have h2 : δ ≤ W * δ := le_mul_of_one_le_left h0.le hW1
          rw [mul_add]
          linarith
        rw [abs_sub_comm] at hzx
        exact single o0 (by simp) rfl hx ![t0, z] (List.mem_map_of_mem (f := fun z : ℝ => (![t0, z] : Pt 2)) hz)
          (hmem t0 z ⟨le_rfl, ht.le⟩ (intervalGrid_bounds h0.le (by linarith) hz)) _ hη
          (hdist ((abs_nonneg _).trans hzx) (by rw [hj, sub_self, abs_zero]; exact (abs_nonneg _).trans hzx) hzx)
      · exact many o1 (by simp) rfl rfl hx hj
      · exact many o2 (by simp) rfl rfl hx hj
    rwa [value_sum h _ (jet_spec f), value_sum h _ hJ] at this
  have e1 : √A * (1 + (T - t0)) * √B * √ρ = τ + τ * (T - t0) := by rw [hτe]; ring
  refine ⟨P, o0, [o1, o2, o3], c, hP, hO, hc, fun t x ht' hx => ?_⟩
  rw [e1]
  refine ⟨heat_close hp h.lower hα (jet_spec f) hJ hcont hres hbd (hmem t x ht' hx), _, heatAt_of_jet hp α hJ ![t, x], ?_⟩
  have := hres ![t, x] (hmem t x ht' hx)
  rw [heat_jet hp α f _ (hpde t x ht' hx), heatCoefs_sum hp α fun β => J β ![t, x]] at this
  have h2 : 0 ≤ τ * (T - t0) := mul_nonneg hτ0 (by linarith)
  exact this.trans (by linarith)

/-- C78: the same rate for every smooth solution and products of Matérn kernels with enough derivatives for the equation. -/
theorem heat_smooth_rate {p : Fin 2 → ℕ} (hp : HeatSmooth (n := 0) p) {s : Fin 2 → ℝ} (hs : ∀ j, s j ≠ 0) (m : jetF (box fun j => (p j : ℕ∞)))
    (hm : ContDiff ℝ ∞ m.1) {t0 T l r : ℝ} (ht : t0 < T) (hlr : l < r) {α : ℝ} (hα : 0 ≤ α) (f0 q sol : Option Fn) (hf0 : ∀ s, f0 = some s → s.inS = [])
    (hq : ∀ s, q = some s → s.inS = [2] ∧ s.outS = []) (hsol : ∀ s, sol = some s → s.inS = [2] ∧ s.outS = []) {u0 : ℝ → ℝ} {g : ℝ → ℝ → ℝ}
    (hu : ∀ x, (f0.getD (.zero [] [])).ev [x] = [u0 x]) (hg : ∀ t x, (q.getD (.zero [2] [])).ev [t, x] = [g t x])
    {F : Pt 2 → ℝ} (hF : ContDiff ℝ ∞ F)
    (hic : ∀ x, l ≤ x ∧ x ≤ r → F ![t0, x] = u0 x) (hbc : ∀ t, t0 ≤ t ∧ t ≤ T → F ![t, l] = 0 ∧ F ![t, r] = 0)
    (hpde : ∀ t x, t0 ≤ t ∧ t ≤ T → l ≤ x ∧ x ≤ r → HeatAt (n := 0) α F ![t, x] (g t x)) :
    ∃ C : ℝ, ∀ noise : Option ℝ, (∀ v, noise = some v → 0 ≤ v) →
      ∀ N ≥ 2, ∀ k ≥ 1, ∀ nIc nBc n0 n1 : ℕ, nIc ≥ N → nBc ≥ k + 1 → n0 ≥ N → n1 ≥ N → ∀ δ : ℝ, 0 < δ → 2 * δ < r - l → ∀ e : Env, e.CholOK →
      ∃ (P : IBVP) (o : Obs 2) (os : List (Obs 2)) (c : Cond ((matern_jet p s).prior m)),
        mkHeatProblem t0 (.dom (.interval l r)) T q α f0 sol = .ok P ∧ heatObs P nIc nBc [n0, n1] δ noise = .ok (o, os) ∧
        solve e (matern_jet p s) m (heatCoefs hp α) o os = .ok c ∧ ∀ t x, t0 ≤ t ∧ t ≤ T → l ≤ x ∧ x ≤ r →
          |F ![t, x] - c.mean ![t, x]| ≤ C * √(δ + 1 / ((N : ℝ) - 1) + k / ((nBc : ℝ) - 1) + noise.getD 0 / k) ∧
          ∃ y, HeatAt (n := 0) α c.mean ![t, x] y ∧ |g t x - y| ≤ C * √(δ + 1 / ((N : ℝ) - 1) + k / ((nBc : ℝ) - 1) + noise.getD 0 / k) := by
  obtain ⟨f, B, hB, hw, hfF⟩ := smooth_near p hs m hm hF (|t0| + |T| + |l| + |r|)
  have hin : ∀ t x, t0 ≤ t ∧ t ≤ T → l ≤ x ∧ x ≤ r → f.1 =ᶠ[𝓝 ![t, x]] F := fun t x h1 h2 => hfF _ (norm_le_box h1 h2)
  have hval : ∀ t x, t0 ≤ t ∧ t ≤ T → l ≤ x ∧ x ≤ r → f.1 ![t, x] = F ![t, x] := fun t x h1 h2 => (hin t x h1 h2).self_of_nhds
  obtain ⟨C, -, hrate⟩ := heat_rate hp (matern_jet p s) (matern_strict p hs) (matern_cont p s) (matern_lip p s) m ht hlr hα
  refine ⟨C * √B, fun noise hv N hN k hk nIc nBc n0 n1 h1 h2 h3 h4 δ h5 h6 e he => ?_⟩
  obtain ⟨P, o, os, c, k1, k2, k3, k4⟩ := hrate f0 q sol hf0 hq hsol hu hg hB hw
    (fun x hx => by rw [hval t0 x ⟨le_rfl, ht.le⟩ hx]; exact hic x hx)
    (fun t ht' => by rw [hval t l ht' ⟨le_rfl, hlr.le⟩, hval t r ht' ⟨hlr.le, le_rfl⟩]; exact hbc t ht')
    (fun t x h1 h2 => heatAt_congr hp f (hin t x h1 h2) (hpde t x h1 h2)) noise hv N hN k hk nIc nBc n0 n1 h1 h2 h3 h4 δ h5 h6 e he
  refine ⟨P, o, os, c, k1, k2, k3, fun t x h1 h2 => ?_⟩
  rw [← hval t x h1 h2]
  exact k4 t x h1 h2

/-! ### Non-vacuity -/

/-- Squared-exponential process: the error for a kernel function decays faster than every power of the number of points. -/
example (q : ℕ) : ∃ (rhs : Fn) (f : Pt 1 → ℝ) (C : ℝ), f ![0] = 1 ∧ ∀ n ≥ q + 2, ∀ e : Env, e.CholOK →
    ∃ (P : BVP) (b o : Obs 1) (c : Cond ((expquad_jet (l := fun _ : Fin 1 => 1) fun _ => one_ne_zero).prior 0)),
      mkPoissonProblem (.dom (.interval (-1) 1)) (some rhs) 1 (some (.array [2] [f ![-1], f ![1]])) none = .ok P ∧ poisson1Obs P n 0 = .ok (b, o) ∧
      solve e (expquad_jet (l := fun _ : Fin 1 => 1) fun _ => one_ne_zero) 0 (coefs (poissonOp 1 1) (Set.subset_univ _)) b [o] = .ok c ∧
      ∀ x, -1 ≤ x ∧ x ≤ 1 → |f ![x] - c.mean ![x]| ≤ C * ((2 / ((n : ℝ) - 1)) ^ q * √(2 / ((n : ℝ) - 1))) := by
  set h := expquad_jet (l := fun _ : Fin 1 => (1 : ℝ)) fun _ => one_ne_zero with hh
  set P := h.prior 0 with hP
  set L := (jet_regular h 0).ev ![0] with hL
  set f : jetF Set.univ := P.m + P.cross L with hf
  obtain ⟨C, -, hC⟩ := poisson1_rate h (expquad_strict fun _ => one_ne_zero) (expquad_cont _) (expquad_lip _) 0 (l := -1) (r := 1) (by norm_num) q
    (Set.mem_univ _)
  refine ⟨.other [] [] fun x => [opSum (poissonOp 1 1) (jet f) ![x.getD 0 0]], f.1, C * √(P.cov L L), ?_, fun n hn e he => ?_⟩
  · have h1 : f.1 ![0] = 0 + expK (fun _ : Fin 1 => 1) 0 ![0] 0 ![0] := rfl
    rw [h1]
    simp [expK, prodK, jetK, gaussD, herm]
  · obtain ⟨Q, b, o, c, k1, k2, k3, k4⟩ := hC one_ne_zero (Set.subset_univ _) (some (.other [] [] fun x => [opSum (poissonOp 1 1) (jet f) ![x.getD 0 0]])) none
      (by rintro _ ⟨⟩; exact ⟨rfl, rfl⟩) (by simp) (g := fun x => opSum (poissonOp 1 1) (jet f) ![x]) (fun x => rfl) (f := f)
      ((jet_regular h 0).nonneg L) (within_cross (jet_regular h 0) L)
      (fun x _ => opAt_of_jet h.lower (poissonOp 1 1) (Set.subset_univ _) trivial (jet_spec f) _) n hn 0 le_rfl (by norm_num) e he
    refine ⟨Q, b, o, c, k1, k2, k3, fun x hx => (k4 x hx).1.trans (le_of_eq ?_)⟩
    rw [show (0 : ℝ) + (1 - -1) / ((n : ℝ) - 1) = 2 / ((n : ℝ) - 1) by norm_num]

/-- Matérn-9/2: the error for the right-hand side `sin` decays like `n^(-5/2)`. -/
example : ∃ (u : ℝ → ℝ) (C : ℝ), u 0 = 1 ∧ u 3 = 2 ∧ ∀ n ≥ 4, ∀ e : Env, e.CholOK →
    ∃ (P : BVP) (b o : Obs 1) (hI : _) (c : Cond ((matern_jet (fun _ : Fin 1 => 4) fun _ => 1).prior 0)),
      mkPoissonProblem (.dom (.interval 0 3)) (some (.other [] [] fun x => [Real.sin (x.getD 0 0)])) 1 (some (.array [2] [1, 2])) none = .ok P ∧
      poisson1Obs P n 0 = .ok (b, o) ∧ solve e (matern_jet (fun _ : Fin 1 => 4) fun _ => 1) 0 (coefs (poissonOp 1 1) hI) b [o] = .ok c ∧
      ∀ x, 0 ≤ x ∧ x ≤ 3 → |u x - c.mean ![x]| ≤ C * (3 / ((n : ℝ) - 1)) ^ (5 / 2 : ℝ) := by
  obtain ⟨u, u', hI, C, -, -, h1, h2, h3⟩ := poisson1_smooth_rate (k := 4) (by norm_num) (s := 1) one_ne_zero 0 contDiff_const (l := 0) (r := 3) (by norm_num)
    (α := 1) one_ne_zero (some (.other [] [] fun x => [Real.sin (x.getD 0 0)])) none (fun s hs => by cases hs; exact ⟨rfl, rfl⟩) (by simp) (g := Real.sin)
    (fun x => rfl) Real.contDiff_sin 1 2
  refine ⟨u, C, h1, h2, fun n hn e he => ?_⟩
  obtain ⟨P, b, o, c, k1, k2, k3, k4⟩ := h3 n hn 0 le_rfl (by norm_num) e he
  refine ⟨P, b, o, hI, c, k1, k2, k3, fun x hx => (k4 x hx).1.trans (le_of_eq ?_)⟩
  norm_num

/-- `test_heat.py`: Matérn-3/2 in time and Matérn-5/2 in space, the sine series with coefficients 1 and 2 and noise of variance `1e-5`; `k ^ 2 + 1`
boundary values give an error of order `k^(-1/2)`. -/
example : ∃ C : ℝ, ∀ k ≥ 1, ∀ e : Env, e.CholOK →
    ∃ (P : IBVP) (o : Obs 2) (os : List (Obs 2)) (hp : HeatSmooth (n := 0) ![1, 2]) (c : Cond ((matern_jet ![1, 2] ![√3 / 2.5, √5 / 2]).prior 0)),
      mkHeatProblem 0 (.dom (.interval (-1) 1)) 5 none 0.1 (some (.sine (-1) 1 [1, 2])) none = .ok P ∧
      heatObs P (k + 1) (k ^ 2 + 1) [k + 1, k + 1] (1 / (2 * k)) (some 1e-5) = .ok (o, os) ∧
      solve e (matern_jet ![1, 2] ![√3 / 2.5, √5 / 2]) 0 (heatCoefs hp 0.1) o os = .ok c ∧
        ∀ t x, 0 ≤ t ∧ t ≤ 5 → -1 ≤ x ∧ x ≤ 1 → |heatEval 0 (-1) 1 [1, 2] 0.1 t x - c.mean ![t, x]| ≤ C * √(3 / k) := by
  have hp : HeatSmooth (n := 0) ![1, 2] := ⟨le_rfl, fun j => by fin_cases j; exact le_rfl⟩
  obtain ⟨q1, q2, q3⟩ := heatEval_solves (l := -1) (r := 1) (by norm_num) 0 [1, 2] 0.1
  obtain ⟨C, hC⟩ := heat_smooth_rate hp (s := ![√3 / 2.5, √5 / 2]) (fun j => by
      fin_cases j
      · show √3 / 2.5 ≠ 0
        positivity
      · show √5 / 2 ≠ 0
        positivity) 0 contDiff_const (t0 := 0) (T := 5) (l := -1) (r := 1) (by norm_num) (by norm_num) (α := 0.1) (by norm_num) (some (.sine (-1) 1 [1, 2])) none none
    (fun s hs => by cases hs; rfl) (by simp) (by simp) (u0 := sineEval (-1) 1 [1, 2]) (g := fun _ _ => 0) (fun x => rfl) (fun t x => rfl)
    (F := fun z => heatEval 0 (-1) 1 [1, 2] 0.1 (z 0) (z 1)) (heatEval_smooth 0 (-1) 1 [1, 2] 0.1) (fun x _ => q3 x) (fun t _ => q2 t) (fun t x _ _ => by
      obtain ⟨ut, ux, uxx, d1, d2, d3, d4⟩ := q1 t x
      refine ⟨ut, fun _ t => ux (x + t), fun _ => uxx, ?_, fun j => ⟨fun t' => ?_, ?_⟩, ?_⟩
      · have := HasDerivAt.comp_const_add (f := fun t => heatEval 0 (-1) 1 [1, 2] 0.1 t x) (f' := ut) t 0 (by simpa using d1)
        refine this.congr_of_eventuallyEq (Filter.Eventually.of_forall fun t' => ?_)
        simp
      · obtain rfl : j = 0 := Fin.ext (by omega)
        have := HasDerivAt.comp_const_add (f := fun y => heatEval 0 (-1) 1 [1, 2] 0.1 t y) (f' := ux (x + t')) x t' (d2 _)
        refine this.congr_of_eventuallyEq (Filter.Eventually.of_forall fun t' => ?_)
        simp
      · exact HasDerivAt.comp_const_add (f := ux) (f' := uxx) x 0 (by simpa using d3)
      · simpa using d4)
  refine ⟨|C|, fun k hk e he => ?_⟩
  have hk0 : (1 : ℝ) ≤ k := by exact_mod_cast hk
  obtain ⟨P, o, os, c, k1, k2, k3, k4⟩ := hC (some 1e-5) (fun v hv => by cases hv; norm_num) (k + 1) (by omega) k hk (k + 1) (k ^ 2 + 1) (k + 1) (k + 1) le_rfl
    (by nlinarith) le_rfl le_rfl (1 / (2 * k)) (by positivity) (by
      rw [mul_one_div, div_lt_iff₀ (by positivity)]
      linarith) e he
  refine ⟨P, o, os, hp, c, k1, k2, k3, fun t x h1 h2 => (k4 t x h1 h2).1.trans ?_⟩
  refine mul_le_mul (le_abs_self C) (Real.sqrt_le_sqrt ?_) (Real.sqrt_nonneg _) (abs_nonneg C)
  have hk1 : (k : ℝ) ≠ 0 := by positivity
  have e1 : (1 / (2 * (k : ℝ)) + 1 / (((k + 1 : ℕ) : ℝ) - 1) + k / (((k ^ 2 + 1 : ℕ) : ℝ) - 1) + (some (1e-5 : ℝ)).getD 0 / k) = (5 / 2 + 1e-5) / k := by
    push_cast
    simp only [add_sub_cancel_right, Option.getD_some]
    field_simp
    ring
  rw [e1]
  exact div_le_div_of_nonneg_right (by norm_num) (by positivity)

end LinPDE.Solve
