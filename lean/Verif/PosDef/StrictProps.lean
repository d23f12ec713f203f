import Verif.PosDef.Strict
import Verif.PosDef.Wendland

/-!
# C65: the closed-form kernels are strictly positive definite
-/

namespace LinPDE.PosDef
open Filter Topology MeasureTheory LinPDE.Wendland
open LinPDE.Matern (MK Par sq)
open LinPDE.ExpQuad (EK)

variable {d : ℕ}

/-! ## Matérn kernels -/

/-- `exp (-sqrt (|x - y|² + v))`. -/
lemma SPD.expDist {v : ℝ} (hv : 0 ≤ v) : SPD fun x y : Fin d → ℝ => Real.exp (-Real.sqrt (dsq x y + v)) := by
  let q : (Fin d → ℝ) → (Fin d → ℝ) → ℝ := fun x y => Real.sqrt (dsq x y + v)
  let o : Fin d → ℝ := 0
  have hq : ∀ x y, q x y = q y x := fun x y => by
    simp only [q, dsq]
    congr 2
    exact Finset.sum_congr rfl fun i _ => by ring
  let G : ℝ → (Fin d → ℝ) → (Fin d → ℝ) → ℝ := fun u x y =>
    rootInt (dsq x o + v) u + rootInt (dsq o y + v) u - rootInt (dsq x y + v) u - rootInt (dsq o o + v) u
  let k0 : (Fin d → ℝ) → (Fin d → ℝ) → ℝ := fun x y => q x o + q o y - q x y - q o o
  have hG : ∀ u x y, G u x y = Real.exp (-(u * v)) * u ^ (-(3 / 2) : ℝ) *
      (Real.exp (-(u * dsq x y)) - Real.exp (-(u * dsq x o)) - Real.exp (-(u * dsq o y)) + Real.exp (-(u * dsq o o))) := by
    intro u x y
    simp only [G, rootInt]
    have e : ∀ t, Real.exp (-(u * (t + v))) = Real.exp (-(u * t)) * Real.exp (-(u * v)) := fun t => by
      rw [← Real.exp_add]; congr 1; ring
    simp only [e]
    ring
  have hGp : ∀ u, 0 < u → PSD (G u) := fun u hu =>
    (((PSD.gauss (d := d) hu.le).centre o).smul (c := Real.exp (-(u * v)) * u ^ (-(3 / 2) : ℝ))
        (mul_nonneg (Real.exp_pos _).le (Real.rpow_nonneg hu.le _))).congr (hG u)
  have hGi : ∀ x y, IntegrableOn (fun u => G u x y) (Set.Ioi 0) := by
    intro x y
    have := fun x y : Fin d → ℝ => rootInt_integrable (s := dsq x y + v) (add_nonneg (dsq_nonneg x y) hv)
    exact (((this x o).add (this o y)).sub (this x y)).sub (this o o)
  have hae : ∀ᵐ u ∂volume.restrict (Set.Ioi (0 : ℝ)), 0 < u :=
    (ae_restrict_iff' measurableSet_Ioi).mpr (Eventually.of_forall fun u hu => hu)
  have hk0 : ∀ x y, k0 x y = rootConst⁻¹ * ∫ u in Set.Ioi (0 : ℝ), G u x y := by
    intro x y
    have hi := fun x y : Fin d → ℝ => rootInt_integrable (s := dsq x y + v) (add_nonneg (dsq_nonneg x y) hv)
    have he := fun x y : Fin d → ℝ => integral_rootInt (s := dsq x y + v) (add_nonneg (dsq_nonneg x y) hv)
    have e1 : ∫ u in Set.Ioi (0 : ℝ), G u x y =
        rootConst * q x o + rootConst * q o y - rootConst * q x y - rootConst * q o o := by
      rw [← he, ← he, ← he, ← he]
      exact integral_four (hi x o) (hi o y) (hi x y) (hi o o)
    rw [e1]
    have := rootConst_pos.ne'
    simp only [k0]
    field_simp
  have hI : PSD fun x y => ∫ u in Set.Ioi (0 : ℝ), G u x y := PSD.integral (hae.mono hGp) hGi
  have hk : PSD k0 := (hI.smul (c := rootConst⁻¹) (inv_nonneg.mpr rootConst_pos.le)).congr hk0
  have hE : SPD fun x y => Real.exp (k0 x y) := by
    refine ⟨hk.exp, fun N x hx a h0 => ?_⟩
    have e : ∀ x y, Real.exp (k0 x y) = (1 + k0 x y) + (Real.exp (k0 x y) - 1 - k0 x y) := fun x y => by ring
    rw [Finset.sum_congr rfl fun i _ => Finset.sum_congr rfl fun j _ => by rw [e (x i) (x j)]] at h0
    rw [quad_add (k := fun x y => 1 + k0 x y) (m := fun x y => Real.exp (k0 x y) - 1 - k0 x y) x a,
      quad_add (k := fun _ _ => 1) (m := k0) x a] at h0
    have p1 := (PSD.const (α := Fin d → ℝ) zero_le_one).nonneg N x a
    have p2 := hk.nonneg N x a
    have p3 := hk.exp_rest.nonneg N x a
    have z1 : ∑ i, ∑ j, a i * a j * (1 : ℝ) = 0 := by linarith
    have z2 : ∑ i, ∑ j, a i * a j * k0 (x i) (x j) = 0 := by linarith
    have hs : ∑ i, a i = 0 := by
      have : ∑ i, ∑ j, a i * a j * (1 : ℝ) = (∑ i, a i) ^ 2 := by
        rw [pow_two, Finset.sum_mul_sum]
        simp
      rw [this] at z1
      exact pow_eq_zero_iff two_ne_zero |>.mp z1
    simp only [hk0] at z2
    have z3 : ∑ i, ∑ j, a i * a j * ∫ u in Set.Ioi (0 : ℝ), G u (x i) (x j) = 0 := by
      have : ∑ i, ∑ j, a i * a j * (rootConst⁻¹ * ∫ u in Set.Ioi (0 : ℝ), G u (x i) (x j)) =
          rootConst⁻¹ * ∑ i, ∑ j, a i * a j * ∫ u in Set.Ioi (0 : ℝ), G u (x i) (x j) := by
        simp only [Finset.mul_sum]
        exact Finset.sum_congr rfl fun i _ => Finset.sum_congr rfl fun j _ => by ring
      rw [this] at z2
      exact (mul_eq_zero.mp z2).resolve_left (inv_ne_zero rootConst_pos.ne')
    have e2 : ∑ i, ∑ j, a i * a j * ∫ u in Set.Ioi (0 : ℝ), G u (x i) (x j) =
        ∫ u in Set.Ioi (0 : ℝ), ∑ i, ∑ j, a i * a j * G u (x i) (x j) := by
      rw [integral_finsetSum _ fun i _ => integrable_finsetSum _ fun j _ => (hGi _ _).const_mul _]
      refine Finset.sum_congr rfl fun i _ => ?_
      rw [integral_finsetSum _ fun j _ => (hGi _ _).const_mul _]
      exact Finset.sum_congr rfl fun j _ => (integral_const_mul _ _).symm
    rw [e2, integral_eq_zero_iff_of_nonneg_ae (hae.mono fun u hu => (hGp u hu).nonneg N x a)
      (integrable_finsetSum _ fun i _ => integrable_finsetSum _ fun j _ => (hGi _ _).const_mul _)] at z3
    have : (ae (volume.restrict (Set.Ioi (0 : ℝ)))).NeBot := ae_neBot.mpr (by simp)
    obtain ⟨u, hu, h1⟩ := (hae.and z3).exists
    refine (SPD.gauss (d := d) hu).definite N x hx a ?_
    simp only [hG, Pi.zero_apply] at h1
    have h2 : ∑ i, ∑ j, a i * a j * (Real.exp (-(u * v)) * u ^ (-(3 / 2) : ℝ) *
      (Real.exp (-(u * dsq (x i) (x j))) - Real.exp (-(u * dsq (x i) o)) - Real.exp (-(u * dsq o (x j))) + Real.exp (-(u * dsq o o)))) =
      Real.exp (-(u * v)) * u ^ (-(3 / 2) : ℝ) * ∑ i, ∑ j, a i * a j * Real.exp (-(u * dsq (x i) (x j))) := by
      have e3 : ∀ i j, a i * a j * (Real.exp (-(u * v)) * u ^ (-(3 / 2) : ℝ) *
          (Real.exp (-(u * dsq (x i) (x j))) - Real.exp (-(u * dsq (x i) o)) - Real.exp (-(u * dsq o (x j))) +
          Real.exp (-(u * dsq o o)))) = Real.exp (-(u * v)) * u ^ (-(3 / 2) : ℝ) * (a i * a j * Real.exp (-(u * dsq (x i) (x j)))) -
          (Real.exp (-(u * v)) * u ^ (-(3 / 2) : ℝ) * a i * (Real.exp (-(u * dsq (x i) o)) - Real.exp (-(u * dsq o o)))) * a j -
          a i * (Real.exp (-(u * v)) * u ^ (-(3 / 2) : ℝ) * a j * Real.exp (-(u * dsq o (x j)))) := fun i j => by ring
      simp only [e3, Finset.sum_sub_distrib, ← Finset.mul_sum, ← Finset.sum_mul, hs]
      simp
    rw [h2] at h1
    exact (mul_eq_zero.mp h1).resolve_left (mul_pos (Real.exp_pos _) (Real.rpow_pos_of_pos hu _)).ne'
  refine ((hE.weight (f := fun x => Real.exp (-q x o)) fun x => (Real.exp_pos _).ne').smul (Real.exp_pos (q o o))).congr fun x y => ?_
  rw [← Real.exp_add, ← Real.exp_add, ← Real.exp_add]
  congr 1
  simp only [k0]
  rw [hq o y]
  ring

/-- Matérn profiles of a shifted squared distance. -/
lemma sq_spd (p : ℕ) : ∀ v : ℝ, 0 ≤ v → SPD fun x y : Fin d → ℝ => sq p (dsq x y + v) := by
  induction p with
  | zero =>
    intro v hv
    exact (SPD.expDist hv).congr fun x y => psi_zero_zero _
  | succ p ih =>
    intro v hv
    obtain ⟨c0, hi, hval⟩ := sq_mixture p
    have h1 : SPD fun x y : Fin d → ℝ => ∫ w in Set.Ioi (0 : ℝ), 1 / (2 * (2 * (p : ℝ) + 1)) * sq p (dsq x y + v + w) := by
      refine SPD.integral (by simp) ((ae_restrict_iff' measurableSet_Ioi).mpr (Eventually.of_forall fun w hw => ?_)) fun x y =>
        hi _ (add_nonneg (dsq_nonneg x y) hv)
      have hw : 0 < w := hw
      refine ((ih (v + w) (by linarith)).smul c0).congr fun x y => ?_
      rw [add_assoc]
    exact h1.congr fun x y => hval _ (add_nonneg (dsq_nonneg x y) hv)

lemma scale_injective {s : Fin d → ℝ} (hs : ∀ i, s i ≠ 0) : Function.Injective fun (x : Fin d → ℝ) i => x i * s i := by
  intro x y h
  funext i
  exact mul_right_cancel₀ (hs i) (congrFun h i)

/-- Two distinct points that a kernel does not distinguish. -/
lemma not_spd {α : Type} {k : α → α → ℝ} {x y : α} (hxy : x ≠ y) (h1 : k x y = k x x) (h2 : k y y = k x x) (h3 : k y x = k x x) :
    ¬SPD k := by
  intro h
  have := h.definite 2 ![x, y] (by
    intro i j hij
    fin_cases i <;> fin_cases j <;> first | rfl | (exfalso; simp at hij; first | exact hxy hij | exact hxy hij.symm)) ![1, -1] (by
    simp [Fin.sum_univ_two, h1, h2, h3])
  have := congrFun this 0
  simp at this

/-- C65: a half-integer Matérn kernel is strictly positive definite exactly if no scale factor vanishes. -/
theorem matern_spd_iff (m : Par d) : SPD (MK.matern m).eval ↔ ∀ i, m.s i ≠ 0 := by
  refine ⟨fun h i hi => ?_, fun hs => ?_⟩
  · refine not_spd (x := 0) (y := Pi.single i 1) (fun h => ?_) ?_ ?_ ?_ h
    · have := congrFun h i
      simp at this
    all_goals
      simp only [matern_eval]
      congr 2
      refine Finset.sum_congr rfl fun j _ => ?_
      by_cases hj : j = i
      · subst hj
        simp [hi]
      · simp [hj]
  · exact ((sq_spd (d := d) m.p 0 le_rfl).comp (scale_injective hs)).congr fun x y => matern_eval m x y

example : SPD (MK.matern (⟨2, fun i => i.1 + 1⟩ : Par 3)).eval :=
  (matern_spd_iff _).mpr fun i => by positivity

/-! ## Squared-exponential kernels -/

/-- C65: squared-exponential kernels are strictly positive definite. -/
theorem expquad_spd {l : Fin d → ℝ} (hl : ∀ i, l i ≠ 0) : SPD (EK.expquad l).eval := by
  refine ((SPD.gauss (d := d) one_pos).comp (scale_injective (s := ExpQuad.sf l) fun i =>
    div_ne_zero (Real.sqrt_pos.mpr (by norm_num)).ne' (hl i))).congr fun x y => ?_
  show Real.exp (-ExpQuad.normSq _) = _
  rw [one_mul]
  unfold ExpQuad.normSq dsq
  congr 2
  exact Finset.sum_congr rfl fun i _ => by ring

/-! ## Wendland kernels -/

/-- A compactly supported radial function. -/
lemma SPD.compact {F : ℝ → ℝ} (h : PSD fun x y : Fin d → ℝ => F √(dsq x y)) (hp : ∀ r, 0 ≤ r → r < 1 → 0 < F r)
    (hz : ∀ r, 1 ≤ r → F r = 0) : SPD fun x y : Fin d → ℝ => F √(dsq x y) := by
  classical
  refine SPD.of_sections h fun s a h0 => ?_
  by_contra hne
  push Not at hne
  obtain ⟨x0, hx0, ha0⟩ := hne
  let n2 : (Fin d → ℝ) → ℝ := fun x => ∑ i, x i ^ 2
  obtain ⟨x, hx, hmax⟩ := (s.filter fun x => a x ≠ 0).exists_max_image n2 ⟨x0, by simp [hx0, ha0]⟩
  obtain ⟨hxs, hax⟩ := Finset.mem_filter.mp hx
  -- a point near which only the section at `x` does not vanish
  obtain ⟨z, hz1, hz2⟩ : ∃ z, dsq z x < 1 ∧ ∀ y ∈ s, a y ≠ 0 → y ≠ x → 1 ≤ dsq z y := by
    have hn : ∀ y, 0 ≤ n2 y := fun y => Finset.sum_nonneg fun _ _ => sq_nonneg _
    have hd0 : ∀ y, y ≠ x → 0 < dsq x y := by
      intro y hy
      refine lt_of_le_of_ne (dsq_nonneg _ _) fun h => hy ?_
      funext i
      have := (Finset.sum_eq_zero_iff_of_nonneg fun i _ => sq_nonneg (x i - y i)).mp h.symm i (Finset.mem_univ _)
      have := pow_eq_zero_iff two_ne_zero |>.mp this
      linarith
    rcases (hn x).eq_or_lt with h | h
    · have hx0 : ∀ y, n2 y = 0 → y = 0 := by
        intro y hy
        funext i
        exact pow_eq_zero_iff two_ne_zero |>.mp ((Finset.sum_eq_zero_iff_of_nonneg fun i _ => sq_nonneg (y i)).mp hy i (Finset.mem_univ _))
      refine ⟨x, by simp [dsq], fun y hy hay hyx => absurd ?_ hyx⟩
      have := hmax y (by simp [hy, hay])
      rw [hx0 x h.symm, hx0 y (le_antisymm (by linarith) (hn y))]
    · have hev : ∀ᶠ t in 𝓝[<] (1 : ℝ), ∀ y ∈ s, y ≠ x → 1 < t ^ 2 + dsq x y := by
        rw [Filter.eventually_all_finset]
        intro y hy
        by_cases hyx : y = x
        · exact Eventually.of_forall fun t h => absurd hyx h
        · have hc : Tendsto (fun t : ℝ => t ^ 2 + dsq x y) (𝓝[<] 1) (𝓝 (1 ^ 2 + dsq x y)) :=
            ((continuous_pow 2).add continuous_const).continuousWithinAt.tendsto
          have := hc.eventually_const_lt (u := 1) (by have := hd0 y hyx; linarith)
          exact this.mono fun t ht _ => ht
      have hio : ∀ᶠ t in 𝓝[<] (1 : ℝ), t ∈ Set.Ioo (0 : ℝ) 1 := Ioo_mem_nhdsLT (show (0 : ℝ) < 1 by norm_num)
      obtain ⟨t, ht, ht0, ht1⟩ := (hev.and hio).exists
      have hr : 0 < √(n2 x) := Real.sqrt_pos.mpr h
      set τ := t / √(n2 x) with hτ
      have hτ0 : 0 < τ := div_pos ht0 hr
      have hτ2 : τ ^ 2 * n2 x = t ^ 2 := by
        rw [hτ, div_pow, Real.sq_sqrt h.le]
        field_simp
      refine ⟨fun i => (1 + τ) * x i, ?_, fun y hy hay hyx => ?_⟩
      · have : dsq (fun i => (1 + τ) * x i) x = t ^ 2 := by
          rw [← hτ2]
          simp only [dsq, n2, Finset.mul_sum]
          exact Finset.sum_congr rfl fun i _ => by ring
        rw [this]
        nlinarith
      · have e : dsq (fun i => (1 + τ) * x i) y = t ^ 2 + (1 + τ) * dsq x y + τ * (n2 x - n2 y) := by
          rw [← hτ2]
          simp only [dsq, n2, Finset.mul_sum, ← Finset.sum_sub_distrib, ← Finset.sum_add_distrib]
          exact Finset.sum_congr rfl fun i _ => by ring
        rw [e]
        have h1 := hmax y (by simp [hy, hay])
        have h2 := ht y hy hyx
        have h3 := mul_nonneg hτ0.le (sub_nonneg.mpr h1)
        have h4 := mul_nonneg hτ0.le (hd0 y hyx).le
        linarith
  have h1 := h0 z
  rw [Finset.sum_eq_single_of_mem x hxs fun y hy hyx => ?_] at h1
  · have h2 := hp _ (Real.sqrt_nonneg (dsq z x)) (by rw [Real.sqrt_lt' one_pos]; simpa using hz1)
    exact (mul_ne_zero hax h2.ne') h1
  · by_cases hay : a y = 0
    · rw [hay, zero_mul]
    · rw [hz _ (Real.one_le_sqrt.mpr (hz2 y hy hay hyx)), mul_zero]

/-- C65: Wendland kernels are strictly positive definite in the dimension they are constructed for. -/
theorem wendland_spd {k : ℕ} {l : Fin d → ℝ} (hl : ∀ i, l i ≠ 0) {K : WendlandCov d} (h : mkWendland d k l = .ok K) :
    SPD K.eval := by
  unfold mkWendland at h
  obtain ⟨p, hp⟩ : ∃ p, wendlandPoly d k = .ok p := ⟨_, (wendland_constructs d k).choose_spec.1⟩
  rw [hp] at h
  obtain rfl : (⟨p, l⟩ : WendlandCov d) = K := Except.ok.inj h
  obtain ⟨-, h1, h2, -⟩ := wendland_shape hp
  have h3 : SPD fun x y : Fin d → ℝ => wendlandFun p √(dsq x y) :=
    SPD.compact (wendland_radial_psd (n := d) hp (by omega)) h1 h2
  refine (h3.comp (scale_injective (s := fun i => 1 / l i) fun i => one_div_ne_zero (hl i))).congr fun x y => ?_
  unfold WendlandCov.eval dsq
  dsimp only
  congr 2
  exact Finset.sum_congr rfl fun i _ => by ring

example : ∃ K : WendlandCov 4, mkWendland 4 2 (fun i => (i : ℝ) + 1) = .ok K ∧ SPD K.eval := by
  obtain ⟨p, hp, _⟩ := wendland_constructs 4 2
  have h : mkWendland 4 2 (fun i => (i : ℝ) + 1) = .ok ⟨p, fun i => (i : ℝ) + 1⟩ := by
    unfold mkWendland
    rw [hp]
    rfl
  exact ⟨_, h, wendland_spd (fun i => by positivity) h⟩

/-! ## Tensor products -/

lemma SPD.pi : ∀ (n : ℕ) (f : Fin n → ℝ → ℝ → ℝ), (∀ i, SPD (f i)) → SPD fun x y : Fin n → ℝ => ∏ i, f i (x i) (y i) := by
  intro n
  induction n with
  | zero =>
    intro f _
    refine ⟨(PSD.const zero_le_one).congr fun _ _ => by simp, fun N x hx a h0 => ?_⟩
    funext i
    have : Subsingleton (Fin N) := ⟨fun i j => hx (Subsingleton.elim _ _)⟩
    have e : ∀ j, j = i := fun j => Subsingleton.elim _ _
    rw [Finset.sum_eq_single i (fun j _ h => absurd (e j) h) (by simp),
      Finset.sum_eq_single i (fun j _ h => absurd (e j) h) (by simp)] at h0
    simpa using h0
  | succ n ih =>
    intro f hf
    have := (hf 0).prod (ih (fun i => f i.succ) fun i => hf i.succ)
    refine (this.comp (f := fun x : Fin (n + 1) → ℝ => (x 0, fun i : Fin n => x i.succ)) fun x y h => ?_).congr fun x y => by
      rw [Fin.prod_univ_succ]
    funext i
    refine Fin.cases ?_ (fun i => ?_) i
    · exact congrArg Prod.fst h
    · exact congrFun (congrArg Prod.snd h) i

/-- C65: a tensor product of strictly positive definite kernels is strictly positive definite. -/
theorem tensor_spd (t : Tensor.TP) (o : List ℕ) (h : ∀ k ∈ t.factors, SPD fun x y => k.ev x y o) :
    SPD fun x y : Fin t.factors.length → ℝ => t.evaluate (List.ofFn x) (some (List.ofFn y)) o := by
  refine (SPD.pi t.factors.length (fun i x y => (t.factors.get i).ev x y o) fun i => h _ (List.get_mem _ _)).congr fun x y => ?_
  rw [Tensor.evaluate_eq_prod]
  exact Finset.prod_congr rfl fun i _ => by simp

end LinPDE.PosDef
