import Verif.Galerkin.Sound
import Verif.Param.Props

/-! # Galerkin covariance functions: properties (C30, C49) -/

namespace LinPDE.Galerkin
open LinPDE.Fem MeasureTheory
open scoped InnerProductSpace

/-- `Pi` is the L2-orthogonal projection onto the span of the basis functions, for functions that are measurable and bounded on
bounded sets. -/
def IsL2Projection (b : Basis) (Pi : (ℝ → ℝ) → ℝ → ℝ) : Prop :=
  ∀ f, LB f → (∃ c : ℕ → ℝ, ∀ x, Pi f x = ∑ i ∈ Finset.range b.len, c i * (b.evaluate x).getD i 0) ∧
    ∀ i < b.len, ∫ x, (b.evaluate x).getD i 0 * (f x - Pi f x) = 0

/-- The remainder of an operator. -/
def remainder (Pi : (ℝ → ℝ) → ℝ → ℝ) (f : ℝ → ℝ) (x : ℝ) : ℝ := f x - Pi f x

variable {P : Proj} {k : ℝ → ℝ → ℝ}

lemma proj_lb (h : Good P) (f : ℝ → ℝ) : LB (proj P f) := LB.sum _ fun i _ => (phi_lb h i.2).const_mul _

lemma span_lb (h : Good P) (c : ℕ → ℝ) : LB fun x => ∑ i ∈ Finset.range P.basis.len, c i * (P.basis.evaluate x).getD i 0 :=
  LB.sum _ fun _ hi => (phi_lb h (Finset.mem_range.mp hi)).const_mul _

lemma integral_mass (h : Good P) (hn : P.normalized = true) (f : ℝ → ℝ) (i : Fin P.basis.len) :
    ∫ x, P.basis.phi i x * f x = ∑ j, massMatrix P.basis i j * coef P f j := by
  obtain ⟨g, zb, hg, hm⟩ := h
  obtain ⟨⟨v, hv, hM⟩, _⟩ := project_function hg hm f
  have : coef P f = v := by
    unfold coef
    rw [hn, hv]
  rw [this]
  exact (hM i).symm

/-- The operator of `coef` is the L2-orthogonal projection. -/
lemma proj_isL2 (h : Good P) (hn : P.normalized = true) : IsL2Projection P.basis (proj P) := by
  intro f hf
  refine ⟨⟨ofFin (coef P f), fun x => ?_⟩, fun i hi => ?_⟩
  · rw [proj, Finset.sum_range]
    exact Finset.sum_congr rfl fun j _ => by rw [ofFin_val]
  · change ∫ x, P.basis.phi (⟨i, hi⟩ : Fin P.basis.len) x * (f x - proj P f x) = 0
    rw [integral_mass h hn]
    refine Finset.sum_eq_zero fun j _ => ?_
    rw [coef_sub h hf (proj_lb h f)]
    have := congrFun (coef_span h hn (coef P f)) j
    change coef P (proj P f) j = _ at this
    rw [this]
    ring

/-- The L2-orthogonal projection is unique. -/
lemma l2_unique (h : Good P) (hn : P.normalized = true) {Pi : (ℝ → ℝ) → ℝ → ℝ} (hPi : IsL2Projection P.basis Pi) {f : ℝ → ℝ}
    (hf : LB f) : Pi f = proj P f := by
  obtain ⟨⟨c, hc⟩, h0⟩ := hPi f hf
  have hlb : LB (Pi f) := by
    have : Pi f = fun x => ∑ i ∈ Finset.range P.basis.len, c i * (P.basis.evaluate x).getD i 0 := funext hc
    rw [this]
    exact span_lb h c
  have hs : coef P (Pi f) = fun j : Fin P.basis.len => c j := by
    have := coef_span h hn (fun j : Fin P.basis.len => c j)
    rw [← this]
    congr 1
    funext x
    rw [hc, Finset.sum_range]
    rfl
  have hd : ∀ j, coef P f j = coef P (Pi f) j := by
    intro j
    have : coef P (fun x => f x - Pi f x) j = 0 := by
      rw [(projectFunction_eq h _).2]
      exact Finset.sum_eq_zero fun l _ => by
        have := h0 l l.2
        change ∫ x, P.basis.phi l x * (f x - Pi f x) = 0 at this
        rw [this, mul_zero]
    rw [coef_sub h hf hlb] at this
    linarith
  funext x
  rw [hc, proj, Finset.sum_range]
  exact Finset.sum_congr rfl fun j _ => by rw [hd, hs]

lemma both_l2 (h : Good P) (hn : P.normalized = true) (F : Feature k) {Pi : (ℝ → ℝ) → ℝ → ℝ}
    (hPi : IsL2Projection P.basis Pi) :
    both Pi Pi k = both (proj P) (proj P) k ∧ both (remainder Pi) (remainder Pi) k = both (rem P) (rem P) k ∧
      both Pi (remainder Pi) k = both (proj P) (rem P) k ∧ both (remainder Pi) Pi k = both (rem P) (proj P) k := by
  have h1 : ∀ s, Pi (k s) = proj P (k s) := fun s => l2_unique h hn hPi (F.section_lb s)
  have h2 : ∀ s, remainder Pi (k s) = rem P (k s) := fun s => by
    funext y
    rw [remainder, rem, h1]
  have l1 : ∀ y, LB fun s => proj P (k s) y := fun y => by
    have : (fun s => proj P (k s) y) = fun s => ⟪F.ψ s, uv P F.ψ y⟫_ℝ := funext fun s => by
      rw [proj_kernel h F, real_inner_comm]
    rw [this]
    exact F.lb.inner_const _
  have l2 : ∀ y, LB fun s => rem P (k s) y := fun y => by
    have e : (fun s => rem P (k s) y) = fun s => k s y - proj P (k s) y := rfl
    rw [e]
    refine LB.sub ?_ (l1 y)
    have : (fun s => k s y) = k y := funext fun s => F.symm _ _
    rw [this]
    exact F.section_lb y
  refine ⟨?_, ?_, ?_, ?_⟩ <;> funext x y <;> unfold both
  · simp only [h1]
    rw [l2_unique h hn hPi (l1 y)]
  · simp only [h2]
    rw [remainder, l2_unique h hn hPi (l2 y)]
    rfl
  · simp only [h2]
    rw [l2_unique h hn hPi (l2 y)]
  · simp only [h1]
    rw [remainder, l2_unique h hn hPi (l1 y)]
    rfl

lemma mkGalerkin_ok {K0 g : K} (h : mkGalerkin K0 P = .ok g) :
    ∃ c C, projK P K0 true = .ok c ∧ projPV P c = .ok C ∧ g = .galerkin K0 P c C := by
  unfold mkGalerkin at h
  cases h1 : projK P K0 true with
  | error e => rw [h1] at h; cases h
  | ok c =>
    rw [h1] at h
    cases h2 : projPV P c with
    | error e => simp only [bind, Except.bind, h2] at h; cases h
    | ok C =>
      simp only [bind, Except.bind, h2] at h
      cases h
      exact ⟨c, C, rfl, h2, rfl⟩

lemma mkGalerkin_valid {K0 g : K} (hK : Valid K0) (hP : Good P) (hS : SameObj P K0) (h : mkGalerkin K0 P = .ok g) : Valid g := by
  obtain ⟨c, C, h1, h2, rfl⟩ := mkGalerkin_ok h
  exact ⟨hK, hP, hS, h1, h2⟩

lemma den_of_eval {K0 : K} (hK : Valid K0) {κ : ℝ → ℝ → ℝ} (hκ : ∀ x y, K0.eval x y = .ok (κ x y)) : K0.den = κ := by
  funext x y
  have := (sound K0 hK).eval x y
  rw [hκ] at this
  exact (Except.ok.inj this).symm

/-! ## The projection operator -/

/-- C30: the L2-orthogonal projection onto the span of the basis exists, and its coordinates are the vector computed by the
normalised projection of the package. -/
theorem l2_projection (hP : Good P) (hn : P.normalized = true) :
    (∃ Pi, IsL2Projection P.basis Pi) ∧
    ∀ Pi, IsL2Projection P.basis Pi → ∀ f, LB f → ∃ v, projectFunction P.basis P.normalized f = .ok v ∧
      ∀ x, Pi f x = ∑ i, v i * (P.basis.evaluate x).getD i 0 :=
  ⟨⟨_, proj_isL2 hP hn⟩, fun Pi hPi f hf =>
    ⟨coef P f, (projectFunction_eq hP f).1, fun x => by rw [l2_unique hP hn hPi hf]; rfl⟩⟩

/-! ## Values -/

/-- C30: every valid covariance function, nested Galerkin kernels included, evaluates without exception, to the values of a
symmetric positive semidefinite function; `None` for the second argument stands for the first. -/
theorem kernel_total (K0 : K) (hK : Valid K0) :
    ∃ κ, IsCov κ ∧ (∀ x y, K0.eval x y = .ok (κ x y)) ∧ ∀ x, K0.call x none = .ok (κ x x) := by
  obtain ⟨F⟩ := (sound K0 hK).feature
  exact ⟨K0.den, F.isCov, (sound K0 hK).eval, fun x => (sound K0 hK).eval x x⟩

/-- C30: the Galerkin kernel is `Π k Π* + (I - Π) k (I - Π)*` with `Π` the L2-orthogonal projection. -/
theorem galerkin_value {K0 g : K} (hK : Valid K0) (hP : Good P) (hn : P.normalized = true) (hS : SameObj P K0)
    (h : mkGalerkin K0 P = .ok g) {κ : ℝ → ℝ → ℝ} (hκ : ∀ x y, K0.eval x y = .ok (κ x y))
    {Pi : (ℝ → ℝ) → ℝ → ℝ} (hPi : IsL2Projection P.basis Pi) (x y : ℝ) :
    g.eval x y = .ok (both Pi Pi κ x y + both (remainder Pi) (remainder Pi) κ x y) := by
  have hd := den_of_eval hK hκ
  obtain ⟨F⟩ := (sound K0 hK).feature
  rw [hd] at F
  rw [(sound g (mkGalerkin_valid hK hP hS h)).eval]
  obtain ⟨c, C, h1, h2, rfl⟩ := mkGalerkin_ok h
  obtain ⟨e1, e2, _, _⟩ := both_l2 hP hn F hPi
  rw [e1, e2, K.den, hd]
  rfl

/-- C30: the Galerkin kernel is symmetric and positive semidefinite, for normalised and unnormalised projections. -/
theorem galerkin_psd {K0 g : K} (hK : Valid K0) (hP : Good P) (hS : SameObj P K0) (h : mkGalerkin K0 P = .ok g) :
    ∃ γ, IsCov γ ∧ ∀ x y, g.eval x y = .ok (γ x y) := by
  obtain ⟨γ, h1, h2, _⟩ := kernel_total g (mkGalerkin_valid hK hP hS h)
  exact ⟨γ, h1, h2⟩

/-- C30: the integrals of the process against the basis functions have the same covariance under the Galerkin kernel as under
the kernel. -/
theorem galerkin_projection {K0 g : K} (hK : Valid K0) (hP : Good P) (hn : P.normalized = true) (hS : SameObj P K0)
    (h : mkGalerkin K0 P = .ok g) {κ γ : ℝ → ℝ → ℝ} (hκ : ∀ x y, K0.eval x y = .ok (κ x y))
    (hγ : ∀ x y, g.eval x y = .ok (γ x y)) (i j : Fin P.basis.len) :
    ∫ s, (P.basis.evaluate s).getD i 0 * ∫ t, (P.basis.evaluate t).getD j 0 * γ s t =
      ∫ s, (P.basis.evaluate s).getD i 0 * ∫ t, (P.basis.evaluate t).getD j 0 * κ s t := by
  have hd := den_of_eval hK hκ
  have hg := den_of_eval (mkGalerkin_valid hK hP hS h) hγ
  obtain ⟨F⟩ := (sound K0 hK).feature
  rw [hd] at F
  obtain ⟨c, C, h1, h2, rfl⟩ := mkGalerkin_ok h
  have hs : γ = spec P κ := by rw [← hg, K.den, hd]
  have key : ∀ {f : ℝ → ℝ → ℝ} (_ : Feature f), ∫ s, P.basis.phi i s * ∫ t, P.basis.phi j t * f s t =
      ∑ a, ∑ b, massMatrix P.basis i a * (massMatrix P.basis j b * coef P (fun s => coef P (f s) b) a) := by
    intro f G
    rw [integral_mass hP hn (fun s => ∫ t, P.basis.phi j t * f s t)]
    refine Finset.sum_congr rfl fun a _ => ?_
    rw [← Finset.mul_sum]
    congr 1
    simp only [fun s => integral_mass hP hn (f s) j]
    have : ∀ (T : Finset (Fin P.basis.len)), coef P (fun s => ∑ b ∈ T, massMatrix P.basis j b * coef P (f s) b) a =
        ∑ b ∈ T, massMatrix P.basis j b * coef P (fun s => coef P (f s) b) a := by
      classical
      intro T
      induction T using Finset.induction with
      | empty =>
        simp only [Finset.sum_empty]
        have := coef_smul hP (fun _ => (0 : ℝ)) 0 a
        simpa using this
      | insert b T hb ih =>
        simp only [Finset.sum_insert hb]
        rw [coef_add hP ((coef_lb hP G b).const_mul _) (LB.sum _ fun b _ => (coef_lb hP G b).const_mul _), ih,
          coef_smul hP]
    exact this Finset.univ
  obtain ⟨G⟩ := spec_feature hP F
  change ∫ s, P.basis.phi i s * ∫ t, P.basis.phi j t * γ s t = ∫ s, P.basis.phi i s * ∫ t, P.basis.phi j t * κ s t
  rw [hs, key G, key F]
  simp only [coef_coef_spec hP hn F]

/-- C30: under the Galerkin kernel the projection and the remainder are uncorrelated, and each has the covariance it has under
the kernel. -/
theorem galerkin_uncorrelated {K0 g : K} (hK : Valid K0) (hP : Good P) (hn : P.normalized = true) (hS : SameObj P K0)
    (h : mkGalerkin K0 P = .ok g) {κ γ : ℝ → ℝ → ℝ} (hκ : ∀ x y, K0.eval x y = .ok (κ x y))
    (hγ : ∀ x y, g.eval x y = .ok (γ x y)) {Pi : (ℝ → ℝ) → ℝ → ℝ} (hPi : IsL2Projection P.basis Pi) (x y : ℝ) :
    both Pi (remainder Pi) γ x y = 0 ∧ both (remainder Pi) Pi γ x y = 0 ∧ both Pi Pi γ x y = both Pi Pi κ x y ∧
      both (remainder Pi) (remainder Pi) γ x y = both (remainder Pi) (remainder Pi) κ x y := by
  have hd := den_of_eval hK hκ
  have hg := den_of_eval (mkGalerkin_valid hK hP hS h) hγ
  obtain ⟨F⟩ := (sound K0 hK).feature
  rw [hd] at F
  obtain ⟨c, C, h1, h2, rfl⟩ := mkGalerkin_ok h
  have hs : γ = spec P κ := by rw [← hg, K.den, hd]
  obtain ⟨G⟩ := spec_feature hP F
  obtain ⟨a1, a2, a3, a4⟩ := both_l2 hP hn G hPi
  obtain ⟨b1, b2, _, _⟩ := both_l2 hP hn F hPi
  rw [hs, a1, a2, a3, a4, b1, b2]
  exact uncorrelated hP hn F x y

/-! ## Projections of covariance functions -/

/-- C30, C49: whenever a projection of a covariance function in its second argument, and of the result, succeed, the first is
the vector of projections of the sections of the kernel and the second the matrix of projections of that in the other argument;
this covers the closed form for the Matérn-3/2 kernel, scaled and sum kernels, the quadrature and the shortcut for the Galerkin
kernel of the same projection. -/
theorem projection_values {K0 : K} (hK : Valid K0) (hP : Good P) (hS : SameObj P K0) {c : PV} (hc : projK P K0 true = .ok c)
    {C : ℕ → ℕ → ℝ} (hC : projPV P c = .ok C) {κ : ℝ → ℝ → ℝ} (hκ : ∀ x y, K0.eval x y = .ok (κ x y)) :
    ∃ p : ℝ → Fin P.basis.len → ℝ, (∀ x, projectFunction P.basis P.normalized (κ x) = .ok (p x)) ∧
      (∀ x, ∃ v, c.eval x = .ok v ∧ ∀ i : Fin P.basis.len, v i = p x i) ∧
      ∀ j : Fin P.basis.len, ∃ w, projectFunction P.basis P.normalized (fun x => p x j) = .ok w ∧
        ∀ i : Fin P.basis.len, C i j = w i := by
  have hcor := (sound K0 hK).proj P hP hS c hc C hC
  rw [den_of_eval hK hκ] at hcor
  exact ⟨fun x => coef P (κ x), fun x => (projectFunction_eq hP _).1, hcor.1,
    fun j => ⟨_, (projectFunction_eq hP _).1, fun i => hcor.2 i j⟩⟩

mutual
/-- Values of the cross-covariances, also where they cannot be projected again. -/
lemma cross_eval (hP : Good P) (hn : P.normalized = true) : ∀ k : K, Valid k → SameObj P k → ∀ c, projK P k true = .ok c →
    ∀ x, ∃ v, c.eval x = .ok v ∧ ∀ i : Fin P.basis.len, v i = coef P (k.den x) i
  | .base f, h, _, c, hc, x => by
    rw [projK] at hc
    cases hc
    refine ⟨ofFin (coef P (f x)), ?_, fun i => ofFin_val _ i⟩
    have e : (fun x t => val ((K.base f).eval x t)) = f := by funext x t; rw [K.eval]; rfl
    rw [PV.eval, e, project_crosscov, (projectFunction_eq hP _).1]
    rfl
  | .matern32 l, h, _, c, hc, x => by
    rw [projK] at hc
    cases hc
    refine ⟨_, by rw [PV.eval], fun i => ?_⟩
    rw [ofFin_val]
    obtain ⟨g, zb, hg, hm⟩ := hP
    have h1 := matern32_projection hg hm P.normalized h x
    rw [project_crosscov, (projectFunction_eq ⟨g, zb, hg, hm⟩ _).1] at h1
    exact (congrFun (Except.ok.inj h1) i).symm
  | .zero, _, _, c, hc, x => by
    rw [projK] at hc
    cases hc
    refine ⟨_, by rw [PV.eval], fun i => ?_⟩
    have := coef_smul hP (fun _ => 0) 0 i
    simpa [K.den] using this.symm
  | .scaled s k, h, hS, c, hc, x => by
    rw [projK] at hc
    rcases orQuad_ok hc with hc | ⟨-, rfl⟩
    · cases hi : projK P k true with
      | error e => rw [hi] at hc; cases hc
      | ok c' =>
        rw [hi] at hc
        cases hc
        obtain ⟨v, h1, h2⟩ := cross_eval hP hn k h.2 hS c' hi x
        refine ⟨fun i => s * v i, by rw [PV.eval, h1]; rfl, fun i => ?_⟩
        show s * v i = coef P (fun y => s * k.den x y) i
        rw [coef_smul hP, h2]
    · exact quad_eval hP (sound _ h) x
  | .sum k ks, h, hS, c, hc, x => by
    rw [projK] at hc
    rcases orQuad_ok hc with hc | ⟨-, rfl⟩
    · cases hi : projK P k true with
      | error e => rw [hi] at hc; cases hc
      | ok c' =>
        rw [hi] at hc
        obtain ⟨F⟩ := (sound k h.1).feature
        exact cross_evalL hP hn ks h.2 hS.2 c' c hc _ F (cross_eval hP hn k h.1 hS.1 c' hi) x
    · exact quad_eval hP (sound _ h) x
  | .galerkin k Q kPa C, h, hS, c, hc, x => by
    obtain ⟨hk, hQ, hS', h1, h2⟩ := h
    rw [projK] at hc
    split_ifs at hc with hid
    obtain rfl : Q = P := hS hid
    cases hc
    obtain ⟨F⟩ := (sound k hk).feature
    exact (cor_param hP hn F ((sound k hk).proj Q hQ hS' kPa h1 C h2).2 _).1 x
lemma cross_evalL (hP : Good P) (hn : P.normalized = true) : ∀ ks : KL, ValidL ks → SameObjL P ks → ∀ c0 c, projKL P ks c0 true = .ok c →
    ∀ f, Feature f → (∀ x, ∃ v, c0.eval x = .ok v ∧ ∀ i : Fin P.basis.len, v i = coef P (f x) i) →
      ∀ x, ∃ v, c.eval x = .ok v ∧ ∀ i : Fin P.basis.len, v i = coef P (fun y => f x y + ks.den x y) i
  | .nil, _, _, c0, c, hc, f, _, h0, x => by
    rw [projKL] at hc
    cases hc
    simpa [KL.den] using h0 x
  | .cons k ks, h, hS, c0, c, hc, f, Ff, h0, x => by
    rw [projKL] at hc
    cases hi : projK P k true with
    | error e => rw [hi] at hc; cases hc
    | ok d =>
      rw [hi] at hc
      obtain ⟨F⟩ := (sound k h.1).feature
      obtain ⟨G⟩ := Ff.add F
      have := cross_evalL hP hn ks h.2 hS.2 (.sum c0 d) c hc (fun x y => f x y + k.den x y) G (fun x => by
        obtain ⟨v, h1, h2⟩ := h0 x
        obtain ⟨w, h1', h2'⟩ := cross_eval hP hn k h.1 hS.1 d hi x
        refine ⟨fun i => v i + w i, by rw [PV.eval, h1, h1']; rfl, fun i => ?_⟩
        show v i + w i = coef P (fun y => f x y + k.den x y) i
        rw [coef_add hP (Ff.section_lb x) (F.section_lb x), h2, h2']) x
      simpa only [KL.den, add_assoc] using this
end

/-- C30: a cross-covariance with a normalised projection has as values the projections of the sections of the kernel, also if it cannot be projected
again (as that of the zero kernel). -/
theorem projection_sections {K0 : K} (hK : Valid K0) (hP : Good P) (hn : P.normalized = true) (hS : SameObj P K0) {c : PV} (hc : projK P K0 true = .ok c)
    {κ : ℝ → ℝ → ℝ} (hκ : ∀ x y, K0.eval x y = .ok (κ x y)) (x : ℝ) :
    ∃ p v, projectFunction P.basis P.normalized (κ x) = .ok p ∧ c.eval x = .ok v ∧ ∀ i : Fin P.basis.len, v i = p i := by
  obtain ⟨v, h1, h2⟩ := cross_eval hP hn K0 hK hS c hc x
  rw [den_of_eval hK hκ] at h2
  exact ⟨_, v, (projectFunction_eq hP _).1, h1, h2⟩

/-- C30: the Galerkin kernel of a Galerkin kernel with the same normalised projection exists and has the same values. -/
theorem galerkin_idempotent {K0 g : K} (hK : Valid K0) (hP : Good P) (hn : P.normalized = true) (hS : SameObj P K0)
    (h : mkGalerkin K0 P = .ok g) : ∃ g', mkGalerkin g P = .ok g' ∧ ∀ x y, g'.eval x y = g.eval x y := by
  have hv := mkGalerkin_valid hK hP hS h
  obtain ⟨c, C, h1, h2, rfl⟩ := mkGalerkin_ok h
  have hS' : SameObj P (.galerkin K0 P c C) := fun _ => rfl
  have hm : mkGalerkin (.galerkin K0 P c C) P =
      .ok (.galerkin (.galerkin K0 P c C) P (.param C P.basisId P.basis false) C) := by
    unfold mkGalerkin
    rw [projK]
    simp only [if_true, bind, Except.bind, projPV, hn, and_self]
    rfl
  refine ⟨_, hm, fun x y => ?_⟩
  rw [(sound _ (mkGalerkin_valid hv hP hS' hm)).eval, (sound _ hv).eval]
  simp only [K.den]
  obtain ⟨F⟩ := (sound K0 hK).feature
  obtain ⟨_, _, e1, e2⟩ := uncorrelated hP hn F x y
  congr 1
  rw [spec, e1, e2, ← spec]

/-- C49: projecting the covariance function `phi(x)' C phi(y)` of a parametric process onto its own basis gives, in one
argument, the parametric cross-covariance `C phi(x)`, and projecting that gives the covariance `C` of the weights, which is
what the registration for parametric cross-covariances returns. -/
theorem param_projection (hP : Good P) (hn : P.normalized = true) (C : ℕ → ℕ → ℝ) (reverse : Bool) {κ : ℝ → ℝ → ℝ}
    (hκ : ∀ x y, κ x y = ∑ i : Fin P.basis.len, ∑ j : Fin P.basis.len,
      (P.basis.evaluate x).getD i 0 * C i j * (P.basis.evaluate y).getD j 0) :
    projPV P (.param C P.basisId P.basis reverse) = .ok C ∧
    (∀ x, projectFunction P.basis P.normalized (fun y => κ y x) =
      .ok fun i => ∑ j : Fin P.basis.len, C i j * (P.basis.evaluate x).getD j 0) ∧
    (∀ x, ∃ v, (PV.param C P.basisId P.basis reverse).eval x = .ok v ∧
      projectFunction P.basis P.normalized (fun y => κ y x) = .ok fun i => v i) ∧
    ∀ j : Fin P.basis.len, projectFunction P.basis P.normalized
      (fun x => ∑ i : Fin P.basis.len, C j i * (P.basis.evaluate x).getD i 0) = .ok fun i => C j i := by
  have h1 : ∀ x, projectFunction P.basis P.normalized (fun y => κ y x) =
      .ok fun i => ∑ j : Fin P.basis.len, C i j * (P.basis.evaluate x).getD j 0 := by
    intro x
    rw [(projectFunction_eq hP _).1]
    congr 1
    rw [← coef_span hP hn fun i => ∑ j : Fin P.basis.len, C i j * (P.basis.evaluate x).getD j 0]
    congr 1
    funext y
    rw [hκ]
    refine Finset.sum_congr rfl fun i _ => ?_
    rw [Finset.sum_mul]
    exact Finset.sum_congr rfl fun j _ => by unfold Basis.phi; ring
  refine ⟨by rw [projPV]; simp [hn], h1, fun x => ⟨_, by rw [PV.eval], ?_⟩, fun j => ?_⟩
  · rw [h1]
    congr 1
    funext i
    rw [linopCall_fin]
    rfl
  · rw [(projectFunction_eq hP _).1]
    congr 1
    exact coef_span hP hn fun i => C j i

/-- C30, C49: the term `phi(x0)' (P k P*) phi(x1)` of the Galerkin kernel is the value of the parametric covariance function
with the matrix of `P k P*`. -/
theorem galerkin_parametric_term (n : ℕ) (b : Basis) (hb : b.len = n) (C : ℕ → ℕ → ℝ) (x0 x1 : ℝ) :
    ∃ pc a, Param.mkPCov n (phi b) [n] [n] C = .ok pc ∧
      pc.call ⟨[], fun _ => x0⟩ (some ⟨[], fun _ => x1⟩) = .ok a ∧ a.shape = [] ∧
      a.get [] = dot b.len (phi b x0) (linopCall C b.len (phi b x1)) := by
  obtain ⟨pc, a, h1, h2, h3, h4⟩ := Param.pcov_eval n (phi b) C ⟨[], fun _ => x0⟩ (some ⟨[], fun _ => x1⟩) (s := [])
    (by rfl)
  refine ⟨pc, a, h1, h2, h3, ?_⟩
  rw [h4 [] (by trivial)]
  rw [dot, hb]
  refine Finset.sum_congr rfl fun j _ => ?_
  rw [linopCall, Finset.mul_sum]
  exact Finset.sum_congr rfl fun l _ => by simp [mul_assoc]

/-! ## When the constructor succeeds -/

/-- The projection of this covariance function raises `NotImplementedError`. -/
def Fails (P : Proj) : K → Prop
  | .galerkin _ Q _ _ => Q.id ≠ P.id
  | _ => False

/-- One of the summands is a Galerkin kernel of another projection. -/
def FailsL (P : Proj) : KL → Prop
  | .nil => False
  | .cons k ks => Fails P k ∨ FailsL P ks

mutual
/-- The covariance functions of which the Galerkin kernel can be constructed. -/
def Constructible (P : Proj) : K → Prop
  | .base _ | .matern32 _ => True
  | .zero => False
  | .scaled _ k => Fails P k ∨ Constructible P k
  | .sum k ks => (Fails P k ∨ FailsL P ks) ∨ Constructible P k ∧ ConstructibleL P ks
  | .galerkin _ Q _ _ => Q.id = P.id ∧ P.basisId = Q.basisId ∧ P.normalized = true
/-- The same for the summands of a sum. -/
def ConstructibleL (P : Proj) : KL → Prop
  | .nil => True
  | .cons k ks => Constructible P k ∧ ConstructibleL P ks
end

lemma quadCov_isOk (hP : Good P) (k : ℝ → ℝ → ℝ) (r : Bool) : ∃ C, quadCov P P k r = .ok C := by
  obtain ⟨g, zb, hg, hm⟩ := hP
  have hq := projectionCov_eq hg hm hg hm k P.normalized P.normalized
  unfold quadCov
  rw [hq]
  simp only [ite_self]
  exact ⟨_, rfl⟩

/-- The outcome of the two projections of the constructor. -/
def Outcome (P : Proj) (r : Except Err PV) (fails ok : Prop) : Prop :=
  fails ∧ r = .error .notImplementedError ∨ ¬ fails ∧ ∃ c, r = .ok c ∧
    ((ok ∧ ∃ C, projPV P c = .ok C) ∨ (¬ ok ∧ projPV P c = .error .notImplementedError))

mutual
lemma outcome (hP : Good P) : ∀ k : K, Outcome P (projK P k true) (Fails P k) (Constructible P k)
  | .base f => by
    refine Or.inr ⟨id, _, by rw [projK], Or.inl ⟨trivial, ?_⟩⟩
    rw [projPV]
    exact quadCov_isOk hP _ _
  | .matern32 l => by
    refine Or.inr ⟨id, _, by rw [projK], Or.inl ⟨trivial, ?_⟩⟩
    rw [projPV]
    exact quadCov_isOk hP _ _
  | .zero => by
    refine Or.inr ⟨id, _, by rw [projK], Or.inr ⟨id, ?_⟩⟩
    rw [projPV]
  | .scaled s k => by
    rcases outcome hP k with ⟨h1, h2⟩ | ⟨h1, c, h2, h3⟩
    · refine Or.inr ⟨id, .quad (.scaled s k) P false, by rw [projK, h2]; rfl, Or.inl ⟨Or.inl h1, ?_⟩⟩
      rw [projPV]
      exact quadCov_isOk hP _ _
    · refine Or.inr ⟨id, .scaled s c, by rw [projK, h2]; rfl, ?_⟩
      rcases h3 with ⟨h3, C, hC⟩ | ⟨h3, hC⟩
      · exact Or.inl ⟨Or.inr h3, fun i j => s * C i j, by rw [projPV, hC]; rfl⟩
      · exact Or.inr ⟨not_or.mpr ⟨h1, h3⟩, by rw [projPV, hC]; rfl⟩
  | .sum k ks => by
    have hquad : ∃ C, projPV P (.quad (.sum k ks) P false) = .ok C := by
      rw [projPV]
      exact quadCov_isOk hP _ _
    rcases outcome hP k with ⟨h1, h2⟩ | ⟨h1, c, h2, h3⟩
    · exact Or.inr ⟨id, .quad (.sum k ks) P false, by rw [projK, h2]; rfl, Or.inl ⟨Or.inl (Or.inl h1), hquad⟩⟩
    · rcases outcomeL hP ks c with ⟨g1, g2⟩ | ⟨g1, d, g2, g3, g4⟩
      · refine Or.inr ⟨id, .quad (.sum k ks) P false, ?_, Or.inl ⟨Or.inl (Or.inr g1), hquad⟩⟩
        rw [projK, h2]
        simp only [bind, Except.bind]
        rw [g2]
        rfl
      · refine Or.inr ⟨id, d, ?_, ?_⟩
        · rw [projK, h2]
          simp only [bind, Except.bind]
          rw [g2]
          rfl
        · have hnf : ¬ (Fails P k ∨ FailsL P ks) := not_or.mpr ⟨h1, g1⟩
          rcases h3 with ⟨h3, C, hC⟩ | ⟨h3, hC⟩
          · by_cases hl : ConstructibleL P ks
            · exact Or.inl ⟨Or.inr ⟨h3, hl⟩, g3 ⟨C, hC⟩ hl⟩
            · exact Or.inr ⟨not_or.mpr ⟨hnf, fun hh => hl hh.2⟩, g4 (Or.inr ⟨⟨C, hC⟩, hl⟩)⟩
          · exact Or.inr ⟨not_or.mpr ⟨hnf, fun hh => h3 hh.1⟩, g4 (Or.inl hC)⟩
  | .galerkin k Q c C => by
    by_cases hid : Q.id = P.id
    · refine Or.inr ⟨fun hh => hh hid, .param C Q.basisId Q.basis false, by rw [projK, if_pos hid]; rfl, ?_⟩
      by_cases hn : P.basisId = Q.basisId ∧ P.normalized = true
      · exact Or.inl ⟨⟨hid, hn⟩, C, by rw [projPV, if_pos hn]⟩
      · exact Or.inr ⟨fun hh => hn hh.2, by rw [projPV, if_neg hn]⟩
    · exact Or.inl ⟨hid, by rw [projK, if_neg hid]⟩
lemma outcomeL (hP : Good P) : ∀ (ks : KL) (c0 : PV), FailsL P ks ∧ projKL P ks c0 true = .error .notImplementedError ∨
    ¬ FailsL P ks ∧ ∃ c, projKL P ks c0 true = .ok c ∧
      ((∃ C, projPV P c0 = .ok C) → ConstructibleL P ks → ∃ C, projPV P c = .ok C) ∧
      (projPV P c0 = .error .notImplementedError ∨ (∃ C, projPV P c0 = .ok C) ∧ ¬ ConstructibleL P ks →
        projPV P c = .error .notImplementedError)
  | .nil, c0 => Or.inr ⟨id, c0, by rw [projKL], fun h _ => h, fun h => by
      rcases h with h | ⟨_, h⟩
      · exact h
      · exact absurd trivial h⟩
  | .cons k ks, c0 => by
    rcases outcome hP k with ⟨h1, h2⟩ | ⟨h1, d, h2, h3⟩
    · exact Or.inl ⟨Or.inl h1, by rw [projKL, h2]; rfl⟩
    · rcases outcomeL hP ks (.sum c0 d) with ⟨g1, g2⟩ | ⟨g1, e, g2, g3, g4⟩
      · exact Or.inl ⟨Or.inr g1, by rw [projKL, h2]; exact g2⟩
      · refine Or.inr ⟨not_or.mpr ⟨h1, g1⟩, e, by rw [projKL, h2]; exact g2, fun hC hk => ?_, fun hh => ?_⟩
        · obtain ⟨C, hC⟩ := hC
          rcases h3 with ⟨h3, D, hD⟩ | ⟨h3, hD⟩
          · exact g3 ⟨fun i j => C i j + D i j, by rw [projPV, hC, hD]; rfl⟩ hk.2
          · exact absurd hk.1 h3
        · rcases hh with hh | ⟨⟨C, hC⟩, hk⟩
          · exact g4 (Or.inl (by rw [projPV, hh]; rfl))
          · rcases h3 with ⟨h3, D, hD⟩ | ⟨h3, hD⟩
            · exact g4 (Or.inr ⟨⟨fun i j => C i j + D i j, by rw [projPV, hC, hD]; rfl⟩, fun hl => hk ⟨h3, hl⟩⟩)
            · exact g4 (Or.inl (by rw [projPV, hC, hD]; rfl))
end

/-- C30: the constructor succeeds exactly on the constructible covariance functions and raises `NotImplementedError` on the
others. -/
theorem galerkin_constructs_iff (hP : Good P) (K0 : K) :
    ((∃ g, mkGalerkin K0 P = .ok g) ↔ ¬ Fails P K0 ∧ Constructible P K0) ∧
    (¬ (¬ Fails P K0 ∧ Constructible P K0) → mkGalerkin K0 P = .error .notImplementedError) := by
  rcases outcome hP K0 with ⟨h1, h2⟩ | ⟨h1, c, h2, ⟨h3, C, hC⟩ | ⟨h3, hC⟩⟩
  · have hm : mkGalerkin K0 P = .error .notImplementedError := by unfold mkGalerkin; rw [h2]; rfl
    refine ⟨⟨fun ⟨g, hg⟩ => ?_, fun hh => absurd h1 hh.1⟩, fun _ => hm⟩
    rw [hm] at hg
    cases hg
  · have hm : mkGalerkin K0 P = .ok (.galerkin K0 P c C) := by
      unfold mkGalerkin
      rw [h2]
      simp only [bind, Except.bind, hC]
    exact ⟨⟨fun _ => ⟨h1, h3⟩, fun _ => ⟨_, hm⟩⟩, fun hh => absurd ⟨h1, h3⟩ hh⟩
  · have hm : mkGalerkin K0 P = .error .notImplementedError := by
      unfold mkGalerkin
      rw [h2]
      simp only [bind, Except.bind, hC]
    refine ⟨⟨fun ⟨g, hg⟩ => ?_, fun hh => absurd hh.2 h3⟩, fun _ => hm⟩
    rw [hm] at hg
    cases hg

/-- C30 (violated): there are covariance functions without a Galerkin kernel: that of the zero process, and the Galerkin kernel
of another projection, although the latter scaled by one has one. -/
theorem galerkin_construction_violated (hP : Good P) (k : K) (Q : Proj) (hQ : Q.id ≠ P.id) (c : PV) (C : ℕ → ℕ → ℝ) :
    mkGalerkin .zero P = .error .notImplementedError ∧
    mkGalerkin (.galerkin k Q c C) P = .error .notImplementedError ∧
    ∃ g, mkGalerkin (.scaled 1 (.galerkin k Q c C)) P = .ok g :=
  ⟨(galerkin_constructs_iff hP _).2 fun h => h.2, (galerkin_constructs_iff hP _).2 fun h => h.1 hQ,
    (galerkin_constructs_iff hP _).1.mpr ⟨id, Or.inl hQ⟩⟩

/-! ## Unnormalised projections -/

/-- The hat function on the grid 0, 1, 2. -/
noncomputable def hat : Basis := ⟨[0, 1, 2], true⟩

lemma hat_mk : mkBasis [0, 1, 2] true = .ok hat := by
  unfold mkBasis
  simp [hat]

lemma hat_good (nz : Bool) : Good ⟨0, 0, hat, nz⟩ := ⟨[0, 1, 2], true, by norm_num, hat_mk⟩

lemma one_valid : Valid (.base fun _ _ => 1) := by
  refine ⟨⟨fun _ _ => rfl, fun N x a => ?_⟩, continuous_const⟩
  simp only [mul_one]
  rw [← Finset.sum_mul_sum]
  exact mul_self_nonneg _

lemma hat_int : ∫ x, hat.phi 0 x * 1 = 1 ∧ ∫ x, hat.phi 0 x * hat.phi 0 x = 2 / 3 := by
  have hg : ([0, 1, 2] : List ℝ).Pairwise (· < ·) := by norm_num
  have hlen : hat.len = 1 := by simp [hat, Basis.len]
  have i0 : (0 : ℕ) < hat.len := by omega
  constructor
  · have h1 := project_constant hg hat_mk false 1
    have h2 := (project_function hg hat_mk (fun _ => 1)).2
    rw [h1] at h2
    have h3 := congrFun (Except.ok.inj h2) ⟨0, i0⟩
    change _ = ∫ x, hat.phi 0 x * 1 at h3
    rw [← h3]
    simp only [projectConstant, normalizer, Bool.not_false, if_true, Matrix.one_mulVec]
    simp [hat, Basis.xip1, Basis.xim1]
  · have h1 := mass_matrix hg hat_mk ⟨0, i0⟩ ⟨0, i0⟩
    change _ = ∫ x, hat.phi 0 x * hat.phi 0 x at h1
    rw [← h1]
    simp [massMatrix, tridiag, massDiag, massDiag0, hat, Basis.xip1, Basis.xim1]

/-- C30 (violated): the shortcut for the projection of a Galerkin kernel is also taken for unnormalised projections, where it
does not return the projection of the kernel (hat function on the grid 0, 1, 2, kernel constant 1). -/
theorem galerkin_unnormalized_violated : ∃ (P : Proj) (K0 g : K) (γ : ℝ → ℝ → ℝ) (c : PV) (v : ℕ → ℝ) (x : ℝ),
    Valid K0 ∧ Good P ∧ mkGalerkin K0 P = .ok g ∧ (∀ x y, g.eval x y = .ok (γ x y)) ∧ projK P g true = .ok c ∧
      c.eval x = .ok v ∧ ∀ w, projectFunction P.basis P.normalized (γ x) = .ok w → ∃ i : Fin P.basis.len, v i ≠ w i := by
  have hP := hat_good false
  obtain ⟨g, hg⟩ := (galerkin_constructs_iff hP (.base fun _ _ => 1)).1.mpr ⟨id, trivial⟩
  have hv := mkGalerkin_valid one_valid hP trivial hg
  have he := (sound g hv).eval
  obtain ⟨c, C, h1, h2, rfl⟩ := mkGalerkin_ok hg
  have hlen : hat.len = 1 := by simp [hat, Basis.len]
  have i0 : (0 : ℕ) < hat.len := by omega
  refine ⟨⟨0, 0, hat, false⟩, .base fun _ _ => 1, _, _, .param C 0 hat false, _, 5, one_valid, hP, hg, he,
    by rw [projK]; rfl, by rw [PV.eval], fun w hw => ⟨⟨0, i0⟩, ?_⟩⟩
  have hz : hat.phi 0 5 = 0 := Basis.phi_high (hat_good false).good i0 (by norm_num [Basis.g, hat])
  have hw' := (projectFunction_eq hP (spec ⟨0, 0, hat, false⟩ (fun _ _ => 1) 5)).1
  rw [show (K.galerkin (.base fun _ _ => 1) ⟨0, 0, hat, false⟩ c C).den = spec ⟨0, 0, hat, false⟩ (fun _ _ => 1) by
    rw [K.den, K.den]] at hw
  rw [hw'] at hw
  obtain rfl := Except.ok.inj hw
  have hc : ∀ (f : ℝ → ℝ), coef ⟨0, 0, hat, false⟩ f ⟨0, i0⟩ = ∫ x, hat.phi 0 x * f x := by
    intro f
    rw [(projectFunction_eq hP _).2]
    simp only [normalizer, Bool.not_false, if_true, Matrix.one_apply]
    rw [Finset.sum_eq_single ⟨0, i0⟩]
    · simp
    · intro j _ hj
      exact absurd (Fin.ext (by have := j.2; change j.val < hat.len at this; omega)) hj
    · simp
  obtain ⟨F⟩ := Feature.of_continuous one_valid.1 one_valid.2
  have hs : ∀ t, spec ⟨0, 0, hat, false⟩ (fun _ _ => 1) 5 t = 1 - hat.phi 0 t := by
    intro t
    have hsum : ∀ (f : Fin hat.len → ℝ), ∑ i, f i = f ⟨0, i0⟩ := fun f => by
      rw [Finset.sum_eq_single ⟨0, i0⟩]
      · intro j _ hj
        exact absurd (Fin.ext (by have := j.2; omega)) hj
      · simp
    have hp : ∀ (f : ℝ → ℝ) x, proj ⟨0, 0, hat, false⟩ f x = coef ⟨0, 0, hat, false⟩ f ⟨0, i0⟩ * hat.phi 0 x :=
      fun f x => hsum _
    rw [spec_terms hP F, both]
    simp only [hp, hz, hc, hat_int.1]
    ring
  rw [hc]
  have hi : ∀ t, hat.phi 0 t * spec ⟨0, 0, hat, false⟩ (fun _ _ => 1) 5 t = hat.phi 0 t * 1 - hat.phi 0 t * hat.phi 0 t :=
    fun t => by rw [hs]; ring
  simp only [hi]
  have w0 := phi_weight hP i0
  rw [integral_sub (w0.integrable_mul (.of_continuous continuous_const)) (w0.integrable_mul (phi_lb hP i0)), hat_int.1,
    hat_int.2, linopCall_fin]
  rw [Finset.sum_eq_single (⟨0, i0⟩ : Fin hat.len)]
  · change C 0 0 * hat.phi 0 5 ≠ _
    rw [hz]
    norm_num
  · intro j _ hj
    exact absurd (Fin.ext (by have := j.2; omega)) hj
  · simp

/-! ## Instances -/

/-- A Galerkin kernel of the Matérn-3/2 kernel. -/
example : ∃ g, mkGalerkin (.matern32 1) ⟨0, 0, hat, true⟩ = .ok g ∧ Valid (.matern32 1) ∧ Good ⟨0, 0, hat, true⟩ :=
  have ⟨g, hg⟩ := (galerkin_constructs_iff (hat_good true) (.matern32 1)).1.mpr ⟨id, trivial⟩
  ⟨g, hg, one_pos, hat_good true⟩

/-- A sum of a scaled Matérn-3/2 kernel and a constant, and its Galerkin kernel's own Galerkin kernel. -/
example : ∃ g g', mkGalerkin (.sum (.scaled 2 (.matern32 1)) (.cons (.base fun _ _ => 1) .nil)) ⟨0, 0, hat, true⟩ = .ok g ∧
    mkGalerkin g ⟨0, 0, hat, true⟩ = .ok g' ∧ ∀ x y, g'.eval x y = g.eval x y := by
  obtain ⟨g, hg⟩ := (galerkin_constructs_iff (hat_good true)
    (.sum (.scaled 2 (.matern32 1)) (.cons (.base fun _ _ => 1) .nil))).1.mpr ⟨id, Or.inr ⟨Or.inr trivial, trivial, trivial⟩⟩
  obtain ⟨g', h1, h2⟩ := galerkin_idempotent (P := ⟨0, 0, hat, true⟩)
    (K0 := .sum (.scaled 2 (.matern32 1)) (.cons (.base fun _ _ => 1) .nil))
    ⟨⟨by norm_num, one_pos⟩, one_valid, trivial⟩ (hat_good true) rfl ⟨trivial, trivial, trivial⟩ hg
  exact ⟨g, g', hg, h1, h2⟩

/-- A sum with a zero summand: no Galerkin kernel, but a cross-covariance. -/
example : ∃ c, projK ⟨0, 0, hat, true⟩ (.sum (.matern32 1) (.cons .zero .nil)) true = .ok c ∧
    ∀ x, ∃ p v, projectFunction hat true (matern32K 1 x) = .ok p ∧ c.eval x = .ok v ∧ ∀ i : Fin hat.len, v i = p i := by
  have hc : projK ⟨0, 0, hat, true⟩ (.sum (.matern32 1) (.cons .zero .nil)) true = .ok (.sum (.matern32 1 ⟨0, 0, hat, true⟩ false) .zero) := by
    simp [projK, projKL, orQuad, bind, Except.bind]
  refine ⟨_, hc, fun x => ?_⟩
  exact projection_sections (P := ⟨0, 0, hat, true⟩) (K0 := .sum (.matern32 1) (.cons .zero .nil)) ⟨one_pos, trivial, trivial⟩ (hat_good true) rfl
    ⟨trivial, trivial, trivial⟩ hc (fun x y => by simp [K.eval, KL.evalAdd, bind, Except.bind]) x

end LinPDE.Galerkin
