import Verif.GP.Interpolate
import Mathlib.Analysis.Calculus.Deriv.Add
import Mathlib.Analysis.Calculus.Deriv.Mul

/-!
# Gaussian processes with derivatives

The functionals of the model (`GP/Model.lean`) for differential operators: evaluations of partial derivatives, of the
orders in a lower set of multi-indices. A kernel with derivatives of these orders in both arguments gives a prior for
which `L(prior.cov, argnum=1)` is differentiation of the second argument (`_lintransforms.py:9-21`,
`linfuncops/diffops/_coefficients.py`, `linfunctls/_evaluation.py`).
-/

namespace LinPDE.GP
open Matrix LinPDE.PosDef

variable {d : ℕ}

/-- Multi-indices. -/
abbrev Ix (d : ℕ) : Type := Fin d → ℕ
/-- Points. -/
abbrev Pt (d : ℕ) : Type := Fin d → ℝ

/-- `J α` is the partial derivative of `f` of order `α`, for all `α ∈ I`; the directional derivatives of `J α`, in the
directions in which orders in `I` remain, are combinations of the partial derivatives. -/
structure HasJet (I : Set (Ix d)) (f : Pt d → ℝ) (J : Ix d → Pt d → ℝ) : Prop where
  zero : J 0 = f
  step : ∀ (α : Ix d) (u : Pt d), (∀ j, u j ≠ 0 → α + Pi.single j 1 ∈ I) → ∀ x : Pt d,
    HasDerivAt (fun t : ℝ => J α (x + t • u)) (∑ j, u j * J (α + Pi.single j 1) x) 0

variable {I : Set (Ix d)}

lemma ix_cases (α : Ix d) : α = 0 ∨ ∃ (β : Ix d) (j : Fin d), α = β + Pi.single j 1 ∧ ∑ i, β i < ∑ i, α i := by
  by_cases h : α = 0
  · exact Or.inl h
  · obtain ⟨j, hj⟩ := Function.ne_iff.mp h
    have hj : α j ≠ 0 := hj
    have e : α = α - Pi.single j 1 + Pi.single j 1 := by
      funext i
      by_cases hi : i = j
      · subst hi
        simp
        omega
      · simp [hi]
    refine Or.inr ⟨α - Pi.single j 1, j, e, ?_⟩
    conv_rhs => rw [e]
    simp [Finset.sum_add_distrib]

lemma HasJet.partial {f : Pt d → ℝ} {J : Ix d → Pt d → ℝ} (h : HasJet I f J) {α : Ix d} {j : Fin d}
    (hα : α + Pi.single j 1 ∈ I) (x : Pt d) :
    HasDerivAt (fun t : ℝ => J α (x + t • Pi.single j 1)) (J (α + Pi.single j 1) x) 0 := by
  refine (h.step α (Pi.single j 1) (fun i hi => ?_) x).congr_deriv ?_
  · by_cases hij : i = j
    · exact hij ▸ hα
    · rw [Pi.single_eq_of_ne hij] at hi
      exact absurd rfl hi
  · rw [Finset.sum_eq_single j (fun i _ hi => by rw [Pi.single_eq_of_ne hi, zero_mul]) (by simp), Pi.single_eq_same, one_mul]

lemma HasJet.unique (hI : IsLowerSet I) {f : Pt d → ℝ} {J J' : Ix d → Pt d → ℝ} (h : HasJet I f J) (h' : HasJet I f J') :
    ∀ α ∈ I, J α = J' α := by
  suffices ∀ n (α : Ix d), ∑ i, α i = n → α ∈ I → J α = J' α from fun α hα => this _ α rfl hα
  intro n
  induction n using Nat.strong_induction_on with
  | _ n ih =>
    intro α hn hα
    rcases ix_cases α with rfl | ⟨β, j, rfl, hlt⟩
    · rw [h.zero, h'.zero]
    · have hβ : β ∈ I := hI (fun i => by simp) hα
      have e := ih _ (hn ▸ hlt) β rfl hβ
      funext x
      have h1 := h.partial hα x
      rw [e] at h1
      exact h1.unique (h'.partial hα x)

lemma HasJet.add {f g : Pt d → ℝ} {J G : Ix d → Pt d → ℝ} (h : HasJet I f J) (h' : HasJet I g G) :
    HasJet I (f + g) (J + G) :=
  ⟨by rw [Pi.add_apply, h.zero, h'.zero], fun α u hu x => by
    refine ((h.step α u hu x).add (h'.step α u hu x)).congr_deriv ?_
    simp only [Pi.add_apply, mul_add, Finset.sum_add_distrib]⟩

lemma HasJet.smul {f : Pt d → ℝ} {J : Ix d → Pt d → ℝ} (h : HasJet I f J) (c : ℝ) : HasJet I (c • f) (c • J) :=
  ⟨by rw [Pi.smul_apply, h.zero], fun α u hu x => by
    refine ((h.step α u hu x).const_mul c).congr_deriv ?_
    simp only [Pi.smul_apply, smul_eq_mul, Finset.mul_sum]
    exact Finset.sum_congr rfl fun j _ => by ring⟩

/-- Functions with derivatives of the orders in `I`. -/
def jetF (I : Set (Ix d)) : Submodule ℝ (Pt d → ℝ) where
  carrier := {f | ∃ J, HasJet I f J}
  add_mem' := fun ⟨J, h⟩ ⟨G, h'⟩ => ⟨J + G, h.add h'⟩
  zero_mem' := ⟨0, rfl, fun _ _ _ _ => by simpa using hasDerivAt_const (0 : ℝ) (0 : ℝ)⟩
  smul_mem' := fun c _ ⟨J, h⟩ => ⟨c • J, h.smul c⟩

/-- The derivatives of a function. -/
noncomputable def jet (f : jetF I) : Ix d → Pt d → ℝ := f.2.choose

lemma jet_spec (f : jetF I) : HasJet I f.1 (jet f) := f.2.choose_spec

lemma jet_eq (hI : IsLowerSet I) (f : jetF I) {J : Ix d → Pt d → ℝ} (h : HasJet I f.1 J) : ∀ α ∈ I, jet f α = J α :=
  (jet_spec f).unique hI h

/-- The functional `f ↦ ∂^α f(x)`. -/
noncomputable def dAt (hI : IsLowerSet I) (q : I × Pt d) : jetF I →ₗ[ℝ] ℝ where
  toFun f := jet f q.1 q.2
  map_add' f g := by rw [jet_eq hI (f + g) ((jet_spec f).add (jet_spec g)) _ q.1.2]; rfl
  map_smul' c f := by rw [jet_eq hI (c • f) ((jet_spec f).smul c) _ q.1.2]; rfl

lemma dAt_eq (hI : IsLowerSet I) (q : I × Pt d) (f : jetF I) {J : Ix d → Pt d → ℝ} (h : HasJet I f.1 J) :
    dAt hI q f = J q.1 q.2 := congrFun (jet_eq hI f h _ q.1.2) q.2

/-- A kernel with its derivatives: `K α x β y = ∂_x^α ∂_y^β k(x, y)`. -/
structure JetKernel (I : Set (Ix d)) (K : Ix d → Pt d → Ix d → Pt d → ℝ) : Prop where
  lower : IsLowerSet I
  zero_mem : 0 ∈ I
  left : ∀ β ∈ I, ∀ y, HasJet I (fun x => K 0 x β y) fun α x => K α x β y
  psd : PSD fun p q : I × Pt d => K p.1 p.2 q.1 q.2

variable {K : Ix d → Pt d → Ix d → Pt d → ℝ}

lemma JetKernel.sec (h : JetKernel I K) {β : Ix d} (hβ : β ∈ I) (y : Pt d) : (fun x => K 0 x β y) ∈ jetF I := ⟨_, h.left β hβ y⟩

lemma JetKernel.symm (h : JetKernel I K) {α β : Ix d} (hα : α ∈ I) (hβ : β ∈ I) (x y : Pt d) : K α x β y = K β y α x :=
  h.psd.symm (⟨α, hα⟩, x) (⟨β, hβ⟩, y)

open Classical in
lemma JetKernel.right (h : JetKernel I K) {α : Ix d} (hα : α ∈ I) (x : Pt d) :
    HasJet I (fun y => K α x 0 y) fun β y => if β ∈ I then K α x β y else 0 := by
  have := h.left α hα x
  refine ⟨?_, fun β u hu y => ?_⟩
  · funext y
    rw [if_pos h.zero_mem]
  · by_cases h0 : u = 0
    · subst h0
      simpa using hasDerivAt_const (0 : ℝ) _
    · obtain ⟨j, hj⟩ := Function.ne_iff.mp h0
      have hβ : β ∈ I := h.lower (fun i => by simp) (hu j hj)
      refine ((this.step β u hu y).congr_of_eventuallyEq (Filter.Eventually.of_forall fun t => ?_)).congr_deriv ?_
      · simp only [if_pos hβ]
        exact h.symm hα hβ _ _
      · refine Finset.sum_congr rfl fun j _ => ?_
        by_cases hj : u j = 0
        · rw [hj, zero_mul, zero_mul]
        · rw [if_pos (hu j hj), h.symm hα (hu j hj)]

lemma JetKernel.right_mem (h : JetKernel I K) (x : Pt d) : (fun y => K 0 x 0 y) ∈ jetF I := ⟨_, h.right h.zero_mem x⟩

lemma dAt_sec (h : JetKernel I K) (q : I × Pt d) (x : Pt d) :
    dAt h.lower q ⟨fun y => K 0 x 0 y, h.right_mem x⟩ = K 0 x q.1 q.2 := by
  rw [dAt_eq h.lower q _ (h.right h.zero_mem x), if_pos q.1.2]

/-- The prior with mean `m`, kernel `K 0 · 0 ·` and the functionals spanned by evaluations of derivatives. -/
@[reducible] noncomputable def JetKernel.prior (h : JetKernel I K) (m : jetF I) : Prior (Pt d) where
  F := jetF I
  m := m
  k x y := K 0 x 0 y
  sec_mem x := h.right_mem x
  Λ := Submodule.span ℝ (Set.range (dAt h.lower))
  cross_mem L hL := by
    refine Submodule.span_induction (p := fun L _ => (fun x => L ⟨fun y => K 0 x 0 y, h.right_mem x⟩) ∈ jetF I) ?_ ?_ ?_ ?_ hL
    · rintro _ ⟨q, rfl⟩
      rw [show (fun x => dAt h.lower q ⟨fun y => K 0 x 0 y, h.right_mem x⟩) = fun x => K 0 x q.1 q.2 from funext (dAt_sec h q)]
      exact h.sec q.1.2 q.2
    · exact (jetF I).zero_mem
    · exact fun L L' _ _ hL hL' => (jetF I).add_mem hL hL'
    · exact fun c L _ hL => (jetF I).smul_mem c hL

/-- `∂^α` at `x` as a functional of the prior. -/
noncomputable def JetKernel.δ (h : JetKernel I K) (m : jetF I) (q : I × Pt d) : (h.prior m).Λ :=
  ⟨dAt h.lower q, Submodule.subset_span ⟨q, rfl⟩⟩

lemma δ_cross (h : JetKernel I K) (m : jetF I) (q : I × Pt d) :
    ((h.prior m).cross (h.δ m q)).1 = fun x => K 0 x q.1 q.2 := funext fun x => dAt_sec h q x

lemma δ_cov (h : JetKernel I K) (m : jetF I) (p q : I × Pt d) : (h.prior m).cov (h.δ m p) (h.δ m q) = K p.1 p.2 q.1 q.2 := by
  have h1 : HasJet I ((h.prior m).cross (h.δ m q)).1 fun α x => K α x q.1 q.2 := by
    rw [δ_cross]
    exact h.left q.1 q.1.2 q.2
  exact dAt_eq h.lower p _ h1

/-- Linear combinations of derivatives. -/
noncomputable def JetKernel.lin (h : JetKernel I K) (m : jetF I) : ((I × Pt d) →₀ ℝ) →ₗ[ℝ] (h.prior m).Λ :=
  Finsupp.linearCombination ℝ (h.δ m)

lemma lin_surjective (h : JetKernel I K) (m : jetF I) : Function.Surjective (h.lin m) := by
  rintro ⟨L, hL⟩
  obtain ⟨c, rfl⟩ := (Finsupp.mem_span_range_iff_exists_finsupp).mp hL
  refine ⟨c, Subtype.ext ?_⟩
  show ((Finsupp.linearCombination ℝ (h.δ m) c : (h.prior m).Λ) : jetF I →ₗ[ℝ] ℝ) = _
  rw [Finsupp.linearCombination_apply]
  unfold Finsupp.sum
  rw [Submodule.coe_sum]
  rfl

lemma lin_cov (h : JetKernel I K) (m : jetF I) (c c' : (I × Pt d) →₀ ℝ) :
    (h.prior m).cov (h.lin m c) (h.lin m c') = ∑ p ∈ c.support, ∑ q ∈ c'.support, c p * c' q * K p.1 p.2 q.1 q.2 := by
  rw [← covBil_apply]
  simp only [JetKernel.lin, Finsupp.linearCombination_apply, Finsupp.sum, map_sum, map_smul, LinearMap.sum_apply,
    LinearMap.smul_apply, smul_eq_mul, Finset.mul_sum]
  rw [Finset.sum_comm]
  exact Finset.sum_congr rfl fun p _ => Finset.sum_congr rfl fun q _ => by
    rw [covBil_apply, δ_cov]
    ring

/-- The prior satisfies the assumptions of the theorems on conditioning. -/
theorem jet_regular (h : JetKernel I K) (m : jetF I) : (h.prior m).Regular := by
  refine ⟨fun x => ?_, fun L L' => ?_, fun L => ?_⟩
  · refine Submodule.subset_span ⟨(⟨0, h.zero_mem⟩, x), ?_⟩
    refine LinearMap.ext fun f => ?_
    show jet f 0 x = f.1 x
    rw [(jet_spec f).zero]
  · obtain ⟨c, rfl⟩ := lin_surjective h m L
    obtain ⟨c', rfl⟩ := lin_surjective h m L'
    rw [lin_cov, lin_cov, Finset.sum_comm]
    refine Finset.sum_congr rfl fun p _ => Finset.sum_congr rfl fun q _ => ?_
    rw [h.symm p.1.2 q.1.2]
    ring
  · obtain ⟨c, rfl⟩ := lin_surjective h m L
    rw [lin_cov]
    have := h.psd.fintype (ι := c.support) (fun q => q.1) (fun q => c q)
    refine this.trans (le_of_eq ?_)
    rw [← Finset.sum_coe_sort c.support]
    refine Finset.sum_congr rfl fun p _ => ?_
    rw [← Finset.sum_coe_sort c.support]

/-! ## Strictness -/

/-- All derivatives at all points are linearly independent under the covariance. -/
def Strict (I : Set (Ix d)) (K : Ix d → Pt d → Ix d → Pt d → ℝ) : Prop := SPD fun p q : I × Pt d => K p.1 p.2 q.1 q.2

lemma lin_var (h : JetKernel I K) (hs : Strict I K) (m : jetF I) {c : (I × Pt d) →₀ ℝ}
    (h0 : (h.prior m).cov (h.lin m c) (h.lin m c) = 0) : c = 0 := by
  rw [lin_cov] at h0
  have h1 := hs.toPSD.null (ι := c.support) (x := fun q => q.1) (a := fun q => c q) (by
    rw [← h0, ← Finset.sum_coe_sort c.support]
    refine Finset.sum_congr rfl fun p _ => ?_
    rw [← Finset.sum_coe_sort c.support])
  have h2 := hs.sections c.support c fun z _ => by
    rw [← h1 z, ← Finset.sum_coe_sort c.support]
  ext q
  by_cases hq : q ∈ c.support
  · exact h2 q hq
  · simpa using hq

/-- The functionals are represented uniquely. -/
lemma lin_injective (h : JetKernel I K) (hs : Strict I K) (m : jetF I) : Function.Injective (h.lin m) := by
  refine (injective_iff_map_eq_zero _).mpr fun c hc => lin_var h hs m ?_
  rw [hc, ← covBil_apply, map_zero]

/-- The measured functionals of a history have a positive definite covariance matrix exactly if they are linearly
independent. -/
lemma gram_iff (h : JetKernel I K) (hs : Strict I K) (m : jetF I) {ι : Type} [Fintype ι] (L : ι → (h.prior m).Λ) :
    (Matrix.of fun i j => (h.prior m).cov (L i) (L j)).PosDef ↔ ∀ g : ι → ℝ, ∑ i, g i • L i = 0 → ∀ i, g i = 0 := by
  have hP := jet_regular h m
  have hq : ∀ a : ι → ℝ, star a ⬝ᵥ ((Matrix.of fun i j => (h.prior m).cov (L i) (L j)) *ᵥ a) =
      (h.prior m).cov (∑ i, a i • L i) (∑ i, a i • L i) := by
    intro a
    rw [cov_sum]
    simp only [dotProduct, Matrix.mulVec, of_apply, Finset.mul_sum, Pi.star_apply, star_trivial]
    exact Finset.sum_congr rfl fun i _ => Finset.sum_congr rfl fun j _ => by ring
  refine ⟨fun hp a ha i => ?_, fun hl => ?_⟩
  · by_contra hne
    have := hp.dotProduct_mulVec_pos (x := a) fun h0 => hne (congrFun h0 i)
    rw [hq, ha, ← covBil_apply, map_zero] at this
    simp at this
  · refine Matrix.PosDef.of_dotProduct_mulVec_pos ?_ fun a ha => ?_
    · ext i j
      simp only [conjTranspose_apply, of_apply, star_trivial]
      rw [hP.symm]
    · rw [hq]
      refine lt_of_le_of_ne (hP.nonneg _) fun h0 => ha ?_
      obtain ⟨c, hc⟩ := lin_surjective h m (∑ i, a i • L i)
      rw [← hc] at h0
      have := lin_var h hs m h0.symm
      rw [this, map_zero] at hc
      funext i
      exact hl a hc.symm i

/-! ## Differential operators at points -/

/-- The functional `f ↦ ∑_α a_α ∂^α f(x)`, a differential operator followed by the evaluation at a point. -/
noncomputable def JetKernel.op (h : JetKernel I K) (m : jetF I) (a : I →₀ ℝ) (x : Pt d) : (h.prior m).Λ :=
  h.lin m (a.mapDomain fun α => (α, x))

lemma op_apply (h : JetKernel I K) (m : jetF I) (a : I →₀ ℝ) (x : Pt d) (f : jetF I) :
    (h.op m a x).1 f = a.sum fun α c => c * jet f α x := by
  unfold JetKernel.op JetKernel.lin
  rw [Finsupp.linearCombination_mapDomain, Finsupp.linearCombination_apply, Finsupp.sum, Finsupp.sum, Submodule.coe_sum,
    LinearMap.sum_apply]
  rfl

lemma op_cov (h : JetKernel I K) (m : jetF I) (a b : I →₀ ℝ) (x y : Pt d) :
    (h.prior m).cov (h.op m a x) (h.op m b y) = ∑ α ∈ a.support, ∑ β ∈ b.support, a α * b β * K α x β y := by
  have e : ∀ (a : I →₀ ℝ) x, h.op m a x = ∑ α ∈ a.support, a α • h.δ m (α, x) := by
    intro a x
    unfold JetKernel.op JetKernel.lin
    rw [Finsupp.linearCombination_mapDomain, Finsupp.linearCombination_apply]
    rfl
  rw [e, e, ← covBil_apply]
  simp only [map_sum, map_smul, LinearMap.sum_apply, LinearMap.smul_apply, smul_eq_mul, Finset.mul_sum]
  rw [Finset.sum_comm]
  exact Finset.sum_congr rfl fun p _ => Finset.sum_congr rfl fun q _ => by
    rw [covBil_apply, δ_cov]
    ring

/-- Differential operators at points are linearly independent exactly if those at the same point are. -/
lemma op_independent (h : JetKernel I K) (hs : Strict I K) (m : jetF I) {ι : Type} [Fintype ι] (a : ι → I →₀ ℝ) (x : ι → Pt d) :
    (∀ g : ι → ℝ, ∑ i, g i • h.op m (a i) (x i) = 0 → ∀ i, g i = 0) ↔
      ∀ z, LinearIndependent ℝ fun i : {i // x i = z} => a i := by
  classical
  have hinj : ∀ x : Pt d, Function.Injective fun α : I => (α, x) := fun x α β h => congrArg Prod.fst h
  have e1 : ∀ g : ι → ℝ, ∑ i, g i • h.op m (a i) (x i) = 0 ↔ ∑ i, g i • ((a i).mapDomain fun α : I => (α, x i)) = 0 := by
    intro g
    rw [← map_eq_zero_iff (h.lin m) (lin_injective h hs m), map_sum]
    simp only [map_smul]
    rfl
  have hval : ∀ (g : I →₀ ℝ) (y z : Pt d) (α : I), (g.mapDomain fun α => (α, y)) (α, z) = if y = z then g α else 0 := by
    intro g y z α
    split_ifs with hyz
    · subst hyz
      exact Finsupp.mapDomain_apply (hinj y) g α
    · refine Finsupp.mapDomain_of_notMem_range _ _ ?_
      rintro ⟨β, hβ⟩
      exact hyz (congrArg Prod.snd hβ)
  simp only [e1]
  have key : ∀ (g : ι → ℝ), ∑ i, g i • ((a i).mapDomain fun α : I => (α, x i)) = 0 ↔
      ∀ z, ∑ i : {i // x i = z}, g i • a i = 0 := by
    intro g
    have e2 : ∀ z α, (∑ i, g i • ((a i).mapDomain fun α : I => (α, x i))) (α, z) = (∑ i : {i // x i = z}, g i • a i) α := by
      intro z α
      simp only [Finsupp.finsetSum_apply, Finsupp.smul_apply, hval, smul_eq_mul]
      simp only [mul_ite, mul_zero]
      rw [← Finset.sum_filter]
      exact Finset.sum_subtype _ (by simp) fun i => g i * a i α
    constructor
    · intro h z
      ext α
      rw [← e2, h]
      rfl
    · intro h
      ext ⟨α, z⟩
      rw [e2, h]
      rfl
  constructor
  · intro hl z
    rw [Fintype.linearIndependent_iff]
    intro g hg i
    have := hl (fun i => if hi : x i = z then g ⟨i, hi⟩ else 0) ((key _).mpr fun w => ?_) i
    · rw [dif_pos i.2] at this
      exact this
    · by_cases hw : w = z
      · subst hw
        rw [← hg]
        exact Finset.sum_congr rfl fun i _ => by rw [dif_pos i.2]
      · refine Finset.sum_eq_zero fun i _ => ?_
        rw [dif_neg (fun hi => hw (i.2.symm.trans hi)), zero_smul]
  · intro hl g hg i
    exact Fintype.linearIndependent_iff.mp (hl (x i)) (fun j => g j) ((key g).mp hg (x i)) ⟨i, rfl⟩

end LinPDE.GP
