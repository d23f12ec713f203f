import Verif.ExpQuad.Props
import Verif.Tensor.DiffProps

/-!
# Two routes to derivatives of squared-exponential kernels (C89)

`ExpQuad` with one lengthscale per dimension has closed-form derivative classes; the same kernel is the `TensorProduct` of
univariate `ExpQuad`s, to which operators are applied factor by factor.
-/

namespace LinPDE.ExpQuad
open LinPDE.Nd LinPDE.Coeff LinPDE.Calc
open LinPDE.Tensor (Fac TP PDFac PDCorrect SmoothFac ScalarOp applyTP applyTPLL diffOp diffOp_row applyTP_fst applyTP_snd apply_both)
open LinPDE.Matern (DOp OpAt dot)
open scoped ContDiff

variable {d : ℕ}

/-- A univariate `ExpQuad` as a factor. -/
noncomputable def eqFac (l : ℝ) : Fac := ⟨[], [], [], fun s t _ => (EK.expquad fun _ : Fin 1 => l).eval (fun _ => s) fun _ => t⟩

/-- The factors of the product are univariate `ExpQuad`s with the lengthscales `l`. -/
def IsProduct (k : TP) (l : Fin k.factors.length → ℝ) : Prop := ∀ i, k.factors.get i = eqFac (l i)

lemma eqFac_smooth (l : ℝ) : SmoothFac (eqFac l) := by
  refine ⟨rfl, rfl, rfl, ?_⟩
  show ContDiff ℝ ∞ fun p : ℝ × ℝ => Real.exp (-∑ i : Fin 1, (sf (fun _ => l) i * (p.1 - p.2)) ^ 2)
  refine Real.contDiff_exp.comp (ContDiff.neg (ContDiff.sum fun i _ => ContDiff.pow (contDiff_const.mul (contDiff_fst.sub contDiff_snd)) 2))

lemma smooth_factors {k : TP} {l : Fin k.factors.length → ℝ} (h : IsProduct k l) : ∀ f ∈ k.factors, SmoothFac f := by
  intro f hf
  obtain ⟨i, rfl⟩ := List.get_of_mem hf
  rw [h i]
  exact eqFac_smooth _

/-- C89: the product of univariate squared-exponential kernels is the multivariate one with the same lengthscales. -/
theorem product_eval {k : TP} {l : Fin k.factors.length → ℝ} (h : IsProduct k l) (x0 x1 : Fin k.factors.length → ℝ) :
    k.evaluate (List.ofFn x0) (some (List.ofFn x1)) [] = (EK.expquad l).eval x0 x1 := by
  rw [Tensor.evaluate_eq_prod]
  have e1 : ∀ i : Fin k.factors.length, (k.factors.get i).ev ((List.ofFn x0).getD i 0) ((List.ofFn x1).getD i 0) [] =
      Real.exp (-(sf l i * (x0 i - x1 i)) ^ 2) := by
    intro i
    rw [h i]
    simp [eqFac, EK.eval, ek, normSq, sf]
  rw [Finset.prod_congr rfl fun i _ => e1 i, ← Real.exp_sum, Finset.sum_neg_distrib]
  rfl

/-! ## Operators -/

/-- The operator object of the class `DirectionalDerivative` or `WeightedLaplacian`, with its coefficients. -/
noncomputable def named : DOp d → Except Coeff.Err DiffOp
  | .dd u => directionalDerivative [d] (List.ofFn u)
  | .wl w => weightedLaplacian [d] (List.ofFn w)
  | .pd n => partialDerivative ⟨[d], List.replicate d n⟩

/-- Operators with at least one term. -/
def HasTerm : DOp d → Prop
  | .dd u => u ≠ 0
  | .wl w => w ≠ 0
  | .pd _ => False

lemma weightRow_ne {n : ℕ} {u : Fin d → ℝ} (h : u ≠ 0) : weightRow [d] n (List.ofFn u) ≠ [] := by
  obtain ⟨i, hi⟩ := Function.ne_iff.mp h
  intro h0
  have hm : (MI.fromPos i.1 [d] n, (List.ofFn u).getD i.1 0) ∈ weightRow [d] n (List.ofFn u) := by
    refine List.mem_map.mpr ⟨i.1, List.mem_filter.mpr ⟨List.mem_range.mpr (by simp), ?_⟩, rfl⟩
    simpa using hi
  rw [h0] at hm
  exact List.not_mem_nil hm

lemma weightRow_ok {n : ℕ} (w : List ℝ) : Tensor.RowOK d (weightRow [d] n w) := by
  intro mc hmc
  obtain ⟨p, -, rfl⟩ := List.mem_map.mp hmc
  simp [MI.fromPos]

lemma named_scalar {L : DOp d} (hL : HasTerm L) : ∃ D r, named L = .ok D ∧ ScalarOp d ⟨D, none⟩ r := by
  cases L with
  | dd u => exact ⟨_, _, mkScalar _ _ (weightRow_shape _ _ _), rfl, rfl, rfl, weightRow_ne hL, weightRow_ok _⟩
  | wl w => exact ⟨_, _, weightedLaplacian_ok _ _, rfl, rfl, rfl, weightRow_ne hL, weightRow_ok _⟩
  | pd n => exact hL.elim

lemma smooth_line (F : Smooth d) (x u : Fin d → ℝ) (t : ℝ) :
    HasDerivAt (fun t : ℝ => F.1 (x + t • u)) (fderiv ℝ F.1 (x + t • u) u) t := by
  have hF : ContDiff ℝ ∞ F.1 := F.2
  have h1 : HasDerivAt (fun t : ℝ => x + t • u) u t := by
    simpa using (((hasDerivAt_id t).smul_const u).const_add x)
  exact (hF.differentiable (by simp) (x + t • u)).hasFDerivAt.comp_hasDerivAt t h1

/-- The coefficients of the operator object applied to a smooth function give the derivative. -/
lemma named_opAt {L : DOp d} (hL : HasTerm L) {D : DiffOp} (hD : named L = .ok D) (F : Smooth d) (x : Fin d → ℝ) {y : ℝ}
    (h : OpAt L F.1 x y) : (D.coeffs.apply (derivs F)).1 x = y := by
  cases L with
  | dd u =>
    obtain ⟨D', h1, h2⟩ := directionalDerivative_fderiv [d] (by simp) u
    obtain rfl : D' = D := Except.ok.inj (h1.symm.trans hD)
    rw [h2]
    have h3 := smooth_line F x u 0
    rw [zero_smul, add_zero] at h3
    exact h3.unique h
  | wl w =>
    obtain ⟨D', h1, -, -, h2⟩ := weightedLaplacian_spec [d] (by simp) w
    obtain rfl : D' = D := Except.ok.inj (h1.symm.trans hD)
    obtain ⟨D1, D2, k1, k2, rfl⟩ := h
    rw [h2]
    have e1 : (∑ i : Fin d, w i • pd i (pd i F)).1 x = ∑ i : Fin d, w i * (pd i (pd i F)).1 x := by
      simp [Finset.sum_apply]
    rw [e1]
    refine Finset.sum_congr rfl fun i _ => ?_
    congr 1
    have h3 : HasDerivAt (fun t : ℝ => (pd i F).1 (x + t • Pi.single i 1)) ((pd i (pd i F)).1 x) 0 := by
      have h4 := smooth_line (pd i F) x (Pi.single i 1) 0
      rw [zero_smul, add_zero] at h4
      exact h4
    have h5 : D1 i =ᶠ[nhds 0] fun t : ℝ => (pd i F).1 (x + t • Pi.single i 1) := by
      filter_upwards [k1 i] with t ht
      exact ht.unique (smooth_line F x (Pi.single i 1) t)
    exact h3.unique ((k2 i).congr_of_eventuallyEq h5.symm)
  | pd n => exact hL.elim

/-- Without a second argument the first one is used twice. -/
lemma none_of {K : Tensor.TPLL} {k' : EK d} (h : ∀ x0 x1, K.evaluate (List.ofFn x0) (some (List.ofFn x1)) [] = .ok (k'.eval x0 x1)) :
    (∀ x0 x1, K.evaluate (List.ofFn x0) (some (List.ofFn x1)) [] = .ok (k'.eval x0 x1)) ∧
      ∀ x : Fin d → ℝ, K.evaluate (List.ofFn x) none [] = .ok k'.evalNone :=
  ⟨h, fun x => (h x x).trans (by rw [expquad_evalNone k' x])⟩

/-- C89: an operator applied to one argument of the tensor product is the closed-form derivative kernel of the multivariate kernel. -/
theorem product_one {pd : PDFac} (hpd : PDCorrect pd) {k : TP} {l : Fin k.factors.length → ℝ} (h : IsProduct k l)
    {L : DOp k.factors.length} (hL : HasTerm L) (a : Bool) :
    ∃ D K k', named L = .ok D ∧ applyTP pd ⟨D, none⟩ k (if a then 0 else 1) = .ok K ∧ apply L a (.expquad l) = .ok k' ∧
      (∀ x0 x1, K.evaluate (List.ofFn x0) (some (List.ofFn x1)) [] = .ok (k'.eval x0 x1)) ∧
      ∀ x : Fin k.factors.length → ℝ, K.evaluate (List.ofFn x) none [] = .ok k'.evalNone := by
  obtain ⟨D, r, hD, hr⟩ := named_scalar hL
  have hk : ∃ k', apply L a (.expquad l) = .ok k' := by
    cases L with
    | dd u => exact ⟨_, rfl⟩
    | wl w => exact ⟨_, rfl⟩
    | pd n => exact hL.elim
  obtain ⟨k', hk⟩ := hk
  cases a with
  | true =>
    obtain ⟨K, hK, F, hF, he⟩ := applyTP_fst hpd k (smooth_factors h) hr
    refine ⟨D, K, k', hD, hK, hk, none_of fun x0 x1 => ?_⟩
    rw [he]
    refine congrArg _ (named_opAt hL hD (F x1) x0 ?_)
    have := expquad_derivative hk x0 x1
    simpa [funext fun x => (hF x x1).trans (product_eval h x x1)] using this
  | false =>
    obtain ⟨K, hK, F, hF, he⟩ := applyTP_snd hpd k (smooth_factors h) hr
    refine ⟨D, K, k', hD, hK, hk, none_of fun x0 x1 => ?_⟩
    rw [he]
    refine congrArg _ (named_opAt hL hD (F x0) x1 ?_)
    have := expquad_derivative hk x0 x1
    simpa [funext fun x => (hF x0 x).trans (product_eval h x0 x)] using this

/-- C89: operators applied to both arguments of the tensor product give the closed-form kernel of the multivariate one, at every pair of
points and in both orders (the closed forms take the second argument first, the other order of two Laplacians raising, C27). -/
theorem product_both {pd : PDFac} (hpd : PDCorrect pd) {k : TP} {l : Fin k.factors.length → ℝ} (h : IsProduct k l)
    {L0 L1 : DOp k.factors.length} (h0 : HasTerm L0) (h1 : HasTerm L1) :
    ∃ D0 D1 K0 K1 K k1 k2, named L0 = .ok D0 ∧ named L1 = .ok D1 ∧
      applyTP pd ⟨D0, none⟩ k 0 = .ok K0 ∧ applyTPLL pd ⟨D1, none⟩ K0 1 = .ok K ∧
      applyTP pd ⟨D1, none⟩ k 1 = .ok K1 ∧ applyTPLL pd ⟨D0, none⟩ K1 0 = .ok K ∧
      apply L1 false (.expquad l) = .ok k1 ∧ apply L0 true k1 = .ok k2 ∧
      (∀ x0 x1, K.evaluate (List.ofFn x0) (some (List.ofFn x1)) [] = .ok (k2.eval x0 x1)) ∧
      ∀ x : Fin k.factors.length → ℝ, K.evaluate (List.ofFn x) none [] = .ok k2.evalNone := by
  obtain ⟨D0, r0, hD0, hr0⟩ := named_scalar h0
  obtain ⟨D1, r1, hD1, hr1⟩ := named_scalar h1
  have hk : ∃ k1 k2, apply L1 false (.expquad l) = .ok k1 ∧ apply L0 true k1 = .ok k2 := by
    cases L0 <;> cases L1 <;> first | exact h0.elim | exact h1.elim | exact ⟨_, _, rfl, rfl⟩
  obtain ⟨k1, k2, hk1, hk2⟩ := hk
  obtain ⟨K0, K1, K, b1, a1, b2, a2, F, G, hF, hG, he⟩ := apply_both hpd k (smooth_factors h) hr0 hr1
  refine ⟨D0, D1, K0, K1, K, k1, k2, hD0, hD1, b1, b2, a1, a2, hk1, hk2, none_of fun x0 x1 => ?_⟩
  have e1 : ∀ x0, (G x1).1 x0 = k1.eval x0 x1 := by
    intro x0
    rw [hG]
    refine named_opAt h1 hD1 (F x0) x1 ?_
    have := expquad_derivative hk1 x0 x1
    simpa [funext fun x => (hF x0 x).trans (product_eval h x0 x)] using this
  rw [he]
  refine congrArg _ (named_opAt h0 hD0 (G x1) x0 ?_)
  have := expquad_derivative hk2 x0 x1
  simpa [funext fun x => e1 x] using this

/-! ## Non-vacuity -/

/-- A product over two dimensions, a derivative along a diagonal and a Laplacian. -/
example : ∃ (k : TP) (l : Fin k.factors.length → ℝ) (L0 L1 : DOp k.factors.length), IsProduct k l ∧ k.factors.length = 2 ∧
    HasTerm L0 ∧ HasTerm L1 ∧ ∃ pd, PDCorrect pd := by
  refine ⟨⟨eqFac 1, [eqFac 2]⟩, (![1, 2] : Fin 2 → ℝ), .dd fun _ => 1, .wl fun _ => 1, ?_, rfl, ?_, ?_, ?_⟩
  · intro i
    change Fin 2 at i
    fin_cases i <;> rfl
  · exact fun h => one_ne_zero (congrFun h (⟨0, by decide⟩ : Fin 2))
  · exact fun h => one_ne_zero (congrFun h (⟨0, by decide⟩ : Fin 2))
  · exact ⟨fun arg n f => .ok ⟨[], [], [], fun s t o =>
      if arg then iteratedDeriv n (fun t => f.ev s t o) t else iteratedDeriv n (fun s => f.ev s t o) s⟩,
    fun f _ n _ => ⟨⟨_, rfl, rfl, rfl, rfl, fun s t => by simp⟩, ⟨_, rfl, rfl, rfl, rfl, fun s t => by simp⟩⟩⟩

/-- The mixed kernel is not zero: Laplacians on both sides at coinciding points. -/
example : (EK.wlWL (fun _ : Fin 2 => (1 : ℝ)) (fun _ => 1) fun _ => 1).eval 0 0 = 8 := by
  have h : Real.sqrt 0.5 ^ 2 = 0.5 := Real.sq_sqrt (by norm_num)
  simp [EK.eval, trace, wInv, sfSq, sf, normSq, h]
  norm_num

end LinPDE.ExpQuad
