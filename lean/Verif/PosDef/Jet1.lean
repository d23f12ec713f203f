import Verif.PosDef.StrictProps
import Mathlib.Analysis.Polynomial.Basic
import Mathlib.Analysis.Analytic.Uniqueness
import Mathlib.Analysis.Analytic.Polynomial
import Mathlib.Analysis.SpecialFunctions.ExpDeriv
import Mathlib.Data.ENat.Basic

/-!
# Covariances of the derivatives of a process in one dimension

For a stationary kernel `φ₀(x - y)` with derivatives `φ₁, φ₂, …`, the covariance of the `n`-th derivative at `x` with the
`m`-th derivative at `y` is `(-1)^m φ_{n+m}(x - y)`: positive semidefinite as a function of `(n, x)` and `(m, y)`, as a limit
of difference quotients.
-/

namespace LinPDE.PosDef
open Filter Topology Polynomial

/-- An order of differentiation and a point. -/
abbrev Jet1 (N : ℕ∞) : Type := {n : ℕ // (n : ℕ∞) ≤ N} × ℝ

/-- Covariance of derivatives. -/
def jetK (φ : ℕ → ℝ → ℝ) (n : ℕ) (x : ℝ) (m : ℕ) (y : ℝ) : ℝ := (-1) ^ m * φ (n + m) (x - y)

/-- `φ i` are the successive derivatives of `φ 0`, up to order `2 N`. -/
structure Chain (N : ℕ∞) (φ : ℕ → ℝ → ℝ) : Prop where
  deriv : ∀ i : ℕ, ((i + 1 : ℕ) : ℕ∞) ≤ N + N → ∀ t, HasDerivAt (φ i) (φ (i + 1) t) t
  cont : ∀ i : ℕ, (i : ℕ∞) ≤ N + N → Continuous (φ i)

/-- Difference quotient. -/
noncomputable def dq (h : ℝ) (f : ℝ → ℝ) (t : ℝ) : ℝ := (f (t + h) - f t) / h

/-- Difference quotients are derivatives at intermediate points. -/
lemma dq_mvt {φ : ℕ → ℝ → ℝ} {h : ℝ} (hh : 0 < h) : ∀ (n : ℕ) (i : ℕ),
    (∀ j < n, ∀ t, HasDerivAt (φ (i + j)) (φ (i + j + 1) t) t) → ∀ t, ∃ ξ ∈ Set.Icc t (t + n * h), (dq h)^[n] (φ i) t = φ (i + n) ξ := by
  -- by induction for all chains
  have key : ∀ (n : ℕ) (g : ℕ → ℝ → ℝ), (∀ j < n, ∀ t, HasDerivAt (g j) (g (j + 1) t) t) →
      ∀ t, ∃ ξ ∈ Set.Icc t (t + n * h), (dq h)^[n] (g 0) t = g n ξ := by
    intro n
    induction n with
    | zero => exact fun g _ t => ⟨t, by simp, rfl⟩
    | succ n ih =>
      intro g hg t
      rw [Function.iterate_succ_apply]
      obtain ⟨ξ, hξ, e⟩ := ih (fun j => dq h (g j)) (fun j hj s => by
        have h1 := (hg j (by omega) (s + h)).comp_add_const s h
        exact (h1.sub (hg j (by omega) s)).div_const h) t
      obtain ⟨ζ, hζ, e2⟩ := exists_hasDerivAt_eq_slope (g n) (g (n + 1)) (show ξ < ξ + h by linarith)
        (fun s _ => (hg n (by omega) s).continuousAt.continuousWithinAt) (fun s _ => hg n (by omega) s)
      refine ⟨ζ, ⟨hξ.1.trans hζ.1.le, ?_⟩, ?_⟩
      · push_cast
        have := hξ.2
        have := hζ.2
        linarith
      · rw [e, e2]
        simp [dq]
  intro n i hi t
  exact key n (fun j => φ (i + j)) (fun j hj t => hi j hj t) t

/-- Difference quotients are combinations of values. -/
lemma dq_comb (h : ℝ) : ∀ n : ℕ, ∃ w : ℕ → ℝ, ∀ f t, (dq h)^[n] f t = ∑ j ∈ Finset.range (n + 1), w j * f (t + j * h) := by
  intro n
  induction n with
  | zero => exact ⟨fun _ => 1, fun f t => by simp⟩
  | succ n ih =>
    obtain ⟨w, hw⟩ := ih
    refine ⟨fun j => ((if j = 0 then 0 else w (j - 1)) - if j ≤ n then w j else 0) / h, fun f t => ?_⟩
    rw [Function.iterate_succ_apply', dq, hw, hw]
    simp only [sub_div, sub_mul, Finset.sum_sub_distrib]
    congr 1
    · rw [Finset.sum_range_succ' (n := n + 1), Finset.sum_div]
      simp only [Nat.add_sub_cancel, Nat.add_eq_zero_iff, one_ne_zero, and_false, if_false, if_true, zero_div, zero_mul, add_zero]
      refine Finset.sum_congr rfl fun j _ => ?_
      have : t + h + (j : ℝ) * h = t + ((j + 1 : ℕ) : ℝ) * h := by push_cast; ring
      rw [this]
      ring
    · rw [Finset.sum_range_succ (n := n + 1), if_neg (by omega), zero_div, zero_mul, add_zero, Finset.sum_div]
      refine Finset.sum_congr rfl fun j hj => ?_
      rw [if_pos (by have := Finset.mem_range.mp hj; omega)]
      ring

/-- Finite combinations of values. -/
lemma PSD.combine {α β ι : Type} {k : α → α → ℝ} (hk : PSD k) (S : β → Finset ι) (w : β → ι → ℝ) (pt : β → ι → α) :
    PSD fun p q => ∑ i ∈ S p, ∑ j ∈ S q, w p i * w q j * k (pt p i) (pt q j) := by
  refine ⟨fun p q => ?_, fun N x a => ?_⟩
  · rw [Finset.sum_comm]
    exact Finset.sum_congr rfl fun i _ => Finset.sum_congr rfl fun j _ => by rw [hk.symm]; ring
  · have := hk.fintype (ι := (i : Fin N) × S (x i)) (fun p => pt (x p.1) p.2) (fun p => a p.1 * w (x p.1) p.2)
    refine this.trans (le_of_eq ?_)
    simp only [Fintype.sum_sigma]
    refine Finset.sum_congr rfl fun i _ => ?_
    rw [Finset.sum_comm]
    refine Finset.sum_congr rfl fun j _ => ?_
    rw [Finset.mul_sum, Finset.sum_coe_sort (S (x i)) fun i' => ∑ j' : S (x j),
      a i * w (x i) i' * (a j * w (x j) j') * k (pt (x i) i') (pt (x j) j')]
    refine Finset.sum_congr rfl fun i' _ => ?_
    rw [Finset.mul_sum, Finset.sum_coe_sort (S (x j)) fun j' =>
      a i * w (x i) i' * (a j * w (x j) j') * k (pt (x i) i') (pt (x j) j')]
    exact Finset.sum_congr rfl fun j' _ => by ring

lemma dq_reflect (h : ℝ) (f : ℝ → ℝ) (s : ℝ) : ∀ (m : ℕ) (y : ℝ),
    (dq h)^[m] (fun t => f (s - t)) y = (-1) ^ m * (dq h)^[m] f (s - y - m * h) := by
  intro m
  induction m with
  | zero => intro y; simp
  | succ m ih =>
    intro y
    rw [Function.iterate_succ_apply', Function.iterate_succ_apply', dq, ih, ih, dq, pow_succ]
    have e1 : s - (y + h) - m * h = s - y - ((m + 1 : ℕ) : ℝ) * h := by push_cast; ring
    have e2 : s - y - ((m + 1 : ℕ) : ℝ) * h + h = s - y - m * h := by push_cast; ring
    rw [e1, e2]
    ring

lemma dq_shift (h c : ℝ) (f : ℝ → ℝ) : ∀ (m : ℕ) (y : ℝ), (dq h)^[m] (fun t => f (t + c)) y = (dq h)^[m] f (y + c) := by
  intro m
  induction m with
  | zero => intro y; simp
  | succ m ih =>
    intro y
    rw [Function.iterate_succ_apply', Function.iterate_succ_apply', dq, ih, ih, dq, add_right_comm]

lemma dq_const_mul (h c : ℝ) (f : ℝ → ℝ) : ∀ m : ℕ, (dq h)^[m] (fun t => c * f t) = fun t => c * (dq h)^[m] f t := by
  intro m
  induction m with
  | zero => rfl
  | succ m ih =>
    rw [Function.iterate_succ_apply', ih, Function.iterate_succ_apply']
    funext t
    simp only [dq]
    ring

/-- The covariances of derivatives are a covariance function. -/
lemma jetK_psd {N : ℕ∞} {φ : ℕ → ℝ → ℝ} (hφ : Chain N φ) (h0 : PSD fun x y : ℝ => φ 0 (x - y)) :
    PSD fun p q : Jet1 N => jetK φ p.1 p.2 q.1 q.2 := by
  choose w hw using dq_comb
  refine PSD.limit (l := 𝓝[>] (0 : ℝ)) (k := fun h (p q : Jet1 N) => ∑ i ∈ Finset.range (p.1 + 1), ∑ j ∈ Finset.range (q.1 + 1),
    w h p.1 i * w h q.1 j * φ 0 ((p.2 + i * h) - (q.2 + j * h))) (Eventually.of_forall fun h => ?_) fun p q => ?_
  · exact h0.combine (fun p : Jet1 N => Finset.range (p.1 + 1)) (fun p => w h p.1) (fun p i => p.2 + i * h)
  · obtain ⟨⟨n, hn⟩, x⟩ := p
    obtain ⟨⟨m, hm⟩, y⟩ := q
    dsimp only
    have hnm : ((n + m : ℕ) : ℕ∞) ≤ N + N := by push_cast; exact add_le_add hn hm
    have e1 : ∀ h : ℝ, ∑ i ∈ Finset.range (n + 1), ∑ j ∈ Finset.range (m + 1), w h n i * w h m j * φ 0 ((x + i * h) - (y + j * h)) =
        (-1) ^ m * (dq h)^[n + m] (φ 0) (x - y - m * h) := by
      intro h
      have e2 : ∀ i, ∑ j ∈ Finset.range (m + 1), w h n i * w h m j * φ 0 ((x + (i : ℕ) * h) - (y + j * h)) =
          w h n i * ((-1) ^ m * (dq h)^[m] (φ 0) (x + i * h - y - m * h)) := by
        intro i
        rw [← dq_reflect h (φ 0) (x + i * h) m y, hw, Finset.mul_sum]
        exact Finset.sum_congr rfl fun j _ => by ring
      simp only [e2]
      have e3 := hw h n (fun t => (-1) ^ m * (dq h)^[m] (φ 0) (t + (-y - m * h))) x
      rw [dq_const_mul h ((-1) ^ m) (fun t => (dq h)^[m] (φ 0) (t + (-y - m * h))) n] at e3
      beta_reduce at e3
      rw [dq_shift h (-y - m * h) ((dq h)^[m] (φ 0)) n x, ← Function.iterate_add_apply] at e3
      have e4 : x + (-y - m * h) = x - y - m * h := by ring
      rw [e4] at e3
      rw [e3]
      refine Finset.sum_congr rfl fun i _ => ?_
      rw [show x + i * h - y - m * h = x + i * h + (-y - m * h) by ring]
    simp only [e1]
    refine Tendsto.const_mul _ ?_
    have hex : ∀ h : ℝ, 0 < h → ∃ ξ ∈ Set.Icc (x - y - m * h) (x - y - m * h + ((n + m : ℕ) : ℝ) * h),
        (dq h)^[n + m] (φ 0) (x - y - m * h) = φ (n + m) ξ := by
      intro h hh
      have := dq_mvt hh (n + m) 0 (φ := φ) (fun j hj t => by
        rw [zero_add]
        refine hφ.deriv j (le_trans ?_ hnm) t
        exact_mod_cast hj) (x - y - m * h)
      rwa [zero_add] at this
    choose! ξ hξ he using hex
    have ht : Tendsto ξ (𝓝[>] 0) (𝓝 (x - y)) := by
      have hc : ∀ c : ℝ, Tendsto (fun h : ℝ => x - y + c * h) (𝓝[>] 0) (𝓝 (x - y)) := fun c => by
        have : Continuous fun h : ℝ => x - y + c * h := by fun_prop
        have h1 := this.continuousWithinAt (s := Set.Ioi 0) (x := 0)
        have h2 := h1.tendsto
        simpa using h2
      refine tendsto_of_tendsto_of_tendsto_of_le_of_le' (hc (-m)) (hc n) ?_ ?_
      · filter_upwards [self_mem_nhdsWithin] with h hh
        have := (hξ h hh).1
        linarith
      · filter_upwards [self_mem_nhdsWithin] with h hh
        have := (hξ h hh).2
        push_cast at this
        linarith
    refine (((hφ.cont _ hnm).tendsto _).comp ht).congr' ?_
    filter_upwards [self_mem_nhdsWithin] with h hh
    exact (he h hh).symm

/-! ### Polynomials times exponentials -/

lemma poly_exp_tendsto (q : ℝ[X]) {δ : ℝ} (hδ : 0 < δ) : Tendsto (fun z => q.eval z * Real.exp (-(δ * z))) atTop (𝓝 0) := by
  have h1 := ((q.comp (C δ⁻¹ * X)).tendsto_div_exp_atTop).comp (tendsto_id.const_mul_atTop hδ)
  refine h1.congr fun z => ?_
  simp only [Function.comp, id, eval_comp, eval_mul, eval_C, eval_X]
  rw [inv_mul_cancel_left₀ hδ.ne', Real.exp_neg, div_eq_mul_inv]

/-- Polynomials times different exponentials are independent. -/
lemma poly_exp_independent (s : Finset ℝ) (Q : ℝ → ℝ[X]) (h : ∀ z, ∑ y ∈ s, (Q y).eval z * Real.exp (y * z) = 0) :
    ∀ y ∈ s, Q y = 0 := by
  induction s using Finset.induction_on_max with
  | empty => simp
  | insert y s hlt ih =>
    have hy : y ∉ s := fun hm => lt_irrefl _ (hlt y hm)
    have e : ∀ z, (Q y).eval z = -∑ v ∈ s, (Q v).eval z * Real.exp (-((y - v) * z)) := by
      intro z
      have := h z
      rw [Finset.sum_insert hy] at this
      have h2 : (Q y).eval z = -(∑ v ∈ s, (Q v).eval z * Real.exp (v * z)) * Real.exp (-(y * z)) := by
        have h3 : (Q y).eval z * Real.exp (y * z) = -∑ v ∈ s, (Q v).eval z * Real.exp (v * z) := by linarith
        rw [← h3, mul_assoc, ← Real.exp_add]
        simp
      rw [h2, neg_mul, Finset.sum_mul]
      congr 1
      refine Finset.sum_congr rfl fun v _ => ?_
      rw [mul_assoc, ← Real.exp_add]
      congr 2
      ring
    have ht : Tendsto (fun z => (Q y).eval z) atTop (𝓝 0) := by
      have : Tendsto (fun z => -∑ v ∈ s, (Q v).eval z * Real.exp (-((y - v) * z))) atTop (𝓝 (-∑ v ∈ s, 0)) :=
        (tendsto_finsetSum _ fun v hv => poly_exp_tendsto (Q v) (sub_pos.mpr (hlt v hv))).neg
      simp only [Finset.sum_const_zero, neg_zero] at this
      exact this.congr fun z => (e z).symm
    have h0 : Q y = 0 := by
      rw [Polynomial.tendsto_nhds_iff] at ht
      exact leadingCoeff_eq_zero.mp ht.1
    have h1 := ih (fun z => by
      have := h z
      rwa [Finset.sum_insert hy, h0, eval_zero, zero_mul, zero_add] at this)
    intro v hv
    rcases Finset.mem_insert.mp hv with rfl | hv
    · exact h0
    · exact h1 v hv

end LinPDE.PosDef
