import Verif.PosDef.Basic
import Mathlib.Analysis.Calculus.MeanValue

/-! # Derivatives of stationary covariance functions are covariance functions -/

namespace LinPDE.PosDef
open Filter Topology

variable {d : ℕ}

/-- Mean value form of the second difference. -/
lemma second_mvt {f f' f'' : ℝ → ℝ} (h1 : ∀ t, HasDerivAt f (f' t) t) (h2 : ∀ t, HasDerivAt f' (f'' t) t) {h : ℝ}
    (hh : 0 < h) : ∃ ξ ∈ Set.Icc (-h) h, f h + f (-h) - 2 * f 0 = h ^ 2 * f'' ξ := by
  have hF : ∀ t, HasDerivAt (fun t => f t + f (-t)) (f' t - f' (-t)) t := fun t => by
    have := (h1 t).add ((h1 (-t)).scomp t (hasDerivAt_neg t))
    refine this.congr_deriv ?_
    simp
    ring
  obtain ⟨c, hc, e⟩ := exists_ratio_hasDerivAt_eq_ratio_slope (fun t => f t + f (-t)) (fun t => f' t - f' (-t)) hh
    (continuous_iff_continuousAt.mpr fun t => (hF t).continuousAt).continuousOn (fun t _ => hF t)
    (fun t => t ^ 2) (fun t => 2 * t) (by fun_prop) (fun t _ => by simpa using hasDerivAt_pow 2 t)
  obtain ⟨ξ, hξ, e2⟩ := exists_hasDerivAt_eq_slope f' f'' (show -c < c by linarith [hc.1])
    (continuous_iff_continuousAt.mpr fun t => (h2 t).continuousAt).continuousOn (fun t _ => h2 t)
  refine ⟨ξ, ⟨by linarith [hξ.1, hc.2], by linarith [hξ.2, hc.2]⟩, ?_⟩
  have hc0 : c ≠ 0 := hc.1.ne'
  rw [e2]
  simp only [neg_zero] at e
  field_simp
  have : (f h + f (-h) - 2 * f 0) * (2 * c) = h ^ 2 * (f' c - f' (-c)) := by linarith
  linarith

/-- `g2` is the second derivative of `g` along `e`, at every point. -/
def Sec (g : (Fin d → ℝ) → ℝ) (e : Fin d → ℝ) (g2 : (Fin d → ℝ) → ℝ) : Prop :=
  ∃ g1 : (Fin d → ℝ) → ℝ, (∀ z, HasDerivAt (fun t : ℝ => g (z + t • e)) (g1 z) 0) ∧
    ∀ z, HasDerivAt (fun t : ℝ => g1 (z + t • e)) (g2 z) 0

lemma hasDerivAt_shift {g g1 : (Fin d → ℝ) → ℝ} {e : Fin d → ℝ} (h : ∀ z, HasDerivAt (fun t : ℝ => g (z + t • e)) (g1 z) 0)
    (z : Fin d → ℝ) (t : ℝ) : HasDerivAt (fun t : ℝ => g (z + t • e)) (g1 (z + t • e)) t := by
  have h1 := h (z + t • e)
  have h2 : HasDerivAt (fun s : ℝ => s - t) 1 t := (hasDerivAt_id t).sub_const t
  have h3 := HasDerivAt.comp t (h₂ := fun s : ℝ => g (z + t • e + s • e)) (by simpa using h1) h2
  refine (h3.congr_deriv (by simp)).congr_of_eventuallyEq (Eventually.of_forall fun s => ?_)
  simp only [Function.comp]
  congr 1
  module

lemma Sec.mvt {g g2 : (Fin d → ℝ) → ℝ} {e : Fin d → ℝ} (h : Sec g e g2) (z : Fin d → ℝ) {t : ℝ} (ht : 0 < t) :
    ∃ ξ ∈ Set.Icc (-t) t, g (z + t • e) + g (z - t • e) - 2 * g z = t ^ 2 * g2 (z + ξ • e) := by
  obtain ⟨g1, h1, h2⟩ := h
  obtain ⟨ξ, hξ, e1⟩ := second_mvt (hasDerivAt_shift h1 z) (hasDerivAt_shift h2 z) ht
  refine ⟨ξ, hξ, ?_⟩
  rw [← e1]
  simp [sub_eq_add_neg]

/-- Second difference. -/
def diff2 (g : (Fin d → ℝ) → ℝ) (e z : Fin d → ℝ) (t : ℝ) : ℝ := g (z + t • e) + g (z - t • e) - 2 * g z

lemma Sec.diff2 {g g2 : (Fin d → ℝ) → ℝ} {e f : Fin d → ℝ} (h : Sec g e g2) (t : ℝ) :
    Sec (fun z => diff2 g f z t) e (fun z => diff2 g2 f z t) := by
  obtain ⟨g1, h1, h2⟩ := h
  have key : ∀ {a b : (Fin d → ℝ) → ℝ}, (∀ z, HasDerivAt (fun t : ℝ => a (z + t • e)) (b z) 0) →
      ∀ z, HasDerivAt (fun s : ℝ => PosDef.diff2 a f (z + s • e) t) (PosDef.diff2 b f z t) 0 := by
    intro a b hab z
    have := ((hab (z + t • f)).add (hab (z - t • f))).sub ((hab z).const_mul 2)
    refine this.congr_of_eventuallyEq (Eventually.of_forall fun s => ?_)
    simp only [PosDef.diff2, Pi.add_apply, Pi.sub_apply]
    rw [show z + s • e + t • f = z + t • f + s • e by module, show z + s • e - t • f = z - t • f + s • e by module]
  exact ⟨fun z => PosDef.diff2 g1 f z t, key h1, key h2⟩

/-- The second difference quotient converges. -/
lemma Sec.tendsto {g g2 : (Fin d → ℝ) → ℝ} {e : Fin d → ℝ} (h : Sec g e g2) (z : Fin d → ℝ)
    (hc : ContinuousAt (fun t : ℝ => g2 (z + t • e)) 0) :
    Tendsto (fun t : ℝ => PosDef.diff2 g e z t / t ^ 2) (𝓝[>] 0) (𝓝 (g2 z)) := by
  have hm : ∀ t : ℝ, ∃ ξ, 0 < t → ξ ∈ Set.Icc (-t) t ∧ PosDef.diff2 g e z t / t ^ 2 = g2 (z + ξ • e) := by
    intro t
    by_cases ht : 0 < t
    · obtain ⟨ξ, hξ, e1⟩ := h.mvt z ht
      refine ⟨ξ, fun _ => ⟨hξ, ?_⟩⟩
      unfold PosDef.diff2
      rw [e1]
      field_simp
    · exact ⟨0, fun h => absurd h ht⟩
  choose ξ hξ using hm
  have hz : Tendsto ξ (𝓝[>] 0) (𝓝 0) := by
    have h0 : Tendsto (fun t : ℝ => t) (𝓝[>] 0) (𝓝 0) := tendsto_id.mono_left nhdsWithin_le_nhds
    refine tendsto_of_tendsto_of_tendsto_of_le_of_le' (by simpa using h0.neg) h0 ?_ ?_
    · filter_upwards [self_mem_nhdsWithin] with t ht using (hξ t ht).1.1
    · filter_upwards [self_mem_nhdsWithin] with t ht using (hξ t ht).1.2
  have := hc.tendsto.comp hz
  simp only [zero_smul, add_zero] at this
  refine this.congr' ?_
  filter_upwards [self_mem_nhdsWithin] with t ht using (hξ t ht).2.symm

/-- The mixed second difference quotient converges. -/
lemma Sec.tendsto₂ {g g2 g4 : (Fin d → ℝ) → ℝ} {e f : Fin d → ℝ} (h : Sec g e g2) (h' : Sec g2 f g4) (z : Fin d → ℝ)
    (hc : Continuous g4) :
    Tendsto (fun t : ℝ => PosDef.diff2 (fun z => PosDef.diff2 g f z t) e z t / t ^ 4) (𝓝[>] 0) (𝓝 (g4 z)) := by
  have hm : ∀ t : ℝ, ∃ ξ : ℝ × ℝ, 0 < t → ξ.1 ∈ Set.Icc (-t) t ∧ ξ.2 ∈ Set.Icc (-t) t ∧
      PosDef.diff2 (fun z => PosDef.diff2 g f z t) e z t / t ^ 4 = g4 (z + ξ.1 • e + ξ.2 • f) := by
    intro t
    by_cases ht : 0 < t
    · obtain ⟨ξ, hξ, e1⟩ := (h.diff2 (f := f) t).mvt z ht
      obtain ⟨η, hη, e2⟩ := h'.mvt (z + ξ • e) ht
      refine ⟨(ξ, η), fun _ => ⟨hξ, hη, ?_⟩⟩
      have e1' : PosDef.diff2 (fun z => PosDef.diff2 g f z t) e z t = t ^ 2 * PosDef.diff2 g2 f (z + ξ • e) t := e1
      have e2' : PosDef.diff2 g2 f (z + ξ • e) t = t ^ 2 * g4 (z + ξ • e + η • f) := e2
      rw [e1', e2']
      field_simp
    · exact ⟨0, fun h => absurd h ht⟩
  choose ξ hξ using hm
  have h0 : Tendsto (fun t : ℝ => t) (𝓝[>] 0) (𝓝 0) := tendsto_id.mono_left nhdsWithin_le_nhds
  have hz1 : Tendsto (fun t => (ξ t).1) (𝓝[>] 0) (𝓝 0) := by
    refine tendsto_of_tendsto_of_tendsto_of_le_of_le' (by simpa using h0.neg) h0 ?_ ?_
    · filter_upwards [self_mem_nhdsWithin] with t ht using (hξ t ht).1.1
    · filter_upwards [self_mem_nhdsWithin] with t ht using (hξ t ht).1.2
  have hz2 : Tendsto (fun t => (ξ t).2) (𝓝[>] 0) (𝓝 0) := by
    refine tendsto_of_tendsto_of_tendsto_of_le_of_le' (by simpa using h0.neg) h0 ?_ ?_
    · filter_upwards [self_mem_nhdsWithin] with t ht using (hξ t ht).2.1.1
    · filter_upwards [self_mem_nhdsWithin] with t ht using (hξ t ht).2.1.2
  have h1 : Tendsto (fun t => z + (ξ t).1 • e + (ξ t).2 • f) (𝓝[>] 0) (𝓝 (z + (0 : ℝ) • e + (0 : ℝ) • f)) :=
    (tendsto_const_nhds.add (hz1.smul_const e)).add (hz2.smul_const f)
  have := (hc.tendsto _).comp h1
  simp only [zero_smul, add_zero] at this
  refine this.congr' ?_
  filter_upwards [self_mem_nhdsWithin] with t ht using (hξ t ht).2.2.symm

/-- Finite combinations of shifted values. -/
lemma PSD.comb {k : (Fin d → ℝ) → (Fin d → ℝ) → ℝ} (hk : PSD k) {T : Type} [Fintype T] (c : T → ℝ) (z : T → Fin d → ℝ) :
    PSD fun x y => ∑ s, ∑ t, c s * c t * k (x + z s) (y + z t) := by
  refine ⟨fun x y => ?_, fun N x a => ?_⟩
  · rw [Finset.sum_comm]
    exact Finset.sum_congr rfl fun s _ => Finset.sum_congr rfl fun t _ => by rw [hk.symm]; ring
  · refine (hk.fintype (ι := Fin N × T) (fun p => x p.1 + z p.2) (fun p => a p.1 * c p.2)).trans (le_of_eq ?_)
    simp only [Fintype.sum_prod_type, Finset.mul_sum]
    refine Finset.sum_congr rfl fun i _ => ?_
    rw [Finset.sum_comm]
    exact Finset.sum_congr rfl fun s _ => Finset.sum_congr rfl fun t _ => Finset.sum_congr rfl fun j _ => by ring

/-- One derivative in the same direction in each argument. -/
lemma PSD.directional {κ κ2 : (Fin d → ℝ) → ℝ} {u : Fin d → ℝ} (h : PSD fun x y => κ (x - y)) (hs : Sec κ u κ2)
    (hc : ∀ z, Continuous fun t : ℝ => κ2 (z + t • u)) : PSD fun x y => -κ2 (x - y) := by
  refine PSD.limit (l := 𝓝[>] (0 : ℝ)) (k := fun t x y => -(diff2 κ u (x - y) t / t ^ 2)) ?_ fun x y =>
    (hs.tendsto (x - y) (hc _).continuousAt).neg
  filter_upwards [self_mem_nhdsWithin] with t ht
  have ht : 0 < t := ht
  refine (h.comb (T := Fin 2) ![1 / t, -(1 / t)] ![t • u, 0]).congr fun x y => ?_
  simp only [Fin.sum_univ_two, Matrix.cons_val_zero, Matrix.cons_val_one, diff2]
  have e1 : x + t • u - (y + t • u) = x - y := by module
  have e2 : x + t • u - (y + 0) = x - y + t • u := by module
  have e3 : x + 0 - (y + t • u) = x - y - t • u := by module
  have e4 : x + 0 - (y + 0) = x - y := by module
  rw [e1, e2, e3, e4]
  field_simp
  ring

/-- A weighted sum of second derivatives in each argument. -/
lemma PSD.laplacian {κ : (Fin d → ℝ) → ℝ} {D2 : Fin d → (Fin d → ℝ) → ℝ} {D4 : Fin d → Fin d → (Fin d → ℝ) → ℝ}
    {e : Fin d → Fin d → ℝ} (w : Fin d → ℝ) (h : PSD fun x y => κ (x - y)) (h2 : ∀ i, Sec κ (e i) (D2 i))
    (h4 : ∀ i j, Sec (D2 i) (e j) (D4 i j)) (hc : ∀ i j, Continuous (D4 i j)) :
    PSD fun x y => ∑ i, ∑ j, w i * w j * D4 i j (x - y) := by
  refine PSD.limit (l := 𝓝[>] (0 : ℝ))
    (k := fun t x y => ∑ i, ∑ j, w i * w j * (diff2 (fun z => diff2 κ (e j) z t) (e i) (x - y) t / t ^ 4)) ?_ fun x y =>
    tendsto_finsetSum _ fun i _ => tendsto_finsetSum _ fun j _ => ((h2 i).tendsto₂ (h4 i j) (x - y) (hc i j)).const_mul _
  filter_upwards [self_mem_nhdsWithin] with t ht
  have ht : 0 < t := ht
  refine (h.comb (T := Fin d × Fin 3) (fun p => w p.1 * (![1, -2, 1] : Fin 3 → ℝ) p.2 / t ^ 2)
    (fun p => (t * (![1, 0, -1] : Fin 3 → ℝ) p.2) • e p.1)).congr fun x y => ?_
  simp only [Fintype.sum_prod_type]
  refine Finset.sum_congr rfl fun i _ => ?_
  rw [Finset.sum_comm]
  refine Finset.sum_congr rfl fun j _ => ?_
  simp only [Fin.sum_univ_three, Matrix.cons_val_zero, Matrix.cons_val_one, Matrix.cons_val, diff2]
  have e1 : ∀ a b : ℝ, x + (t * a) • e i - (y + (t * b) • e j) = x - y + (t * a) • e i - (t * b) • e j := fun a b => by module
  simp only [e1]
  simp only [mul_one, mul_zero, zero_smul, add_zero, sub_zero, mul_neg, neg_smul, sub_neg_eq_add]
  simp only [← sub_eq_add_neg]
  field_simp
  ring

end LinPDE.PosDef
