import Verif.GP.Jet
import Mathlib.Analysis.Calculus.DerivativeTest
import Mathlib.Analysis.Calculus.LocalExtr.Basic
import Mathlib.Topology.Order.Compact

/-! # Maximum principles on boxes -/

namespace LinPDE.Solve
open LinPDE.GP

/-- At a local maximum the second derivative is not positive. -/
lemma second_le {φ φ' : ℝ → ℝ} {D : ℝ} (h1 : ∀ t, HasDerivAt φ (φ' t) t) (h2 : HasDerivAt φ' D 0) (hmax : IsLocalMax φ 0) : D ≤ 0 := by
  by_contra hD
  push Not at hD
  have e1 : deriv φ = φ' := funext fun t => (h1 t).deriv
  have e2 : deriv (deriv φ) 0 = D := by rw [e1]; exact h2.deriv
  have e3 : deriv φ 0 = 0 := hmax.deriv_eq_zero
  have hmin : IsLocalMin φ 0 := isLocalMin_of_deriv_deriv_pos (by rw [e2]; exact hD) e3 (h1 0).continuousAt
  have hconst : φ =ᶠ[nhds 0] fun _ => φ 0 := by
    filter_upwards [hmax, hmin] with t ha hb
    exact le_antisymm ha hb
  have h3 : deriv φ =ᶠ[nhds 0] deriv fun _ => φ 0 := hconst.deriv
  have h4 := h3.deriv_eq
  rw [e2] at h4
  simp at h4
  linarith

/-- The derivative at a point that is maximal among earlier points is not negative. -/
lemma first_ge {φ : ℝ → ℝ} {D : ℝ} (h1 : HasDerivAt φ D 0) {s : ℝ} (hs : 0 < s) (hmax : ∀ t, -s < t → t < 0 → φ t ≤ φ 0) : 0 ≤ D := by
  by_contra hD
  push Not at hD
  have h2 := h1.hasDerivWithinAt (s := Set.Iio 0)
  have h3 := (hasDerivWithinAt_iff_tendsto_slope' (by simp)).mp h2
  have h4 : ∀ᶠ t in nhdsWithin (0 : ℝ) (Set.Iio 0), 0 ≤ slope φ 0 t := by
    have : Set.Ioo (-s) 0 ∈ nhdsWithin (0 : ℝ) (Set.Iio 0) := Ioo_mem_nhdsLT (by linarith)
    filter_upwards [this] with t ht
    rw [slope_def_field]
    have := hmax t ht.1 ht.2
    exact div_nonneg_of_nonpos (by linarith) (by linarith [ht.2])
  exact absurd (ge_of_tendsto h3 h4) (not_le.mpr hD)

variable {d : ℕ}

/-- The closed box. -/
def cbox (lo hi : Pt d) : Set (Pt d) := {x | ∀ j, lo j ≤ x j ∧ x j ≤ hi j}

lemma cbox_compact (lo hi : Pt d) : IsCompact (cbox lo hi) := by
  have : cbox lo hi = Set.Icc lo hi := by
    ext x
    simp only [cbox, Set.mem_ofPred_eq, Set.mem_Icc, Pi.le_def]
    exact ⟨fun h => ⟨fun j => (h j).1, fun j => (h j).2⟩, fun h j => ⟨h.1 j, h.2 j⟩⟩
  rw [this]
  exact isCompact_Icc

/-- `w` along a coordinate line has the given first and second derivatives. -/
structure Line2 (w : Pt d → ℝ) (j : Fin d) (x : Pt d) (D : ℝ) : Prop where
  ex : ∃ D1 : ℝ → ℝ, (∀ t, HasDerivAt (fun t : ℝ => w (x + t • Pi.single j 1)) (D1 t) t) ∧ HasDerivAt D1 D 0

lemma line_apply (x : Pt d) (j i : Fin d) (t : ℝ) : (x + t • (Pi.single j 1 : Pt d)) i = if i = j then x i + t else x i := by
  by_cases h : i = j
  · subst h; simp
  · simp [h]

lemma line_quad {w : Pt d → ℝ} {j j0 : Fin d} {x : Pt d} {D c a b : ℝ} (h : Line2 w j x D) :
    Line2 (fun x => w x - c * ((x j0 - a) * (b - x j0) / 2)) j x (D + if j = j0 then c else 0) := by
  obtain ⟨D1, h1, h2⟩ := h.ex
  by_cases hj : j = j0
  · subst hj
    refine ⟨fun t => D1 t - c * (((b - (x j + t)) - (x j + t - a)) / 2), fun t => ?_, ?_⟩
    · have hl : HasDerivAt (fun t : ℝ => x j + t) 1 t := by simpa using (hasDerivAt_id t).const_add (x j)
      have h3 := (((hl.sub_const a).mul (hl.const_sub b)).div_const 2).const_mul c
      have h4 := (h1 t).sub h3
      simp only [line_apply, if_true]
      convert! h4 using 1
      ring
    · have hl : HasDerivAt (fun t : ℝ => x j + t) 1 0 := by simpa using (hasDerivAt_id (0 : ℝ)).const_add (x j)
      have h3 := (((hl.const_sub b).sub (hl.sub_const a)).div_const 2).const_mul c
      have h4 := h2.sub h3
      rw [if_pos rfl]
      convert! h4 using 1
      ring
  · refine ⟨D1, fun t => ?_, ?_⟩
    · have h3 := (h1 t).sub_const (c * ((x j0 - a) * (b - x j0) / 2))
      simp only [line_apply, if_neg (Ne.symm hj)]
      exact h3
    · rw [if_neg hj, add_zero]
      exact h2

/-- Elliptic maximum principle: a function with bounded Laplacian that is small on the boundary of a box is small in the box. -/
lemma elliptic_upper {w : Pt d → ℝ} (hw : Continuous w) {lo hi : Pt d} (j0 : Fin d) {D : Fin d → Pt d → ℝ}
    (hD : ∀ x ∈ cbox lo hi, ∀ j, Line2 w j x (D j x)) {τ τ' : ℝ} (hL : ∀ x ∈ cbox lo hi, -τ ≤ ∑ j, D j x)
    (hb : ∀ x ∈ cbox lo hi, (∃ j, x j = lo j ∨ x j = hi j) → w x ≤ τ') (hτ : 0 ≤ τ) {x : Pt d} (hx : x ∈ cbox lo hi) :
    w x ≤ τ' + τ * ((hi j0 - lo j0) ^ 2 / 8) := by
  have key : ∀ s : ℝ, 0 < s → w x ≤ τ' + (τ + s) * ((hi j0 - lo j0) ^ 2 / 8) := by
    intro s hs
    set v : Pt d → ℝ := fun x => w x - (τ + s) * ((x j0 - lo j0) * (hi j0 - x j0) / 2) with hv
    have hvc : Continuous v := by
      have h0 : Continuous fun x : Pt d => x j0 := continuous_apply j0
      exact hw.sub (continuous_const.mul (((h0.sub continuous_const).mul (continuous_const.sub h0)).div_const 2))
    obtain ⟨z, hz, hmax⟩ := (cbox_compact lo hi).exists_isMaxOn ⟨x, hx⟩ hvc.continuousOn
    have hbar : ∀ y ∈ cbox lo hi, 0 ≤ (y j0 - lo j0) * (hi j0 - y j0) / 2 := fun y hy =>
      div_nonneg (mul_nonneg (by linarith [(hy j0).1]) (by linarith [(hy j0).2])) (by norm_num)
    have hvz : v z ≤ τ' := by
      by_cases hzb : ∃ j, z j = lo j ∨ z j = hi j
      · have h1 := hb z hz hzb
        have h2 := mul_nonneg (by linarith : 0 ≤ τ + s) (hbar z hz)
        show w z - _ ≤ τ'
        linarith
      · exfalso
        push Not at hzb
        have hneg : ∀ j, D j z + (if j = j0 then τ + s else 0) ≤ 0 := by
          intro j
          obtain ⟨D1, g1, g2⟩ := (line_quad (c := τ + s) (j0 := j0) (a := lo j0) (b := hi j0) (hD z hz j)).ex
          refine second_le g1 g2 ?_
          have hlo : lo j < z j := lt_of_le_of_ne (hz j).1 (Ne.symm (hzb j).1)
          have hhi : z j < hi j := lt_of_le_of_ne (hz j).2 (hzb j).2
          have hmem : Set.Ioo (lo j - z j) (hi j - z j) ∈ nhds (0 : ℝ) := Ioo_mem_nhds (by linarith) (by linarith)
          filter_upwards [hmem] with t ht
          have hin : z + t • (Pi.single j 1 : Pt d) ∈ cbox lo hi := by
            intro i
            rw [line_apply]
            by_cases hij : i = j
            · subst hij
              rw [if_pos rfl]
              exact ⟨by linarith [ht.1], by linarith [ht.2]⟩
            · rw [if_neg hij]
              exact hz i
          have h1 := hmax hin
          have h2 : v (z + t • (Pi.single j 1 : Pt d)) ≤ v (z + (0 : ℝ) • (Pi.single j 1 : Pt d)) := by
            rw [zero_smul, add_zero]
            exact h1
          exact h2
        have hsum := Finset.sum_nonpos fun j (_ : j ∈ Finset.univ) => hneg j
        rw [Finset.sum_add_distrib, Finset.sum_ite_eq' Finset.univ j0] at hsum
        simp only [Finset.mem_univ, if_true] at hsum
        linarith [hL z hz]
    have hvx : v x ≤ v z := hmax hx
    have h3 : (x j0 - lo j0) * (hi j0 - x j0) / 2 ≤ (hi j0 - lo j0) ^ 2 / 8 := by
      nlinarith [sq_nonneg ((x j0 - lo j0) - (hi j0 - x j0))]
    have h4 := mul_le_mul_of_nonneg_left h3 (by linarith : 0 ≤ τ + s)
    have h5 : v x = w x - (τ + s) * ((x j0 - lo j0) * (hi j0 - x j0) / 2) := rfl
    linarith
  by_contra hcon
  push Not at hcon
  set R := (hi j0 - lo j0) ^ 2 / 8 with hR
  have hR0 : 0 ≤ R := by positivity
  have h6 := key ((w x - (τ' + τ * R)) / (2 * (R + 1))) (div_pos (by linarith) (by linarith))
  have h7 : (w x - (τ' + τ * R)) / (2 * (R + 1)) * R ≤ (w x - (τ' + τ * R)) / 2 := by
    rw [div_mul_eq_mul_div, div_le_div_iff₀ (by linarith) (by norm_num)]
    nlinarith
  rw [add_mul] at h6
  linarith

lemma Line2.neg {w : Pt d → ℝ} {j : Fin d} {x : Pt d} {D : ℝ} (h : Line2 w j x D) : Line2 (fun x => -w x) j x (-D) := by
  obtain ⟨D1, h1, h2⟩ := h.ex
  exact ⟨fun t => -D1 t, fun t => (h1 t).fun_neg, h2.fun_neg⟩

lemma elliptic_max {w : Pt d → ℝ} (hw : Continuous w) {lo hi : Pt d} (j0 : Fin d) {D : Fin d → Pt d → ℝ}
    (hD : ∀ x ∈ cbox lo hi, ∀ j, Line2 w j x (D j x)) {τ τ' : ℝ} (hL : ∀ x ∈ cbox lo hi, |∑ j, D j x| ≤ τ)
    (hb : ∀ x ∈ cbox lo hi, (∃ j, x j = lo j ∨ x j = hi j) → |w x| ≤ τ') {x : Pt d} (hx : x ∈ cbox lo hi) :
    |w x| ≤ τ' + τ * ((hi j0 - lo j0) ^ 2 / 8) := by
  have hτ : 0 ≤ τ := (abs_nonneg _).trans (hL x hx)
  rw [abs_le]
  constructor
  · have := elliptic_upper (w := fun x => -w x) hw.neg j0 (D := fun j x => -D j x) (fun x hx j => (hD x hx j).neg)
      (τ := τ) (τ' := τ') (fun x hx => by rw [Finset.sum_neg_distrib]; linarith [(abs_le.mp (hL x hx)).2])
      (fun x hx hb' => by linarith [(abs_le.mp (hb x hx hb')).1]) hτ hx
    linarith
  · exact elliptic_upper hw j0 hD (fun x hx => (abs_le.mp (hL x hx)).1) (fun x hx hb' => (abs_le.mp (hb x hx hb')).2) hτ hx

/-- Parabolic maximum principle in one space dimension. -/
lemma parabolic_upper {w : Pt 2 → ℝ} (hw : Continuous w) {t0 T l r : ℝ} {Dt Dx : Pt 2 → ℝ}
    (hDt : ∀ x ∈ cbox ![t0, l] ![T, r], HasDerivAt (fun t : ℝ => w (x + t • Pi.single 0 1)) (Dt x) 0)
    (hDx : ∀ x ∈ cbox ![t0, l] ![T, r], Line2 w 1 x (Dx x)) {α τ τ' : ℝ} (hα : 0 ≤ α) (hL : ∀ x ∈ cbox ![t0, l] ![T, r], Dt x - α * Dx x ≤ τ)
    (hb : ∀ x ∈ cbox ![t0, l] ![T, r], x 0 = t0 ∨ x 1 = l ∨ x 1 = r → w x ≤ τ') (hτ : 0 ≤ τ) {x : Pt 2} (hx : x ∈ cbox ![t0, l] ![T, r]) :
    w x ≤ τ' + τ * (T - t0) := by
  have key : ∀ s : ℝ, 0 < s → w x ≤ τ' + (τ + s) * (T - t0) := by
    intro s hs
    set v : Pt 2 → ℝ := fun x => w x - (τ + s) * (x 0 - t0) with hv
    have hvc : Continuous v := hw.sub (continuous_const.mul ((continuous_apply (0 : Fin 2)).sub continuous_const))
    obtain ⟨z, hz, hmax⟩ := (cbox_compact ![t0, l] ![T, r]).exists_isMaxOn ⟨x, hx⟩ hvc.continuousOn
    have hz0 : t0 ≤ z 0 ∧ z 0 ≤ T := hz 0
    have hz1 : l ≤ z 1 ∧ z 1 ≤ r := hz 1
    have hvz : v z ≤ τ' := by
      by_cases hzb : z 0 = t0 ∨ z 1 = l ∨ z 1 = r
      · have h1 := hb z hz hzb
        have h2 := mul_nonneg (by linarith : 0 ≤ τ + s) (by linarith : 0 ≤ z 0 - t0)
        show w z - _ ≤ τ'
        linarith
      · exfalso
        push Not at hzb
        obtain ⟨n0, n1, n2⟩ := hzb
        have hlt0 : t0 < z 0 := lt_of_le_of_ne hz0.1 (Ne.symm n0)
        have hlt1 : l < z 1 := lt_of_le_of_ne hz1.1 (Ne.symm n1)
        have hlt2 : z 1 < r := lt_of_le_of_ne hz1.2 n2
        have hx2 : Dx z ≤ 0 := by
          obtain ⟨D1, g1, g2⟩ := (hDx z hz).ex
          refine second_le g1 g2 ?_
          have hmem : Set.Ioo (l - z 1) (r - z 1) ∈ nhds (0 : ℝ) := Ioo_mem_nhds (by linarith) (by linarith)
          filter_upwards [hmem] with t ht
          have hin : z + t • (Pi.single 1 1 : Pt 2) ∈ cbox ![t0, l] ![T, r] := by
            intro i
            rw [line_apply]
            fin_cases i
            · exact hz 0
            · exact ⟨show l ≤ z 1 + t by linarith [ht.1], show z 1 + t ≤ r by linarith [ht.2]⟩
          have h1 : v (z + t • (Pi.single 1 1 : Pt 2)) ≤ v z := hmax hin
          simp only [hv, line_apply] at h1
          show w (z + t • (Pi.single 1 1 : Pt 2)) ≤ w (z + (0 : ℝ) • (Pi.single 1 1 : Pt 2))
          rw [zero_smul, add_zero]
          have h01 : ((0 : Fin 2) = 1) = False := by simp
          rw [if_neg (by simp)] at h1
          linarith
        have ht1 : 0 ≤ Dt z - (τ + s) := by
          have hl : HasDerivAt (fun t : ℝ => (τ + s) * (z 0 + t - t0)) (τ + s) 0 := by
            have := (((hasDerivAt_id (0 : ℝ)).const_add (z 0)).sub_const t0).const_mul (τ + s)
            simpa using this
          refine first_ge ((hDt z hz).sub hl) (s := z 0 - t0) (by linarith) fun t hs1 hs2 => ?_
          have hin : z + t • (Pi.single 0 1 : Pt 2) ∈ cbox ![t0, l] ![T, r] := by
            intro i
            rw [line_apply]
            fin_cases i
            · exact ⟨show t0 ≤ z 0 + t by linarith, show z 0 + t ≤ T by linarith [hz0.2]⟩
            · exact hz 1
          have h1 : v (z + t • (Pi.single 0 1 : Pt 2)) ≤ v z := hmax hin
          simp only [hv, line_apply, if_true] at h1
          simp only [Pi.sub_apply, zero_smul, add_zero]
          exact h1
        have := mul_nonneg hα (neg_nonneg.mpr hx2)
        linarith [hL z hz]
    have hvx : v x ≤ v z := hmax hx
    have h3 : x 0 - t0 ≤ T - t0 := by
      have : x 0 ≤ T := (hx 0).2
      linarith
    have h4 := mul_le_mul_of_nonneg_left h3 (by linarith : 0 ≤ τ + s)
    have h5 : v x = w x - (τ + s) * (x 0 - t0) := rfl
    linarith
  have hR0 : 0 ≤ T - t0 := by
    have h1 : t0 ≤ x 0 := (hx 0).1
    have h2 : x 0 ≤ T := (hx 0).2
    linarith
  by_contra hcon
  push Not at hcon
  set R := T - t0 with hR
  have h6 := key ((w x - (τ' + τ * R)) / (2 * (R + 1))) (div_pos (by linarith) (by linarith))
  have h7 : (w x - (τ' + τ * R)) / (2 * (R + 1)) * R ≤ (w x - (τ' + τ * R)) / 2 := by
    rw [div_mul_eq_mul_div, div_le_div_iff₀ (by linarith) (by norm_num)]
    nlinarith
  rw [add_mul] at h6
  linarith

lemma parabolic_max {w : Pt 2 → ℝ} (hw : Continuous w) {t0 T l r : ℝ} {Dt Dx : Pt 2 → ℝ}
    (hDt : ∀ x ∈ cbox ![t0, l] ![T, r], HasDerivAt (fun t : ℝ => w (x + t • Pi.single 0 1)) (Dt x) 0)
    (hDx : ∀ x ∈ cbox ![t0, l] ![T, r], Line2 w 1 x (Dx x)) {α τ τ' : ℝ} (hα : 0 ≤ α) (hL : ∀ x ∈ cbox ![t0, l] ![T, r], |Dt x - α * Dx x| ≤ τ)
    (hb : ∀ x ∈ cbox ![t0, l] ![T, r], x 0 = t0 ∨ x 1 = l ∨ x 1 = r → |w x| ≤ τ') {x : Pt 2} (hx : x ∈ cbox ![t0, l] ![T, r]) :
    |w x| ≤ τ' + τ * (T - t0) := by
  have hτ : 0 ≤ τ := (abs_nonneg _).trans (hL x hx)
  rw [abs_le]
  constructor
  · have := parabolic_upper (w := fun x => -w x) hw.neg (Dt := fun x => -Dt x) (Dx := fun x => -Dx x) (fun x hx => (hDt x hx).fun_neg)
      (fun x hx => (hDx x hx).neg) hα (τ := τ) (τ' := τ') (fun x hx => by linarith [(abs_le.mp (hL x hx)).1])
      (fun x hx hb' => by linarith [(abs_le.mp (hb x hx hb')).1]) hτ hx
    linarith
  · exact parabolic_upper hw hDt hDx hα (fun x hx => (abs_le.mp (hL x hx)).2) (fun x hx hb' => (abs_le.mp (hb x hx hb')).2) hτ hx

end LinPDE.Solve
