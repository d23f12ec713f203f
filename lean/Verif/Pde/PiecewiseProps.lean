import Verif.Pde.PoissonProps

/-! # The piecewise solution of the initial value problem for the Poisson equation (C44) -/

namespace LinPDE.Pde
open LinPDE.Domains LinPDE.Nd
open LinPDE.Polys
open LinPDE.Piecewise
open Set

/-! ## Helpers -/

lemma ivpLoop_ok {α : ℝ} (hα : α ≠ 0) (L : List (Piece × ℝ × ℝ)) (hL : ∀ e ∈ L, (∃ p, e.1 = .poly p) ∧ e.2.1 ≤ e.2.2)
    (u0 u1 : ℝ) : ∃ sols, ivpLoop α L [u0, u1] = .ok sols ∧ sols.length = L.length ∧
      ∀ i (h : i < L.length) (h' : i < sols.length), SolvesPoisson α L[i].1.ev sols[i].eval univ ∧
        (i = 0 → sols[i].eval L[i].2.1 = u0 ∧ sols[i].differentiate.eval L[i].2.1 = u1) ∧
        ∀ j (_ : j + 1 = i), sols[i].eval L[i].2.1 = sols[j].eval L[j].2.2 ∧
          sols[i].differentiate.eval L[i].2.1 = sols[j].differentiate.eval L[j].2.2 := by
  induction L generalizing u0 u1 with
  | nil => exact ⟨[], rfl, rfl, fun i h => absurd h (by simp)⟩
  | cons e L ih =>
    obtain ⟨⟨p, hp⟩, hlr⟩ := hL e (by simp)
    obtain ⟨pc, l, r⟩ := e
    obtain rfl : pc = .poly p := hp
    obtain ⟨s, hs, hsol, hl0, hl1, -⟩ := ivpPoly_solves hlr p u0 u1 hα
    obtain ⟨sols, hsols, hlen, hspec⟩ := ih (fun e he => hL e (by simp [he])) (s.eval r) (s.differentiate.eval r)
    refine ⟨s :: sols, ?_, by simp [hlen], fun i h h' => ?_⟩
    · rw [ivpLoop]
      show (mkIvpPoly (.scalars l r) (some p) [u0, u1] α >>= _ : Except Err _) = _
      rw [hs]
      show (ivpLoop α L [s.eval r, s.differentiate.eval r] >>= _ : Except Err _) = _
      rw [hsols]; rfl
    · cases i with
      | zero => exact ⟨hsol, fun _ => ⟨hl0, hl1⟩, fun j hj => by omega⟩
      | succ i =>
        have hi : i < L.length := by simpa using h
        obtain ⟨g1, g2, g3⟩ := hspec i hi (by omega)
        refine ⟨g1, fun h => by omega, fun j hj => ?_⟩
        obtain rfl : i = j := by omega
        cases i with
        | zero => exact g2 rfl
        | succ i => exact g3 i rfl

/-- Two differentiable functions that agree to first order at `x`, one used up to `x`, the other after `x`. -/
lemma glue {U g h : ℝ → ℝ} {a x b d : ℝ} (ha : a < x) (hb : x < b) (hg : HasDerivAt g d x) (hh : HasDerivAt h d x)
    (e : g x = h x) (hl : ∀ y, a < y → y ≤ x → U y = g y) (hr : ∀ y, x < y → y < b → U y = h y) :
    HasDerivAt U d x := by
  have hx := hl x ha le_rfl
  have h1 : HasDerivWithinAt U d (Iic x) x :=
    hg.hasDerivWithinAt.congr_of_eventuallyEq (by
      filter_upwards [self_mem_nhdsWithin, mem_nhdsWithin_of_mem_nhds (Ioi_mem_nhds ha)] with y hy hy'
      exact hl y hy' hy) hx
  have h2 : HasDerivWithinAt U d (Ici x) x :=
    hh.hasDerivWithinAt.congr_of_eventuallyEq (by
      filter_upwards [self_mem_nhdsWithin, mem_nhdsWithin_of_mem_nhds (Iio_mem_nhds hb)] with y hy hy'
      rcases (show x ≤ y from hy).eq_or_lt with rfl | h
      · rw [hx, e]
      · exact hr y h hy') (by rw [hx, e])
  have := h1.union h2
  rwa [Iic_union_Ici, hasDerivWithinAt_univ] at this

lemma glue_cont {U g h : ℝ → ℝ} {a x b : ℝ} (ha : a < x) (hb : x < b) (hg : ContinuousAt g x) (hh : ContinuousAt h x)
    (e : g x = h x) (hl : ∀ y, a < y → y ≤ x → U y = g y) (hr : ∀ y, x < y → y < b → U y = h y) :
    ContinuousAt U x := by
  have hx := hl x ha le_rfl
  have h1 : ContinuousWithinAt U (Iic x) x :=
    hg.continuousWithinAt.congr_of_eventuallyEq (by
      filter_upwards [self_mem_nhdsWithin, mem_nhdsWithin_of_mem_nhds (Ioi_mem_nhds ha)] with y hy hy'
      exact hl y hy' hy) hx
  have h2 : ContinuousWithinAt U (Ici x) x :=
    hh.continuousWithinAt.congr_of_eventuallyEq (by
      filter_upwards [self_mem_nhdsWithin, mem_nhdsWithin_of_mem_nhds (Iio_mem_nhds hb)] with y hy hy'
      rcases (show x ≤ y from hy).eq_or_lt with rfl | h
      · rw [hx, e]
      · exact hr y h hy') (by rw [hx, e])
  have := h1.union h2
  rwa [Iic_union_Ici, continuousWithinAt_univ] at this

/-- The number a piecewise function evaluates to. -/
noncomputable def val (f : PW) (x : ℝ) : ℝ := match f.evaluate x with
  | .ok y => y
  | .error _ => 0

lemma val_in {f : PW} (hk : f.kind ≠ .constant) (h : f.Ok) {i : ℕ} (hi : i < f.fns.length) {x : ℝ} (hx : f.In i x) :
    val f x = f.fns[i].ev x := by rw [val, piecewise_eval hk h hi hx]

/-! ## Theorem -/

/-- C44: for a piecewise polynomial right-hand side on an increasing list of breakpoints, the piecewise solution starts
with the initial values at the first breakpoint, is continuously differentiable between the first and the last breakpoint
(also at the breakpoints between them), is continuous with its derivative up to both ends, and satisfies the equation
inside every piece.  The derivative is `val u'`. -/
theorem ivpPiecewise_solves_partial (domain : ℝ × ℝ) (hdom : domain.1 ≤ domain.2) {rhs : PW} (hrhs : rhs.Ok)
    (hpoly : ∀ p ∈ rhs.fns, ∃ q, p = .poly q) (hk : rhs.kind ≠ .constant) (u0 u1 : ℝ) {α : ℝ} (hα : α ≠ 0) :
    ∃ u u' : PW, mkIvpPiecewise (.scalars domain.1 domain.2) (some rhs) [u0, u1] α = .ok u ∧ u.xs = rhs.xs ∧
      (∀ x, u.evaluate x = .ok (val u x)) ∧
      (∀ x ∈ Ioo (rhs.X 0) (rhs.X rhs.fns.length), HasDerivAt (val u) (val u' x) x ∧ ContinuousAt (val u') x) ∧
      (∀ i < rhs.fns.length, ∀ x ∈ Ioo (rhs.X i) (rhs.X (i + 1)), ∃ d, HasDerivAt (val u') d x ∧
        rhs.evaluate x = .ok (-α * d)) ∧
      (val u (rhs.X 0) = u0 ∧ val u' (rhs.X 0) = u1 ∧ HasDerivWithinAt (val u) u1 (Ici (rhs.X 0)) (rhs.X 0)) ∧
      ContinuousOn (val u) (Icc (rhs.X 0) (rhs.X rhs.fns.length)) ∧
      ContinuousOn (val u') (Icc (rhs.X 0) (rhs.X rhs.fns.length)) := by
  set L := rhs.fns.zip (rhs.xs.dropLast.zip rhs.xs.tail) with hLdef
  have hlen := hrhs.len
  have hLlen : L.length = rhs.fns.length := by simp [hLdef]; omega
  have hLget : ∀ i (h : i < L.length), L[i] = (rhs.fns[i]'(by omega), rhs.X i, rhs.X (i + 1)) := by
    intro i h
    simp only [hLdef, List.getElem_zip, List.getElem_dropLast, List.getElem_tail, PW.X]
    rw [List.getD_eq_getElem?_getD, List.getD_eq_getElem?_getD, List.getElem?_eq_getElem (by omega),
      List.getElem?_eq_getElem (by omega)]
    simp
  have hL : ∀ e ∈ L, (∃ p, e.1 = .poly p) ∧ e.2.1 ≤ e.2.2 := by
    intro e he
    obtain ⟨i, hi, rfl⟩ := List.getElem_of_mem he
    rw [hLget i hi]
    exact ⟨hpoly _ (List.getElem_mem _), hrhs.le (by omega) (by omega)⟩
  obtain ⟨sols, hsols, hslen, hspec⟩ := ivpLoop_ok hα L hL u0 u1
  set u : PW := ⟨.general, rhs.xs, sols.map .poly⟩ with hu
  set u' : PW := ⟨.general, rhs.xs, sols.map fun s => .poly s.differentiate⟩ with hu'
  have hn : sols.length = rhs.fns.length := by omega
  have uok : u.Ok := ⟨by simp [hu]; omega, by simp [hu]; have := hrhs.pos; omega, hrhs.inc⟩
  have uok' : u'.Ok := ⟨by simp [hu']; omega, by simp [hu']; have := hrhs.pos; omega, hrhs.inc⟩
  have hX : ∀ i, u.X i = rhs.X i := fun _ => rfl
  have hX' : ∀ i, u'.X i = rhs.X i := fun _ => rfl
  -- values on a piece
  have hv : ∀ i (h : i < sols.length) x, (if i = 0 then rhs.X 0 ≤ x else rhs.X i < x) → x ≤ rhs.X (i + 1) →
      val u x = sols[i].eval x := by
    intro i h x h1 h2
    rw [val_in (by simp [hu]) uok (i := i) (by simpa [hu] using h) ⟨h1, h2⟩]
    simp [hu, Piece.ev]
  have hv' : ∀ i (h : i < sols.length) x, (if i = 0 then rhs.X 0 ≤ x else rhs.X i < x) → x ≤ rhs.X (i + 1) →
      val u' x = sols[i].differentiate.eval x := by
    intro i h x h1 h2
    rw [val_in (by simp [hu']) uok' (i := i) (by simpa [hu'] using h) ⟨h1, h2⟩]
    simp [hu', Piece.ev]
  have hio : ∀ i x, rhs.X i < x → (if i = 0 then rhs.X 0 ≤ x else rhs.X i < x) := by
    intro i x h
    split_ifs with h0
    · subst h0; exact h.le
    · exact h
  have hcont : ∀ (p : Poly ℝ) x, ContinuousAt p.eval x := fun p x => (hasDerivAt_eval p x).continuousAt
  have hmk : mkIvpPiecewise (.scalars domain.1 domain.2) (some rhs) [u0, u1] α = .ok u := by
    unfold mkIvpPiecewise
    simp only [asdomain, mkInterval, if_neg (not_lt.mpr hdom), gt_iff_lt]
    rw [if_neg (by
      simp only [not_not, List.all_eq_true]
      intro p hp
      obtain ⟨q, rfl⟩ := hpoly p hp
      rfl)]
    show (ivpLoop α L [u0, u1] >>= _ : Except Err _) = _
    rw [hsols]
    have e : mkPW .general rhs.xs (sols.map .poly) = .ok u := by
      rw [mkPW, if_neg (by simp; omega)]
    show (match mkPW .general rhs.xs (sols.map .poly) with
      | .ok f => .ok f
      | .error _ => .error .valueError : Except Err PW) = _
    rw [e]
  have h0 : 0 < sols.length := by have := hrhs.pos; omega
  have hX01 : rhs.X 0 < rhs.X 1 := hrhs.lt (by omega) (by omega)
  have s0 := (hspec 0 (by omega) h0).2.1 rfl
  rw [hLget 0 (by omega)] at s0
  have hstart : val u (rhs.X 0) = u0 := by rw [hv 0 h0 _ (by simp) hX01.le, s0.1]
  -- continuity at the ends
  have hends : ∀ (f : ℝ → ℝ) (p : ℕ → Poly ℝ), (∀ i (_ : i < sols.length) x, (if i = 0 then rhs.X 0 ≤ x else rhs.X i < x) →
      x ≤ rhs.X (i + 1) → f x = (p i).eval x) → (∀ x ∈ Ioo (rhs.X 0) (rhs.X rhs.fns.length), ContinuousAt f x) →
      ContinuousOn f (Icc (rhs.X 0) (rhs.X rhs.fns.length)) := by
    intro f p hf hc x hx
    rcases hx.1.eq_or_lt with rfl | h1
    · refine ((hcont (p 0) _).continuousWithinAt).congr_of_eventuallyEq ?_ (hf 0 h0 _ (by simp) hX01.le)
      filter_upwards [self_mem_nhdsWithin, mem_nhdsWithin_of_mem_nhds (Iio_mem_nhds hX01)] with y hy hy'
      exact hf 0 h0 y (by simpa using hy.1) (le_of_lt hy')
    rcases hx.2.eq_or_lt with h2 | h2
    · have hN : sols.length - 1 + 1 = rhs.fns.length := by omega
      have hlast : rhs.X (sols.length - 1) < x := by
        rw [h2, ← hN]
        exact hrhs.lt (by omega) (by omega)
      have hle : ∀ y, y ≤ rhs.X rhs.fns.length → y ≤ rhs.X (sols.length - 1 + 1) := fun y hy => by rw [hN]; exact hy
      refine ((hcont (p (sols.length - 1)) _).continuousWithinAt).congr_of_eventuallyEq ?_
        (hf _ (by omega) _ (hio _ _ hlast) (hle _ hx.2))
      filter_upwards [self_mem_nhdsWithin, mem_nhdsWithin_of_mem_nhds (Ioi_mem_nhds hlast)] with y hy hy'
      exact hf _ (by omega) y (hio _ _ hy') (hle _ hy.2)
    · exact (hc x ⟨h1, h2⟩).continuousWithinAt
  have hdiff : ∀ x ∈ Ioo (rhs.X 0) (rhs.X rhs.fns.length), HasDerivAt (val u) (val u' x) x ∧ ContinuousAt (val u') x := ?hdiff
  refine ⟨u, u', hmk, rfl, fun x => ?_, hdiff, ?_, ⟨hstart, ?_, ?_⟩,
    hends _ (fun i => sols.getD i (.ofCoeffs [])) (fun i hi x h1 h2 => by
      rw [hv i hi x h1 h2]
      simp [List.getD_eq_getElem?_getD, List.getElem?_eq_getElem hi]) (fun x hx => (hdiff x hx).1.continuousAt),
    hends _ (fun i => (sols.getD i (.ofCoeffs [])).differentiate) (fun i hi x h1 h2 => by
      rw [hv' i hi x h1 h2]
      simp [List.getD_eq_getElem?_getD, List.getElem?_eq_getElem hi]) (fun x hx => (hdiff x hx).2)⟩
  · rw [val]
    have : ∃ y, u.evaluate x = .ok y := by
      rw [evaluate_general (by simp [hu]) (by simp [hu]; have := hrhs.pos; omega)]
      exact ⟨_, rfl⟩
    obtain ⟨y, hy⟩ := this
    rw [hy]
  case hdiff =>
    rintro x ⟨hx0, hx1⟩
    obtain ⟨i, ⟨hi, hin⟩, -⟩ := piecewise_cover uok (x := x) hx0.le (by
      have : u.fns.length = rhs.fns.length := by simp [hu, hn]
      rw [this]; exact hx1.le)
    have hi' : i < sols.length := by simpa [hu] using hi
    have hlow : rhs.X i < x := by
      have := hin.1
      split_ifs at this with h
      · subst h; exact hx0
      · exact this
    rcases hin.2.eq_or_lt with hxe | hxlt
    · -- at a breakpoint
      have hi1 : i + 1 < sols.length := by
        by_contra hc
        have : i + 1 = rhs.fns.length := by omega
        rw [hxe, hX, this] at hx1
        exact lt_irrefl _ hx1
      have hnext : x < rhs.X (i + 1 + 1) := by
        rw [hxe]; exact hrhs.lt (by omega) (by omega)
      have g := (hspec (i + 1) (by omega) hi1).2.2 i rfl
      rw [hLget (i + 1) (by omega), hLget i (by omega)] at g
      dsimp only at g
      rw [hX] at hxe
      rw [← hxe] at g
      have hd := hv' i hi' x (hio i x hlow) hxe.le
      constructor
      · refine glue (g := sols[i].eval) (h := sols[i + 1].eval) hlow hnext ?_ ?_ g.1.symm ?_ ?_
        · rw [hd]; exact hasDerivAt_eval _ _
        · rw [hd, ← g.2]; exact hasDerivAt_eval _ _
        · intro y h1 h2; exact hv i hi' y (hio i y h1) (h2.trans hxe.le)
        · intro y h1 h2
          exact hv (i + 1) hi1 y (hio _ y (by rw [← hxe]; exact h1)) h2.le
      · refine glue_cont (g := sols[i].differentiate.eval) (h := sols[i + 1].differentiate.eval) hlow hnext (hcont _ _)
          (hcont _ _) g.2.symm ?_ ?_
        · intro y h1 h2; exact hv' i hi' y (hio i y h1) (h2.trans hxe.le)
        · intro y h1 h2
          exact hv' (i + 1) hi1 y (hio _ y (by rw [← hxe]; exact h1)) h2.le
    · have hev : ∀ᶠ y in nhds x, val u y = sols[i].eval y := by
        filter_upwards [Ioo_mem_nhds hlow hxlt] with y hy
        exact hv i hi' y (hio i y hy.1) hy.2.le
      have hev' : ∀ᶠ y in nhds x, val u' y = sols[i].differentiate.eval y := by
        filter_upwards [Ioo_mem_nhds hlow hxlt] with y hy
        exact hv' i hi' y (hio i y hy.1) hy.2.le
      constructor
      · rw [hv' i hi' x (hio i x hlow) hxlt.le]
        exact (hasDerivAt_eval _ _).congr_of_eventuallyEq hev
      · exact (hcont _ _).congr_of_eventuallyEq hev'
  · rintro i hi x ⟨hx0, hx1⟩
    have hi' : i < sols.length := by omega
    have hev' : ∀ᶠ y in nhds x, val u' y = sols[i].differentiate.eval y := by
      filter_upwards [Ioo_mem_nhds hx0 hx1] with y hy
      exact hv' i hi' y (hio i y hy.1) hy.2.le
    obtain ⟨v', v'', k1, k2, k3⟩ := (hspec i (by omega) hi').1
    rw [hLget i (by omega)] at k3
    have hvd : v' = sols[i].differentiate.eval := funext fun y => (k1 y trivial).unique (hasDerivAt_eval _ _)
    subst hvd
    refine ⟨v'' x, (k2 x trivial).congr_of_eventuallyEq hev', ?_⟩
    rw [k3 x trivial]
    exact piecewise_eval hk hrhs hi ⟨hio i x hx0, hx1.le⟩
  · rw [hv' 0 h0 _ (by simp) hX01.le, s0.2]
  · have hd : HasDerivWithinAt sols[0].eval u1 (Ici (rhs.X 0)) (rhs.X 0) := by
      rw [← s0.2]; exact (hasDerivAt_eval _ _).hasDerivWithinAt
    refine hd.congr_of_eventuallyEq ?_ (hv 0 h0 _ (by simp) hX01.le)
    filter_upwards [self_mem_nhdsWithin, mem_nhdsWithin_of_mem_nhds (Iio_mem_nhds hX01)] with y hy hy'
    exact hv 0 h0 y (by simpa using hy) (le_of_lt hy')

/-- The case of two pieces, `-u'' = 1` on `[0, 1]` and `-u'' = x` on `(1, 2]`. -/
example : ∃ u u' : PW, mkIvpPiecewise (.scalars 0 2)
      (some ⟨.general, [0, 1, 2], [.poly (.ofCoeffs [1]), .poly (.ofCoeffs [0, 1])]⟩) [3, 4] 1 = .ok u ∧
    val u 0 = 3 ∧ val u' 0 = 4 ∧ HasDerivAt (val u) (val u' 1) 1 := by
  obtain ⟨u, u', h1, -, -, h4, -, ⟨h6, h7, -⟩, -⟩ := ivpPiecewise_solves_partial (0, 2) (by norm_num)
    (rhs := ⟨.general, [0, 1, 2], [.poly (.ofCoeffs [1]), .poly (.ofCoeffs [0, 1])]⟩)
    ⟨rfl, by simp, by simp [List.pairwise_cons]⟩ (by simp) (by simp) 3 4 (α := 1) one_ne_zero
  exact ⟨u, u', h1, h6, h7, (h4 1 ⟨by simp [PW.X], by simp [PW.X]⟩).1⟩

/-- C44: the `domain` argument does not influence the piecewise solution. -/
theorem ivpPiecewise_domain_ignored {l r l' r' : ℝ} (h : l ≤ r) (h' : l' ≤ r') (rhs : Option PW) (iv : List ℝ) (α : ℝ) :
    mkIvpPiecewise (.scalars l r) rhs iv α = mkIvpPiecewise (.scalars l' r') rhs iv α := by
  unfold mkIvpPiecewise
  simp only [asdomain, mkInterval, gt_iff_lt, if_neg (not_lt.mpr h), if_neg (not_lt.mpr h')]

/-- C44 (fails): on a domain that starts right of the first breakpoint the solution does not take the initial values at the
left end of the domain. On `[1/2, 1]` with right-hand side `0` given on `[0, 1]` and initial values `u = 0`, `u' = 1`, the
solution is `x` and not `x - 1/2`. -/
theorem ivpPiecewise_initial_violated :
    ∃ u, mkIvpPiecewise (.scalars (1 / 2) 1) (some ⟨.general, [0, 1], [.poly (.ofCoeffs [0])]⟩) [0, 1] 1 = .ok u ∧
      u.evaluate (1 / 2) = .ok (1 / 2) ∧ (1 / 2 : ℝ) ≠ 0 := by
  obtain ⟨s, hs, hsol, h0, h1, -⟩ := ivpPoly_solves (l := 0) (r := 1) zero_le_one (.ofCoeffs [0]) 0 1 (α := 1) one_ne_zero
  refine ⟨⟨.general, [0, 1], [.poly s]⟩, ?_, ?_, by norm_num⟩
  · unfold mkIvpPiecewise
    simp only [asdomain, mkInterval, gt_iff_lt, if_neg (show ¬(1 : ℝ) < 1 / 2 by norm_num)]
    rw [if_neg (by simp [asPoly])]
    show (mkIvpPoly (.scalars 0 1) (some (.ofCoeffs [0])) [0, 1] 1 >>= _ : Except Err _) >>= _ = _
    rw [hs]
    rfl
  · rw [piecewise_eval (i := 0) (by simp) ⟨rfl, by simp, by simp⟩ (by simp) ⟨by simp [PW.X], by simp [PW.X]; norm_num⟩]
    obtain ⟨v', v'', k1, k2, k3⟩ := hsol
    -- `s` is affine, with value `0` and slope `1` at `0`
    have hv'' : ∀ x, v'' x = 0 := fun x => by
      have := k3 x trivial
      simp [Poly.eval, Poly.ofCoeffs] at this
      exact this
    have hv' : ∀ x, v' x = 1 := fun x => by
      have hc := is_const_of_deriv_eq_zero (f := v') (fun y => (k2 y trivial).differentiableAt)
        (fun y => by rw [(k2 y trivial).deriv, hv'']) x 0
      rw [hc, (k1 0 trivial).unique (hasDerivAt_eval s 0), h1]
    have hw : ∀ x, s.eval x - x = 0 := fun x => by
      have hd : ∀ y, HasDerivAt (fun y => s.eval y - y) 0 y := fun y => by
        have := (k1 y trivial).sub (hasDerivAt_id y)
        rw [hv', sub_self] at this
        exact this
      have hc := is_const_of_deriv_eq_zero (f := fun y => s.eval y - y) (fun y => (hd y).differentiableAt)
        (fun y => (hd y).deriv) x 0
      rw [hc, h0, sub_zero]
    have := hw (1 / 2)
    simp only [List.getElem_cons_zero, Piece.ev]
    congr 1
    linarith

end LinPDE.Pde
