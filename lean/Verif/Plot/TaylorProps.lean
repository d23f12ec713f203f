import Verif.Plot.SliceProps
import Verif.Domain.GridProps

/-!
# C80: local Taylor polynomials, normal densities, frames of animations
-/

namespace LinPDE.Plot
open ProbabilityTheory MeasureTheory Set
open LinPDE.Domains (linspace linspace_get)

lemma linspace_len (a b : ℝ) (n : ℕ) : (linspace a b n).length = n := by simp [linspace]

/-- The centred grid of `2 k + 1` points. -/
lemma centered_get {r : ℝ} {k j : ℕ} (hk : 1 ≤ k) (hj : j < 2 * k + 1) :
    (linspace (-r) r (2 * k + 1))[j]? = some (r * ((j : ℝ) / k - 1)) := by
  have hlen : j < (linspace (-r) r (2 * k + 1)).length := by rw [linspace_len]; exact hj
  rw [List.getElem?_eq_getElem hlen, linspace_get _ _ _ _ hlen (by omega)]
  have : (k : ℝ) ≠ 0 := by positivity
  congr 1
  push_cast
  rw [show (2 * (k : ℝ) + 1 - 1) = 2 * k by ring]
  field_simp
  ring

lemma plotMany_get (ax : Ax) (c : Option Color) (m : Option (ℕ × ℕ)) (ps : List (List (ℝ × ℝ))) :
    (ax.plotMany c m ps).2.length = ps.length ∧ ∀ (i : ℕ) (p : List (ℝ × ℝ)), ps[i]? = some p →
      ∃ l, (ax.plotMany c m ps).2[i]? = some l ∧ l.pts = p ∧ l.label = none ∧ l.marks = markevery p.length m ∧
        ∀ c', c = some c' → l.color = c' := by
  induction ps generalizing ax with
  | nil => exact ⟨rfl, fun i p h => by simp at h⟩
  | cons q ps ih =>
    obtain ⟨h1, h2⟩ := ih (ax.plot q c none m).1
    refine ⟨by simp [Ax.plotMany, h1], fun i p h => ?_⟩
    cases i with
    | zero =>
      simp only [List.getElem?_cons_zero, Option.some.injEq] at h
      subst h
      refine ⟨_, rfl, ?_⟩
      rw [plot_color]
      exact ⟨rfl, rfl, rfl, fun c' h => by rw [h]; rfl⟩
    | succ i =>
      simp only [List.getElem?_cons_succ] at h
      obtain ⟨l, hl, hr⟩ := h2 i p h
      exact ⟨l, by simpa [Ax.plotMany] using hl, hr⟩

/-- The law of a Taylor polynomial whose second derivative is normal. -/
lemma taylor2_law (A h m : ℝ) {v : ℝ} (hv : 0 ≤ v) :
    (gaussianReal m (Real.toNNReal v)).map (fun u => A + u / 2 * h ^ 2) =
      gaussianReal (A + m / 2 * h ^ 2) (Real.toNNReal (v / 2 ^ 2 * (h ^ 2) ^ 2)) := by
  have h1 := gaussianReal_map_const_mul (μ := m) (v := Real.toNNReal v) (h ^ 2 / 2)
  have h2 := gaussianReal_map_const_add (μ := h ^ 2 / 2 * m) (v := NNReal.mk ((h ^ 2 / 2) ^ 2) (sq_nonneg _) * Real.toNNReal v) A
  rw [← h1, Measure.map_map (by fun_prop) (by fun_prop)] at h2
  have e : ((fun x => A + x) ∘ fun x => h ^ 2 / 2 * x) = fun u => A + u / 2 * h ^ 2 := by
    funext u
    simp only [Function.comp]
    ring
  rw [e] at h2
  rw [h2]
  congr 1
  · ring
  · ext
    have h3 : 0 ≤ v / 2 ^ 2 * (h ^ 2) ^ 2 := by positivity
    simp only [NNReal.coe_mul, NNReal.coe_mk, Real.coe_toNNReal _ hv, Real.coe_toNNReal _ h3]
    ring

lemma markevery_center (k : ℕ) : markevery (2 * k + 1) (some (k, 2 * k + 1)) = [k] := by
  unfold markevery
  have : (List.range (2 * k + 1)).filter (fun i => decide (k ≤ i ∧ (i - k) % (2 * k + 1) = 0)) =
      (List.range (2 * k + 1)).filter (fun i => i == k) := by
    refine List.filter_congr fun i hi => ?_
    have := List.mem_range.1 hi
    by_cases h : i = k
    · simp [h]
    · have : ¬(k ≤ i ∧ (i - k) % (2 * k + 1) = 0) := by
        rintro ⟨h1, h2⟩
        rw [Nat.mod_eq_of_lt (by omega)] at h2
        omega
      simp [h, this]
  simp only
  rw [this, List.filter_beq, List.count_eq_one_of_mem List.nodup_range (by simp; omega)]
  rfl

/-- C80: `plot_local_curvature` draws at every point the second-order Taylor polynomial over `[x - radius, x + radius]` with the mean
of the second derivative, and a band between whose ends the polynomial with the random second derivative has probability `c`.  The
single marker is at the point itself.  Missing: a grid of fewer than two points (`curvature_marker_violated`). -/
theorem curvature_partial (ax : Ax) (data : List (ℝ × ℝ × ℝ × N1)) (hv : ∀ q ∈ data, 0 ≤ q.2.2.2.var) (radius : ℝ) {g : ℕ}
    (hg : 2 ≤ g) {c : ℝ} (h0 : 0 < c) (h1 : c < 1) (color : Option Color) :
    ∃ d, plotLocalCurvature ax (data.map (·.1)) (data.map (·.2.1)) (data.map (·.2.2.1)) (data.map (·.2.2.2)) radius g c color =
        .ok d ∧ d.means.length = data.length ∧ d.fills.length = data.length ∧
      ∀ (i : ℕ) (x f df : ℝ) (U : N1), data[i]? = some (x, f, df, U) → ∃ l b, d.means[i]? = some l ∧ d.fills[i]? = some b ∧
        b.color = l.color ∧ l.pts.length = 2 * (g / 2) + 1 ∧ (∃ y, l.marks = [g / 2] ∧ l.pts[g / 2]? = some (x, y)) ∧
        ∀ (j : ℕ) (h : ℝ), j < 2 * (g / 2) + 1 → h = radius * ((j : ℝ) / (g / 2 : ℕ) - 1) → ∃ lo up : ℝ,
          l.pts[j]? = some (x + h, f + df * h + U.mean / 2 * h ^ 2) ∧ b.rows[j]? = some (x + h, .fin lo, .fin up) ∧
          (0 < U.var → h ≠ 0 → ((gaussianReal U.mean (Real.toNNReal U.var)).map
            (fun u => f + df * h + u / 2 * h ^ 2)).real (Icc lo up) = c) := by
  set k := g / 2 with hk
  have hk1 : 1 ≤ k := by omega
  have hzip : (data.map (·.1)).zip ((data.map (·.2.1)).zip ((data.map (·.2.2.1)).zip (data.map (·.2.2.2)))) = data := by
    clear hv
    induction data with
    | nil => rfl
    | cons a l ih => simpa using ih
  unfold plotLocalCurvature
  rw [if_neg (by simp)]
  simp only [hzip, if_pos h0, ← hk, show (2 * k + 1) / 2 = k by omega]
  set row : ℝ × ℝ × ℝ × N1 → List (ℝ × N1) := fun q =>
    (linspace (-radius) radius (2 * k + 1)).map fun h => (q.1 + h, taylor2 q.2.1 q.2.2.1 q.2.2.2 h) with hrow
  obtain ⟨hlen, hget⟩ := plotMany_get ax color (some (k, 2 * k + 1)) (data.map fun q => (row q).map fun p => (p.1, p.2.mean))
  rw [List.length_map] at hlen
  refine ⟨_, rfl, hlen, by
    rw [List.length_map, List.length_zip, List.length_map]; exact (congrArg (min _) hlen).trans (min_self _), fun i x f df U hi => ?_⟩
  obtain ⟨l, hl, hpts, -, hmarks, -⟩ := hget i ((row (x, f, df, U)).map fun p => (p.1, p.2.mean)) (by simp only [List.getElem?_map, hi, Option.map_some])
  have hrl : (row (x, f, df, U)).length = 2 * k + 1 := by simp [hrow, linspace_len]
  have hptsj : ∀ (j : ℕ) (h : ℝ), j < 2 * k + 1 → h = radius * ((j : ℝ) / k - 1) →
      (row (x, f, df, U))[j]? = some (x + h, taylor2 f df U h) := by
    intro j h hj hh
    rw [hrow, List.getElem?_map, centered_get hk1 hj, hh]
    rfl
  refine ⟨l, ⟨false, (row (x, f, df, U)).map fun p => bandRow c p.1 p.2.mean p.2.std, l.color⟩, hl, ?_, rfl,
    by rw [hpts, List.length_map, hrl], ⟨f + df * 0 + U.mean / 2 * 0 ^ 2, ?_, ?_⟩, fun j h hj hh => ?_⟩
  · simp only
    have hz : (data.zip ((ax.plotMany color (some (k, 2 * k + 1))
        (data.map fun q => (row q).map fun p => (p.1, p.2.mean))).2.map (·.color)))[i]? = some ((x, f, df, U), l.color) :=
      List.getElem?_zip_eq_some.2 ⟨hi, by rw [List.getElem?_map, hl]; rfl⟩
    rw [List.getElem?_map]
    exact congrArg (Option.map _) hz
  · rw [hmarks]
    simp only [List.length_map, hrl]
    exact markevery_center k
  · have := hptsj k 0 (by omega) (by
      have : (k : ℝ) ≠ 0 := by positivity
      rw [div_self this]; ring)
    rw [hpts, List.getElem?_map, this]
    simp [taylor2]
  · refine ⟨_, _, by rw [hpts, List.getElem?_map, hptsj j h hj hh]; rfl, by
      rw [List.getElem?_map, hptsj j h hj hh, Option.map_some, bandRow_fin (by linarith) h1], fun hu hne => ?_⟩
    rw [taylor2_law _ _ _ hu.le]
    have hpos : 0 < U.var / 2 ^ 2 * (h ^ 2) ^ 2 := by positivity
    have := gaussian_width (m := f + df * h + U.mean / 2 * h ^ 2) h0 h1 (Real.sqrt_pos.2 hpos)
    rw [Real.sq_sqrt hpos.le] at this
    exact this

example : ∀ q ∈ [((0 : ℝ), (1 : ℝ), (2 : ℝ), (⟨3, 4⟩ : N1))], 0 ≤ q.2.2.2.var := by simp

lemma plotMany_lines (ax : Ax) (c : Option Color) (m : Option (ℕ × ℕ)) (ps : List (List (ℝ × ℝ))) :
    (ax.plotMany c m ps).1.lines = ax.lines ++ (ax.plotMany c m ps).2 := by
  induction ps generalizing ax with
  | nil => simp [Ax.plotMany]
  | cons p ps ih =>
    simp only [Ax.plotMany, ih]
    cases c <;> simp [Ax.plot]

/-- C80: the lines and bands that `plot_local_curvature` returns are those it adds to the axes. -/
theorem curvature_axes {ax : Ax} {xs fs dfs : List ℝ} {ddfs : List N1} {radius : ℝ} {g : ℕ} {c : ℝ} {color : Option Color} {d : Curv}
    (h : plotLocalCurvature ax xs fs dfs ddfs radius g c color = .ok d) :
    d.ax.lines = ax.lines ++ d.means ∧ d.ax.bands = ax.bands ++ d.fills := by
  unfold plotLocalCurvature at h
  simp only at h
  split_ifs at h
  · obtain rfl := Except.ok.inj h
    exact ⟨plotMany_lines _ _ _ _, by simp only [plotMany_bands]⟩
  · obtain rfl := Except.ok.inj h
    exact ⟨plotMany_lines _ _ _ _, by simp only [plotMany_bands, List.append_nil]⟩

/-- The hypothesis of the last theorem. -/
example (ax : Ax) : ∃ d, plotLocalCurvature ax [0] [1] [2] [⟨3, 4⟩] 1 2 0.5 none = .ok d ∧ d.means.length = 1 := by
  obtain ⟨d, h, h1, -⟩ := curvature_partial ax [((0 : ℝ), (1 : ℝ), (2 : ℝ), (⟨3, 4⟩ : N1))] (by simp) 1 (le_refl 2) (c := 0.5) (by norm_num) (by norm_num) none
  exact ⟨d, h, h1⟩

/-- C80 is violated for a grid of one point: it is the left end, so marker and polynomial are drawn at `x - radius`. -/
theorem curvature_marker_violated (ax : Ax) (x f df : ℝ) (U : N1) (radius : ℝ) {g : ℕ} (hg : g < 2) {c : ℝ}
    (color : Option Color) : ∃ d l y, plotLocalCurvature ax [x] [f] [df] [U] radius g c color = .ok d ∧ d.means = [l] ∧
      l.marks = [0] ∧ l.pts = [(x - radius, y)] := by
  have hk : 2 * (g / 2) + 1 = 1 := by omega
  have hls : linspace (-radius) radius 1 = [-radius] := by simp [linspace]
  unfold plotLocalCurvature
  rw [if_neg (by simp)]
  simp only [hk, hls]
  let y : ℝ := f + df * -radius + U.mean / 2 * (-radius) ^ 2
  let l : Line := ⟨[(x - radius, y)], color.getD (.cyc ax.cycle), none, [0]⟩
  have hm : markevery 1 (some (1 / 2, 1)) = [0] := by decide
  split_ifs
  · refine ⟨_, l, y, rfl, ?_, rfl, rfl⟩
    cases color <;> simp [Ax.plotMany, Ax.plot, hm, taylor2, sub_eq_add_neg, l, y]
  · refine ⟨_, l, y, rfl, ?_, rfl, rfl⟩
    cases color <;> simp [Ax.plotMany, Ax.plot, hm, taylor2, sub_eq_add_neg, l, y]

/-! ## Taylor processes -/

/-- The Taylor polynomial with the mean coefficients at the offset `h`. -/
noncomputable def NVec.meanAt (w : NVec) (h : ℝ) : ℝ := ∑ k ∈ Finset.range w.n, h ^ k * w.mean k

/-- The variance of the Taylor polynomial at the offset `h`. -/
noncomputable def NVec.varAt (w : NVec) (h : ℝ) : ℝ := ∑ k ∈ Finset.range w.n, ∑ l ∈ Finset.range w.n, h ^ k * w.cov k l * h ^ l

/-- The line drawn for one Taylor process. -/
noncomputable def taylorLine (radius : ℝ) (g : ℕ) (c : Color) (label : Option String) (q : ℝ × NVec) : Line :=
  ⟨(linspace (-radius) radius g).map fun h => (q.1 + h, q.2.meanAt h), c, label, markevery g (some (g / 2, g))⟩

/-- The band drawn for one Taylor process. -/
noncomputable def taylorBand (radius : ℝ) (g : ℕ) (c : Color) (q : ℝ × NVec) : Band :=
  ⟨false, (linspace (-radius) radius g).map fun h => bandRow 0.95 (q.1 + h) (q.2.meanAt h) (Real.sqrt (q.2.varAt h)), c⟩

lemma plot1d_taylor (radius : ℝ) (g : ℕ) (label : Option String) (q : ℝ × NVec) (ax : Ax) (color : Option Color) :
    ∃ cy, plot1d (taylorProc q.1 q.2) ax ((linspace (-radius) radius g).map fun h => q.1 + h)
        { color := color, label := label, marks := some (g / 2, g) } =
      .ok ⟨⟨cy, ax.lines ++ [taylorLine radius g (color.getD (.cyc ax.cycle)) label q],
        ax.bands ++ [taylorBand radius g (color.getD (.cyc ax.cycle)) q]⟩,
        [taylorLine radius g (color.getD (.cyc ax.cycle)) label q],
        some (taylorBand radius g (color.getD (.cyc ax.cycle)) q), []⟩ := by
  refine ⟨if color = none then ax.cycle + 1 else ax.cycle, ?_⟩
  cases color <;>
    · simp only [plot1d, taylorProc, PFn.plot, plotFunction, PFn.call, bind, Except.bind, zip_map_self, Ax.plot, drawBand,
        firstColor, drawSamples, lt_irrefl, if_false, Bool.false_eq_true]
      simp only [List.map_map, List.length_map, linspace_len, taylorLine,
        taylorBand, NVec.meanAt, NVec.varAt, Function.comp_def, add_sub_cancel_left, Option.getD_none, Option.getD_some,
        if_true, reduceCtorEq, if_false]

lemma taylorLoop_spec (radius : ℝ) (g : ℕ) (label : Option String) (data : List (ℝ × NVec)) (hn : ∀ q ∈ data, q.2.n ≠ 0) (idx : ℕ)
    (ax : Ax) (color : Option Color) :
    ∃ r, taylorLoop radius g label idx data ax color = .ok r ∧
      r.lines = ax.lines ++ data.mapIdx (fun i q => taylorLine radius g (color.getD (.cyc ax.cycle))
        (if idx + i = 0 then label else none) q) ∧
      r.bands = ax.bands ++ data.map (taylorBand radius g (color.getD (.cyc ax.cycle))) := by
  induction data generalizing idx ax color with
  | nil => exact ⟨ax, rfl, by simp, by simp⟩
  | cons q rest ih =>
    have hw : q.2.n ≠ 0 := hn q List.mem_cons_self
    obtain ⟨cy, hp⟩ := plot1d_taylor radius g (if idx = 0 then label else none) q ax color
    obtain ⟨r, hr, h1, h2⟩ := ih (fun q hq => hn q (List.mem_cons_of_mem _ hq)) (idx + 1)
      ⟨cy, ax.lines ++ [taylorLine radius g (color.getD (.cyc ax.cycle)) (if idx = 0 then label else none) q],
        ax.bands ++ [taylorBand radius g (color.getD (.cyc ax.cycle)) q]⟩ (some (color.getD (.cyc ax.cycle)))
    refine ⟨r, ?_, ?_, ?_⟩
    · simp only [taylorLoop, if_neg hw, hp, bind, Except.bind, firstColor]
      rw [← hr]
      congr 2
      cases color <;> rfl
    · rw [h1]
      simp [List.mapIdx_cons, add_assoc, add_comm 1]
    · rw [h2]
      simp

/-- C80: `plot_local_taylor_processes` draws around every point, over `[x₀ - radius, x₀ + radius]`, the polynomial with the mean
coefficients and a band between whose ends the normal distribution with the mean and variance of the random polynomial has
probability `0.95`; everything has one colour and only the first line has the label. -/
theorem taylor_spec (ax : Ax) (data : List (ℝ × NVec)) (hn : ∀ q ∈ data, q.2.n ≠ 0) (radius : ℝ) (g : ℕ) (label : Option String)
    (color : Option Color) :
    ∃ r, plotLocalTaylor ax (data.map (·.1)) (data.map (·.2)) radius g label color = .ok r ∧
      r.lines.length = ax.lines.length + data.length ∧ r.bands.length = ax.bands.length + data.length ∧
      ∀ (i : ℕ) (x0 : ℝ) (w : NVec), data[i]? = some (x0, w) → ∃ l b, r.lines[ax.lines.length + i]? = some l ∧
        r.bands[ax.bands.length + i]? = some b ∧ l.color = color.getD (.cyc ax.cycle) ∧ b.color = l.color ∧
        l.label = (if i = 0 then label else none) ∧ l.pts.length = g ∧
        ∀ (j : ℕ) (h : ℝ), (linspace (-radius) radius g)[j]? = some h → ∃ lo up : ℝ,
          l.pts[j]? = some (x0 + h, ∑ k ∈ Finset.range w.n, w.mean k * h ^ k) ∧
          b.rows[j]? = some (x0 + h, .fin lo, .fin up) ∧
          ∀ v, v = (∑ k ∈ Finset.range w.n, ∑ l ∈ Finset.range w.n, h ^ k * w.cov k l * h ^ l) → 0 < v →
            (gaussianReal (∑ k ∈ Finset.range w.n, w.mean k * h ^ k) (Real.toNNReal v)).real (Icc lo up) = 0.95 := by
  have hzip : (data.map (·.1)).zip (data.map (·.2)) = data := by
    clear hn
    induction data with
    | nil => rfl
    | cons a l ih => simpa using ih
  obtain ⟨r, hr, h1, h2⟩ := taylorLoop_spec radius g label data hn 0 ax color
  refine ⟨r, by rw [plotLocalTaylor, hzip, hr], by simp [h1], by simp [h2], fun i x0 w hi => ?_⟩
  refine ⟨taylorLine radius g (color.getD (.cyc ax.cycle)) (if i = 0 then label else none) (x0, w),
    taylorBand radius g (color.getD (.cyc ax.cycle)) (x0, w), ?_, ?_, rfl, rfl, rfl, by simp [taylorLine, linspace_len],
    fun j h hj => ?_⟩
  · rw [h1, List.getElem?_append_right (by omega)]
    simp [hi]
  · rw [h2, List.getElem?_append_right (by omega)]
    simp [hi]
  · have hm : w.meanAt h = ∑ k ∈ Finset.range w.n, w.mean k * h ^ k := Finset.sum_congr rfl fun k _ => mul_comm _ _
    refine ⟨_, _, by simp [taylorLine, hj, hm], by
      rw [taylorBand, List.getElem?_map, hj, Option.map_some, bandRow_fin (by norm_num) (by norm_num)], fun v hv hpos => ?_⟩
    have := gaussian_width (m := w.meanAt h) (c := 0.95) (by norm_num) (by norm_num) (Real.sqrt_pos.2 hpos)
    rw [Real.sq_sqrt hpos.le, hv, hm] at this
    rw [hv, hm]
    exact this

/-- C80: with an odd number of points, at least three, the marker of every Taylor polynomial is at its point. -/
theorem taylor_marker_partial (ax : Ax) (data : List (ℝ × NVec)) (hn : ∀ q ∈ data, q.2.n ≠ 0) (radius : ℝ) {k : ℕ} (hk : 1 ≤ k)
    (label : Option String) (color : Option Color) :
    ∃ r, plotLocalTaylor ax (data.map (·.1)) (data.map (·.2)) radius (2 * k + 1) label color = .ok r ∧
      ∀ (i : ℕ) (x0 : ℝ) (w : NVec), data[i]? = some (x0, w) → ∃ l y, r.lines[ax.lines.length + i]? = some l ∧ l.marks = [k] ∧
        l.pts[k]? = some (x0, y) := by
  have hzip : (data.map (·.1)).zip (data.map (·.2)) = data := by
    clear hn
    induction data with
    | nil => rfl
    | cons a l ih => simpa using ih
  obtain ⟨r, hr, h1, -⟩ := taylorLoop_spec radius (2 * k + 1) label data hn 0 ax color
  refine ⟨r, by rw [plotLocalTaylor, hzip, hr], fun i x0 w hi => ?_⟩
  refine ⟨taylorLine radius (2 * k + 1) (color.getD (.cyc ax.cycle)) (if i = 0 then label else none) (x0, w), w.meanAt 0,
    ?_, ?_, ?_⟩
  · rw [h1, List.getElem?_append_right (by omega)]
    simp [hi]
  · simp only [taylorLine, show (2 * k + 1) / 2 = k by omega]
    exact markevery_center k
  · have h0 := centered_get (r := radius) hk (show k < 2 * k + 1 by omega)
    have : (k : ℝ) ≠ 0 := by positivity
    rw [div_self this, sub_self, mul_zero] at h0
    simp [taylorLine, h0]

/-- C80 is violated: `plot_local_taylor_processes` does not round the number of points to an odd one; with two points the marker is
at `x₀ + radius`. -/
theorem taylor_marker_violated (ax : Ax) (x0 radius : ℝ) (w : NVec) (hn : w.n ≠ 0) (label : Option String) (color : Option Color) :
    ∃ r l y, plotLocalTaylor ax [x0] [w] radius 2 label color = .ok r ∧ r.lines = ax.lines ++ [l] ∧ l.marks = [1] ∧
      l.pts[1]? = some (x0 + radius, y) := by
  obtain ⟨r, hr, h1, -⟩ := taylorLoop_spec radius 2 label [(x0, w)] (by simpa using hn) 0 ax color
  refine ⟨r, _, w.meanAt radius, hr, h1, show markevery 2 (some (1, 2)) = [1] by decide, ?_⟩
  simp [taylorLine, linspace, List.range_succ]

example : ∀ q ∈ [((0 : ℝ), (⟨2, fun k => k, fun _ _ => 1⟩ : NVec))], q.2.n ≠ 0 := by simp

/-! ## Densities -/

/-- C80: `plot_gaussian_pdf` draws 61 points of the graph of the density from three standard deviations below to three standard
deviations above the mean; the middle point is at the mean, where the density is largest. -/
theorem plotGaussianPdf_spec (rv : N1) (hv : 0 < rv.var) (ax : Ax) (color : Option Color) :
    ∃ l, (plotGaussianPdf rv ax color).2 = l ∧ (plotGaussianPdf rv ax color).1.lines = ax.lines ++ [l] ∧ l.pts.length = 61 ∧
      (∀ p ∈ l.pts, p.2 = (Real.sqrt (2 * Real.pi * rv.var))⁻¹ * Real.exp (-(p.1 - rv.mean) ^ 2 / (2 * rv.var))) ∧
      (l.pts[0]?.map (·.1)) = some (rv.mean - 3 * Real.sqrt rv.var) ∧ (l.pts[60]?.map (·.1)) = some (rv.mean + 3 * Real.sqrt rv.var) ∧
      ∃ y, l.pts[30]? = some (rv.mean, y) ∧ ∀ p ∈ l.pts, p.2 ≤ y := by
  have hpdf : ∀ x, gaussianPDFReal rv.mean (Real.toNNReal rv.var) x =
      (Real.sqrt (2 * Real.pi * rv.var))⁻¹ * Real.exp (-(x - rv.mean) ^ 2 / (2 * rv.var)) := by
    intro x
    rw [gaussianPDFReal_def]
    simp only [Real.coe_toNNReal _ hv.le]
  have hget : ∀ j : ℕ, j < 61 → (linspace (rv.mean - 3 * rv.std) (rv.mean + 3 * rv.std) (2 * (60 / 2) + 1))[j]? =
      some (rv.mean - 3 * rv.std + j * (rv.std / 10)) := by
    intro j hj
    have hlen : j < (linspace (rv.mean - 3 * rv.std) (rv.mean + 3 * rv.std) (2 * (60 / 2) + 1)).length := by
      rw [linspace_len]; exact hj
    rw [List.getElem?_eq_getElem hlen, linspace_get _ _ _ _ hlen (by norm_num)]
    congr 1
    push_cast
    ring
  have hl : (plotGaussianPdf rv ax color).2.pts = (linspace (rv.mean - 3 * rv.std) (rv.mean + 3 * rv.std) (2 * (60 / 2) + 1)).map
      fun x => (x, gaussianPDFReal rv.mean (Real.toNNReal rv.var) x) := by
    unfold plotGaussianPdf
    rw [plot_color]
  refine ⟨_, rfl, by unfold plotGaussianPdf; cases color <;> rfl, by rw [hl, List.length_map, linspace_len], ?_, ?_, ?_,
    gaussianPDFReal rv.mean (Real.toNNReal rv.var) rv.mean, ?_, ?_⟩
  · rw [hl]
    intro p hp
    obtain ⟨x, -, rfl⟩ := List.mem_map.1 hp
    exact hpdf x
  · rw [hl, List.getElem?_map, hget 0 (by norm_num)]
    simp [N1.std]
  · rw [hl, List.getElem?_map, hget 60 (by norm_num)]
    simp only [N1.std, Option.map_some]
    congr 1
    push_cast
    ring
  · rw [hl, List.getElem?_map, hget 30 (by norm_num)]
    have : rv.mean - 3 * rv.std + ((30 : ℕ) : ℝ) * (rv.std / 10) = rv.mean := by push_cast; ring
    rw [this]
    rfl
  · rw [hl]
    intro p hp
    obtain ⟨x, -, rfl⟩ := List.mem_map.1 hp
    simp only [hpdf, sub_self]
    refine mul_le_mul_of_nonneg_left (Real.exp_le_exp.2 ?_) (by positivity)
    rw [div_le_div_iff_of_pos_right (by positivity)]
    nlinarith [sq_nonneg (x - rv.mean)]

/-! ## Frames -/

lemma grabs_spec (w : Writer) (pics : List ℕ) :
    (pics.foldl Writer.grab w).out = w.out ∧ (pics.foldl Writer.grab w).idx = w.idx + pics.length := by
  induction pics generalizing w with
  | nil => exact ⟨rfl, rfl⟩
  | cons p ps ih =>
    obtain ⟨h1, h2⟩ := ih (w.grab p)
    refine ⟨h1, h2.trans ?_⟩
    simp [Writer.grab]
    omega

/-- C80: with a replacement field in the name, frame `i` of an animation is in the file numbered `i`; no other file changes. -/
theorem writer_frames_partial (files : FileName → Option ℕ) (pre post : String) (pics : List ℕ) :
    let w := pics.foldl Writer.grab (Writer.setup files (.field pre post))
    (∀ i : ℕ, i < pics.length → w.files (.numbered pre i post) = pics[i]?) ∧
      ∀ f, (∀ i < pics.length, f ≠ .numbered pre i post) → w.files f = files f := by
  suffices h : ∀ (pics : List ℕ) (w : Writer), w.out = .field pre post →
      (∀ i : ℕ, i < pics.length → (pics.foldl Writer.grab w).files (.numbered pre (w.idx + i) post) = pics[i]?) ∧
      ∀ f, (∀ i < pics.length, f ≠ .numbered pre (w.idx + i) post) → (pics.foldl Writer.grab w).files f = w.files f by
    have := h pics (Writer.setup files (.field pre post)) rfl
    simpa [Writer.setup] using this
  intro pics
  induction pics with
  | nil => exact fun w _ => ⟨fun i hi => by simp at hi, fun f _ => rfl⟩
  | cons p ps ih =>
    intro w hw
    obtain ⟨h1, h2⟩ := ih (w.grab p) hw
    refine ⟨fun i hi => ?_, fun f hf => ?_⟩
    · cases i with
      | zero =>
        rw [List.foldl_cons, h2]
        · simp [Writer.grab, hw, OutFile.format]
        · intro j _ hj
          simp only [Writer.grab, FileName.numbered.injEq, true_and, and_true] at hj
          omega
      | succ i =>
        have := h1 i (by simpa using hi)
        simp only [Writer.grab, List.foldl_cons, List.getElem?_cons_succ] at this ⊢
        rw [← this]
        congr 2
        omega
    · rw [List.foldl_cons, h2]
      · have := hf 0 (by simp)
        simp only [add_zero] at this
        simp [Writer.grab, hw, OutFile.format, this]
      · intro i hi
        have := hf (i + 1) (by simpa using hi)
        simp only [Writer.grab]
        rwa [show w.idx + 1 + i = w.idx + (i + 1) by omega]

/-- C80 is violated for a file name without a replacement field: every frame overwrites the one before, only the last is left. -/
theorem writer_literal_violated (files : FileName → Option ℕ) (s : String) (pics : List ℕ) (p : ℕ) :
    ((pics ++ [p]).foldl Writer.grab (Writer.setup files (.literal s))).files (.plain s) = some p ∧
      ∀ f, f ≠ .plain s → ((pics ++ [p]).foldl Writer.grab (Writer.setup files (.literal s))).files f = files f := by
  have hout := (grabs_spec (Writer.setup files (.literal s)) pics).1
  refine ⟨?_, fun f hf => ?_⟩
  · rw [List.foldl_append]
    simp only [List.foldl_cons, List.foldl_nil]
    generalize hw : List.foldl Writer.grab (Writer.setup files (.literal s)) pics = w at hout ⊢
    simp only [Writer.setup] at hout
    simp [Writer.grab, hout, OutFile.format]
  · have : ∀ (ps : List ℕ) (w : Writer), w.out = .literal s → (ps.foldl Writer.grab w).files f = w.files f := by
      intro ps
      induction ps with
      | nil => intros; rfl
      | cons q qs ih =>
        intro w hw
        rw [List.foldl_cons, ih (w.grab q) hw]
        simp [Writer.grab, hw, OutFile.format, hf]
    exact this _ _ rfl

example : ((List.foldl Writer.grab (Writer.setup (fun _ => none) (.field "frame" ".pdf")) [5, 6, 7]).files
    (.numbered "frame" 1 ".pdf")) = some 6 := by decide

end LinPDE.Plot
