import Verif.Plot.Quantile
import Verif.Piecewise.Props

/-!
# C80: plots of random processes on the line, of piecewise linear functions; line chunks
-/

namespace LinPDE.Plot
open ProbabilityTheory MeasureTheory Set
open LinPDE.Piecewise (PW fromPoints)

/-- The plane region a band fills above the sampled positions. -/
def Band.Contains (b : Band) (p : ℝ × ℝ) : Prop :=
  ∃ x lo hi, (x, Num.fin lo, Num.fin hi) ∈ b.rows ∧
    (if b.vertical then p.2 = x ∧ lo ≤ p.1 ∧ p.1 ≤ hi else p.1 = x ∧ lo ≤ p.2 ∧ p.2 ≤ hi)

lemma bandRow_fin {c : ℝ} (h0 : -1 < c) (h1 : c < 1) (x m s : ℝ) :
    bandRow c x m s = (x, .fin (m - width c * s), .fin (m + width c * s)) := by
  unfold bandRow
  rw [stdFactor_fin h0 h1]
  simp only [Num.mul, Num.neg, Num.addTo, width, sub_eq_add_neg]

lemma plotMany_spec (ax : Ax) (c : Color) (m : Option (ℕ × ℕ)) (ps : List (List (ℝ × ℝ))) :
    (ax.plotMany (some c) m ps).2 = ps.map fun p => ⟨p, c, none, markevery p.length m⟩ := by
  induction ps generalizing ax with
  | nil => rfl
  | cons p ps ih => simp [Ax.plotMany, Ax.plot, ih]

lemma plot_color (ax : Ax) (pts : List (ℝ × ℝ)) (c : Option Color) (l : Option String) (m : Option (ℕ × ℕ)) :
    (ax.plot pts c l m).2 = ⟨pts, c.getD (.cyc ax.cycle), l, markevery pts.length m⟩ := by
  cases c <;> rfl

lemma zip_map_self (f : ℝ → ℝ) (l : List ℝ) : l.zip (l.map f) = l.map fun x => (x, f x) := by
  induction l with
  | nil => rfl
  | cons a l ih => simp [ih]

lemma plotMany_bands (ax : Ax) (c : Option Color) (m : Option (ℕ × ℕ)) (ps : List (List (ℝ × ℝ))) :
    (ax.plotMany c m ps).1.bands = ax.bands := by
  induction ps generalizing ax with
  | nil => rfl
  | cons p ps ih =>
    simp only [Ax.plotMany, ih]
    cases c <;> rfl

lemma drawSamples_bands {P : Proc1} {a : Ax} {ml : List Line} {xs : List ℝ} {o : Opts} {s : Ax × List Line}
    (hs : drawSamples P a ml xs o = .ok s) : s.1.bands = a.bands := by
  unfold drawSamples at hs
  split_ifs at hs with hn
  · cases hr : o.rng with
    | none => rw [hr] at hs; cases hs
    | some g =>
      rw [hr] at hs
      simp only [bind, Except.bind] at hs
      cases hc : firstColor ml with
      | error e => rw [hc] at hs; cases hs
      | ok c =>
        rw [hc] at hs
        rw [← Except.ok.inj hs]
        exact plotMany_bands _ _ _ _
  · rw [← Except.ok.inj hs]

/-- The three steps of the plot of a process that is not deterministic. -/
lemma plot1d_steps {P : Proc1} {f : ℝ → ℝ} (hd : P.det = false) (hm : P.mean = .fn f) {ax : Ax} {xs : List ℝ} {o : Opts}
    {d : Drawn} (h : plot1d P ax xs o = .ok d) :
    ∃ a b s, drawBand P a d.mean xs o = .ok b ∧ drawSamples P b.1 d.mean xs o = .ok s ∧ d.band = b.2 ∧ d.samples = s.2 ∧
      d.ax = s.1 ∧
      d.mean = [⟨xs.map fun x => (x, f x), o.color.getD (.cyc ax.cycle), o.label, markevery xs.length o.marks⟩] := by
  unfold plot1d at h
  simp only [hm, PFn.plot, plotFunction, PFn.call, bind, Except.bind, zip_map_self, plot_color, List.length_map, hd,
    Bool.false_eq_true, if_false] at h
  generalize hml : ([_] : List Line) = ml at h
  generalize (ax.plot _ _ _ _).1 = a at h
  cases hb : drawBand P a ml xs o with
  | error e => rw [hb] at h; cases h
  | ok b =>
    rw [hb] at h
    simp only at h
    cases hs : drawSamples P b.1 ml xs o with
    | error e => rw [hs] at h; cases h
    | ok s =>
      rw [hs] at h
      have := Except.ok.inj h
      subst this
      exact ⟨a, b, s, hb, hs, rfl, rfl, rfl, rfl⟩

/-! ## Processes on the line -/

/-- C80: plotting a process whose mean is an ordinary function fails only if samples are requested without a generator. -/
theorem plot1d_error_iff {P : Proc1} {f : ℝ → ℝ} (hm : P.mean = .fn f) (ax : Ax) (xs : List ℝ) (o : Opts) :
    (∃ e, plot1d P ax xs o = .error e) ↔ P.det = false ∧ 0 < o.numSamples ∧ o.rng = none := by
  unfold plot1d
  simp only [hm, PFn.plot, plotFunction, PFn.call, bind, Except.bind]
  cases hd : P.det
  · cases hs : P.std <;> cases hr : o.rng <;> by_cases hn : 0 < o.numSamples <;>
      simp [drawBand, drawSamples, hs, hr, hn, hm, PFn.call, firstColor, bind, Except.bind]
  · simp

/-- C80: the line of the mean runs through the points `(x, mean x)` at all the plotting positions, in the requested colour (the
next one of the cycle by default), with the label. -/
theorem plot1d_mean {P : Proc1} {f : ℝ → ℝ} (hm : P.mean = .fn f) {ax : Ax} {xs : List ℝ} {o : Opts} {d : Drawn}
    (h : plot1d P ax xs o = .ok d) :
    ∃ l, d.mean = [l] ∧ l.pts = xs.map (fun x => (x, f x)) ∧ l.color = o.color.getD (.cyc ax.cycle) ∧ l.label = o.label := by
  cases hd : P.det
  · obtain ⟨_, _, _, _, _, _, _, _, h⟩ := plot1d_steps hd hm h
    exact ⟨_, h, rfl, rfl, rfl⟩
  · unfold plot1d at h
    simp only [hm, PFn.plot, plotFunction, PFn.call, bind, Except.bind, zip_map_self, plot_color, hd, if_true] at h
    have := Except.ok.inj h
    subst this
    exact ⟨_, rfl, rfl, rfl, rfl⟩

/-- C80: a deterministic process is drawn as its mean alone. -/
theorem plot1d_det {P : Proc1} (hd : P.det = true) {ax : Ax} {xs : List ℝ} {o : Opts} {d : Drawn}
    (h : plot1d P ax xs o = .ok d) : d.band = none ∧ d.samples = [] := by
  unfold plot1d at h
  simp only [hd, if_true, bind, Except.bind] at h
  cases hr : P.mean.plot ax xs o.color o.label o.marks with
  | error e => rw [hr] at h; cases h
  | ok r => rw [hr] at h; exact (Except.ok.inj h) ▸ ⟨rfl, rfl⟩

/-- C80: the band of level `c ∈ (0, 1)` has, at every plotting position, two finite ends symmetric about the mean; the normal
distribution with the mean and the standard deviation of the process at that position puts probability exactly `c` between them.
Where the standard deviation vanishes the band is the point of the mean.  The band has the colour of the mean. -/
theorem plot1d_band {P : Proc1} {f σ : ℝ → ℝ} (hd : P.det = false) (hm : P.mean = .fn f) (hs : P.std = some σ) {ax : Ax}
    {xs : List ℝ} {o : Opts} (h0 : 0 < o.credInt) (h1 : o.credInt < 1) {d : Drawn} (h : plot1d P ax xs o = .ok d) :
    ∃ b, d.band = some b ∧ b ∈ d.ax.bands ∧ b.vertical = o.vertical ∧ b.color = o.color.getD (.cyc ax.cycle) ∧
      b.rows.length = xs.length ∧ ∀ (i : ℕ) (hi : i < xs.length), ∃ lo up : ℝ, b.rows[i]? = some (xs[i], .fin lo, .fin up) ∧
        f xs[i] - lo = up - f xs[i] ∧
        (0 < σ xs[i] → (gaussianReal (f xs[i]) (Real.toNNReal (σ xs[i] ^ 2))).real (Icc lo up) = o.credInt) ∧
        (σ xs[i] = 0 → lo = f xs[i] ∧ up = f xs[i]) := by
  obtain ⟨a, b, s, hb, hsam, hband, -, hax, hmean⟩ := plot1d_steps hd hm h
  rw [hmean] at hb
  simp only [drawBand, hs, hm, PFn.call, firstColor, bind, Except.bind, zip_map_self, List.map_map] at hb
  have hb' := Except.ok.inj hb
  refine ⟨_, by rw [hband, ← hb'], ?_, rfl, rfl, by simp, fun i hi => ?_⟩
  · rw [hax, drawSamples_bands hsam, ← hb']
    simp
  · refine ⟨f xs[i] - width o.credInt * σ xs[i], f xs[i] + width o.credInt * σ xs[i], ?_, by ring,
      fun hp => gaussian_width h0 h1 hp, fun hz => by simp [hz]⟩
    simp [hi, bandRow_fin (show -1 < o.credInt by linarith) h1]

/-- C80: a horizontal plot of level in `(0, 1)` draws the mean inside the band. -/
theorem plot1d_mean_in_band_partial {P : Proc1} {f σ : ℝ → ℝ} (hd : P.det = false) (hm : P.mean = .fn f) (hs : P.std = some σ)
    {ax : Ax} {xs : List ℝ} (hσ : ∀ x ∈ xs, 0 ≤ σ x) {o : Opts} (hv : o.vertical = false) (h0 : 0 < o.credInt)
    (h1 : o.credInt < 1) {d : Drawn} (h : plot1d P ax xs o = .ok d) :
    ∃ b, d.band = some b ∧ ∀ l ∈ d.mean, ∀ p ∈ l.pts, b.Contains p := by
  obtain ⟨a, b, s, hb, -, hband, -, -, hmean⟩ := plot1d_steps hd hm h
  rw [hmean] at hb
  simp only [drawBand, hs, hm, PFn.call, firstColor, bind, Except.bind, zip_map_self, List.map_map] at hb
  have hb' := Except.ok.inj hb
  refine ⟨_, by rw [hband, ← hb'], ?_⟩
  rw [hmean]
  simp only [List.mem_singleton, forall_eq, List.mem_map]
  rintro p ⟨x, hx, rfl⟩
  have := mul_nonneg (width_pos h0 h1).le (hσ x hx)
  refine ⟨x, f x - width o.credInt * σ x, f x + width o.credInt * σ x, ?_, ?_⟩
  · simp only [List.mem_map, Function.comp]
    exact ⟨x, hx, bandRow_fin (by linarith) h1 x (f x) (σ x)⟩
  · simp only [hv, Bool.false_eq_true, if_false, true_and]
    constructor <;> linarith

/-- C80 is violated: with `vertical=True` the band runs along the vertical axis and the mean still along the horizontal one, so the
mean leaves the band.  (The process with mean `1` and standard deviation `1` at the position `0`.) -/
theorem plot1d_vertical_violated :
    ∃ (P : Proc1) (ax : Ax) (xs : List ℝ) (o : Opts) (d : Drawn) (b : Band), P.det = false ∧ o.vertical = true ∧
      o.credInt = 0.95 ∧ plot1d P ax xs o = .ok d ∧ d.band = some b ∧ ∀ l ∈ d.mean, ∀ p ∈ l.pts, ¬b.Contains p := by
  let P : Proc1 := ⟨false, .fn fun _ => 1, some fun _ => 1, fun _ _ _ _ _ => 0⟩
  let o : Opts := { vertical := true }
  have hok : ∃ d, plot1d P ⟨0, [], []⟩ [0] o = .ok d := by
    cases h : plot1d P ⟨0, [], []⟩ [0] o with
    | ok d => exact ⟨d, rfl⟩
    | error e =>
      have := ((plot1d_error_iff (P := P) (f := fun _ => 1) rfl _ _ _).1 ⟨e, h⟩).2.1
      exact absurd this (lt_irrefl 0)
  obtain ⟨d, h⟩ := hok
  obtain ⟨b, hb, -, hv, -, hlen, hr⟩ := plot1d_band (P := P) (f := fun _ => 1) (σ := fun _ => 1) rfl rfl rfl
    (by norm_num [o]) (by norm_num [o]) h
  obtain ⟨l, hl, hp, -⟩ := plot1d_mean (P := P) (f := fun _ => 1) rfl h
  refine ⟨P, _, _, o, d, b, rfl, rfl, by norm_num [o], h, hb, ?_⟩
  rw [hl]
  simp only [List.mem_singleton, forall_eq, hp, List.map_cons, List.map_nil]
  rintro ⟨x, lo, up, hmem, hc⟩
  obtain ⟨lo', up', h0, -⟩ := hr 0 (by simp)
  rw [hv] at hc
  simp only [o, if_true] at hc
  have hrows : b.rows = [(0, .fin lo', .fin up')] := by
    match hb : b.rows, hlen, h0 with
    | [r], _, h0 => simpa using h0
  rw [hrows] at hmem
  simp only [List.mem_singleton, Prod.mk.injEq] at hmem
  rw [hmem.1] at hc
  exact one_ne_zero hc.1

lemma stdFactor_one : stdFactor 1 = .pinf := by
  unfold stdFactor ppf
  rw [if_neg (by norm_num), if_pos (by norm_num)]
  rfl

/-- C80 is violated for the level `1`: at a position of standard deviation zero both ends of the band are NaN, although the process
equals its mean there. -/
theorem plot1d_level_one_violated (x m : ℝ) : bandRow 1 x m 0 = (x, .nan, .nan) := by
  simp [bandRow, stdFactor_one, Num.mul, Num.neg, Num.addTo]

/-- C80: where the standard deviation is positive the band of level `1` is the whole line. -/
theorem plot1d_level_one (x m : ℝ) {s : ℝ} (hs : 0 < s) : bandRow 1 x m s = (x, .ninf, .pinf) := by
  simp [bandRow, stdFactor_one, Num.mul, Num.neg, Num.addTo, hs]

/-- C80: the samples are drawn as one line per sample through the sampled values at the plotting positions, with the coordinates
exchanged in a vertical plot, all in the colour of the mean. -/
theorem plot1d_samples {P : Proc1} {f : ℝ → ℝ} (hd : P.det = false) (hm : P.mean = .fn f) {ax : Ax} {xs : List ℝ} {o : Opts}
    {g : ℕ} (hg : o.rng = some g) {d : Drawn} (h : plot1d P ax xs o = .ok d) :
    d.samples.length = o.numSamples ∧ ∀ (j : Fin o.numSamples), ∃ l, d.samples[j.1]? = some l ∧
      l.color = o.color.getD (.cyc ax.cycle) ∧ l.label = none ∧ l.pts.length = xs.length ∧
      ∀ i : Fin xs.length, l.pts[i.1]? = some (if o.vertical then (P.sample g xs o.numSamples j i, xs.get i)
        else (xs.get i, P.sample g xs o.numSamples j i)) := by
  obtain ⟨a, b, s, -, hsam, -, hs, -, hmean⟩ := plot1d_steps hd hm h
  rw [hs]
  unfold drawSamples at hsam
  rw [hg, hmean] at hsam
  split_ifs at hsam with hn
  · simp only [firstColor, bind, Except.bind] at hsam
    rw [← Except.ok.inj hsam]
    unfold plotSamples
    simp only [plotMany_spec]
    refine ⟨by simp, fun j => ?_⟩
    rw [List.getElem?_map, List.getElem?_ofFn, dif_pos j.2, Option.map_some]
    refine ⟨_, rfl, rfl, rfl, by simp, fun i => ?_⟩
    cases o.vertical <;> simp
  · rw [← Except.ok.inj hsam]
    have : o.numSamples = 0 := by omega
    exact ⟨by simp [this], fun j => absurd j.2 (by omega)⟩

/-- A process with mean `x ↦ x`, standard deviation `x²` and constant samples, plotted at three points with two samples. -/
example : ∃ d b, plot1d ⟨false, .fn id, some fun x => x ^ 2, fun _ _ _ j _ => j.1⟩ ⟨0, [], []⟩ [0, 1, 2]
    { numSamples := 2, rng := some 7 } = .ok d ∧ d.band = some b ∧ d.samples.length = 2 := by
  cases h : plot1d ⟨false, .fn id, some fun x => x ^ 2, fun _ _ _ j _ => j.1⟩ ⟨0, [], []⟩ [0, 1, 2]
    { numSamples := 2, rng := some 7 } with
  | error e => exact absurd ((plot1d_error_iff (f := id) rfl _ _ _).1 ⟨e, h⟩).2.2 (by simp)
  | ok d =>
    obtain ⟨b, hb, -⟩ := plot1d_band (f := id) (σ := fun x => x ^ 2) rfl rfl rfl (by norm_num) (by norm_num) h
    exact ⟨d, b, rfl, hb, (plot1d_samples (f := id) rfl rfl rfl h).1⟩

/-! ## Piecewise linear functions -/

lemma plLoop_spec (label : Option String) (m : Option (ℕ × ℕ)) (c : Color) (k : ℕ) (hk : k ≠ 0)
    (ps : List (LinPDE.Piecewise.Piece × ℝ × ℝ)) (ax : Ax) (l : Line) (ls : List Line) (hl : l.color = c) :
    (plLoop label m k ps ax (some c) (l :: ls)).2 = l :: ls ++ ps.map fun q =>
      ⟨[(q.2.1, q.1.ev q.2.1), (q.2.2, q.1.ev q.2.2)], c, none, markevery 2 m⟩ := by
  induction ps generalizing ax ls k with
  | nil => simp [plLoop]
  | cons q ps ih =>
    obtain ⟨p, a, b⟩ := q
    simp only [plLoop, if_neg hk, List.cons_append, List.head?_cons, Option.map_some, hl]
    rw [ih (k + 1) (by omega)]
    simp [Ax.plot]

/-- C80: a piecewise linear interpolant of points is drawn as the polygon through the points: segment `i` joins point `i` and point
`i + 1`; all segments have one colour and only the first carries the label, whatever plotting positions are given. -/
theorem plot_fromPoints {xs ys : List ℝ} (hlen : ys.length = xs.length) (h2 : 2 ≤ xs.length) (hs : xs.Pairwise (· < ·)) {f : PW}
    (hf : fromPoints xs ys = .ok f) (ax : Ax) (pos : List ℝ) (color : Option Color) (label : Option String)
    (m : Option (ℕ × ℕ)) :
    ∃ r, (PFn.pl f).plot ax pos color label m = .ok r ∧ r.2.length + 1 = xs.length ∧
      ∀ i, i + 1 < xs.length → ∃ l, r.2[i]? = some l ∧
        l.pts = [(xs.getD i 0, ys.getD i 0), (xs.getD (i + 1) 0, ys.getD (i + 1) 0)] ∧
        l.color = color.getD (.cyc ax.cycle) ∧ l.label = if i = 0 then label else none := by
  obtain ⟨f', hf', hk, hx, ok, hev⟩ := LinPDE.Piecewise.fromPoints_spec hlen h2 hs
  have hff : f' = f := Except.ok.inj (hf'.symm.trans hf)
  subst hff
  have hfl := ok.len
  rw [hx] at hfl
  refine ⟨plotPiecewiseLinear f' ax color label m, by simp [PFn.plot, hk], ?_⟩
  set L := f'.fns.zip (f'.xs.dropLast.zip f'.xs.tail) with hL
  have hLlen : L.length + 1 = xs.length := by simp [hL, hx]; omega
  have hall : (plotPiecewiseLinear f' ax color label m).2 = L.mapIdx fun i q =>
      ⟨[(q.2.1, q.1.ev q.2.1), (q.2.2, q.1.ev q.2.2)], color.getD (.cyc ax.cycle), if i = 0 then label else none,
        markevery 2 m⟩ := by
    unfold plotPiecewiseLinear
    rw [← hL]
    cases hLc : L with
    | nil => rfl
    | cons q ps =>
      obtain ⟨p, a, b⟩ := q
      simp only [plLoop, if_true, List.nil_append, List.head?_cons, Option.map_some, plot_color]
      rw [plLoop_spec label m (color.getD (.cyc ax.cycle)) (0 + 1) (by simp) ps _ _ [] rfl, List.mapIdx_cons]
      refine List.ext_getElem? fun i => ?_
      cases i <;> simp
  rw [hall]
  refine ⟨by rw [List.length_mapIdx]; exact hLlen, fun i hi => ?_⟩
  have hiL : i < L.length := by omega
  refine ⟨_, by rw [List.getElem?_mapIdx, List.getElem?_eq_getElem hiL]; rfl, ?_, rfl, rfl⟩
  have hLi : L[i] = (f'.fns[i]'(by omega), xs.getD i 0, xs.getD (i + 1) 0) := by
    simp [hL, hx, List.getD_eq_getElem?_getD, hi, show i < xs.length by omega]
  have hlt : xs.getD i 0 < xs.getD (i + 1) 0 := LinPDE.Piecewise.getD_lt hs (by omega) hi
  have hne : xs.getD (i + 1) 0 - xs.getD i 0 ≠ 0 := by linarith
  simp only [hLi, hev]
  rw [div_mul_cancel₀ _ hne]
  simp

/-- The hypotheses of the last theorem: three points. -/
example : ∃ f, fromPoints [0, 1, 3] [2, 5, 4] = .ok f ∧
    ∃ r, (PFn.pl f).plot ⟨0, [], []⟩ [] none (some "f") none = .ok r ∧ r.2.length = 2 := by
  have hs : ([0, 1, 3] : List ℝ).Pairwise (· < ·) := by simp
  obtain ⟨f, hf, -⟩ := LinPDE.Piecewise.fromPoints_affine (xs := [0, 1, 3]) (ys := [2, 5, 4]) rfl (by simp) hs
  obtain ⟨r, hr, hl, -⟩ := plot_fromPoints (xs := [0, 1, 3]) (ys := [2, 5, 4]) rfl (by simp) hs hf ⟨0, [], []⟩ [] none (some "f") none
  exact ⟨f, hf, r, hr, by simpa using hl⟩

/-! ## Parts of a line above and below a surface -/

/-- The consecutive pairs of a list: the segments of a line. -/
def segs {α : Type} (l : List α) : List (α × α) := l.zip l.tail

/-- On the requested side of the surface; points of the surface count as above. -/
def OnSide (above : Bool) (q : ℝ × ℝ × ℝ) : Prop := if above then q.2.2 ≤ q.2.1 else q.2.1 < q.2.2

/-- The point of the line. -/
def linePt (q : ℝ × ℝ × ℝ) : ℝ × ℝ := (q.1, q.2.1)

lemma side_iff (above : Bool) (x yl ys : ℝ) :
    ((above = true ∧ ys ≤ yl) ∨ (above = false ∧ yl < ys)) ↔ OnSide above (x, yl, ys) := by
  cases above <;> simp [OnSide]

open Classical in
lemma chunkLoop_flatten (above : Bool) (pts : List (ℝ × ℝ × ℝ)) (done : List (List (ℝ × ℝ))) (cur : List (ℝ × ℝ)) :
    (chunkLoop above pts done cur).flatten = done.flatten ++ cur ++ (pts.filter fun q => OnSide above q).map linePt := by
  induction pts generalizing done cur with
  | nil => simp [chunkLoop]
  | cons q rest ih =>
    obtain ⟨x, yl, ys⟩ := q
    simp only [chunkLoop, side_iff above x yl ys]
    by_cases h : OnSide above (x, yl, ys)
    · simp [h, ih, linePt]
    · simp [h, ih]

lemma segs_append {α : Type} (l : List α) (p : α) :
    segs (l ++ [p]) = segs l ++ (match l.getLast? with | some a => [(a, p)] | none => []) := by
  induction l with
  | nil => rfl
  | cons a l ih =>
    cases l with
    | nil => rfl
    | cons b l =>
      have : segs (a :: b :: l ++ [p]) = (a, b) :: segs (b :: l ++ [p]) := rfl
      rw [this, ih]
      simp [segs, List.getLast?_cons_cons]

open Classical in
/-- The segments between neighbours on the requested side, given the last point of the current chunk. -/
noncomputable def link (above : Bool) : Option (ℝ × ℝ) → List (ℝ × ℝ × ℝ) → List ((ℝ × ℝ) × (ℝ × ℝ))
  | _, [] => []
  | prev, q :: rest =>
    if OnSide above q then (match prev with | some a => [(a, linePt q)] | none => []) ++ link above (some (linePt q)) rest
    else link above none rest

lemma chunkLoop_segs (above : Bool) (pts : List (ℝ × ℝ × ℝ)) (done : List (List (ℝ × ℝ))) (cur : List (ℝ × ℝ)) :
    (chunkLoop above pts done cur).flatMap segs = done.flatMap segs ++ segs cur ++ link above cur.getLast? pts := by
  induction pts generalizing done cur with
  | nil => simp [chunkLoop, link]
  | cons q rest ih =>
    obtain ⟨x, yl, ys⟩ := q
    simp only [chunkLoop, link]
    by_cases h : OnSide above (x, yl, ys)
    · rw [if_pos h, if_pos ((side_iff above x yl ys).2 h), ih, segs_append]
      rw [show (cur ++ [(x, yl)]).getLast? = some (x, yl) by simp]
      cases cur.getLast? <;> simp [linePt]
    · rw [if_neg h, if_neg (fun h' => h ((side_iff above x yl ys).1 h')), ih]
      simp [segs]

open Classical in
lemma link_eq (above : Bool) (a : ℝ × ℝ × ℝ) (rest : List (ℝ × ℝ × ℝ)) :
    link above (if OnSide above a then some (linePt a) else none) rest =
      ((segs (a :: rest)).filter fun s => OnSide above s.1 ∧ OnSide above s.2).map fun s => (linePt s.1, linePt s.2) := by
  induction rest generalizing a with
  | nil => simp [link, segs]
  | cons b rest ih =>
    have hs : segs (a :: b :: rest) = (a, b) :: segs (b :: rest) := rfl
    have ih' := ih b
    rw [hs]
    simp only [link]
    by_cases hb : OnSide above b
    · rw [if_pos hb] at ih'
      by_cases ha : OnSide above a
      · simp [ha, hb, ih']
      · simp [ha, hb, ih']
    · rw [if_neg hb] at ih'
      simp [hb, ih']

lemma flatMap_filter_pos {β : Type} (f : List (ℝ × ℝ) → List β) (hf : f [] = []) (l : List (List (ℝ × ℝ))) :
    (l.filter fun c => 0 < c.length).flatMap f = l.flatMap f := by
  induction l with
  | nil => rfl
  | cons a l ih =>
    cases a with
    | nil => simpa [hf] using ih
    | cons b a => simpa using ih

open Classical in
/-- C80: the points of the chunks are, in order, the points of the line on the requested side of the surface; every point is drawn
on exactly one side. -/
theorem lineChunks_points (above : Bool) (pts : List (ℝ × ℝ × ℝ)) :
    (lineChunks above pts).flatten = (pts.filter fun q => OnSide above q).map linePt ∧
      [] ∉ lineChunks above pts ∧ ∀ q, OnSide true q ↔ ¬OnSide false q := by
  refine ⟨?_, by simp [lineChunks], fun q => by simp [OnSide]⟩
  have h := flatMap_filter_pos id rfl (chunkLoop above pts [] [])
  simp only [List.flatMap_id] at h
  rw [lineChunks, h, chunkLoop_flatten]
  simp

open Classical in
/-- C80: the segments of the chunks are, in order, the segments of the line whose two ends are on the requested side. -/
theorem lineChunks_segments_partial (above : Bool) (pts : List (ℝ × ℝ × ℝ)) :
    (lineChunks above pts).flatMap segs =
      ((segs pts).filter fun s => OnSide above s.1 ∧ OnSide above s.2).map fun s => (linePt s.1, linePt s.2) := by
  rw [lineChunks, flatMap_filter_pos segs rfl, chunkLoop_segs]
  cases pts with
  | nil => simp [link, segs]
  | cons a rest =>
    rw [← link_eq]
    simp only [List.flatMap_nil, List.nil_append, List.getLast?_nil, link, segs, List.tail_nil, List.zip_nil_left]
    by_cases h : OnSide above a <;> simp [h]

/-- C80 is violated: a segment that crosses the surface is drawn neither above nor below it, so a sample path that crosses the mean
is drawn with gaps. -/
theorem lineChunks_crossing_violated (p q : ℝ × ℝ × ℝ) (hp : OnSide true p) (hq : OnSide false q) :
    (lineChunks true [p, q]).flatMap segs = [] ∧ (lineChunks false [p, q]).flatMap segs = [] := by
  have hp' : ¬OnSide false p := by
    simp only [OnSide, if_true] at hp
    simpa [OnSide] using hp
  have hq' : ¬OnSide true q := by
    simp only [OnSide, Bool.false_eq_true, if_false] at hq
    simpa [OnSide] using hq
  rw [lineChunks_segments_partial, lineChunks_segments_partial]
  simp [segs, hp', hq']

example : OnSide true (0, 1, 0) ∧ OnSide false (1, -1, 0) := by simp [OnSide]

end LinPDE.Plot
