import Verif.Plot.Props

/-!
# C80: slices through processes on the plane
-/

namespace LinPDE.Plot
open ProbabilityTheory MeasureTheory Set

lemma foldl_min_le (l : List ℝ) (a : ℝ) : l.foldl min a ≤ a ∧ ∀ z ∈ l, l.foldl min a ≤ z := by
  induction l generalizing a with
  | nil => simp
  | cons b l ih =>
    obtain ⟨h1, h2⟩ := ih (min a b)
    refine ⟨h1.trans (min_le_left _ _), fun z hz => ?_⟩
    rcases List.mem_cons.1 hz with rfl | hz
    · exact h1.trans (min_le_right _ _)
    · exact h2 z hz

lemma le_foldl_max (l : List ℝ) (a : ℝ) : a ≤ l.foldl max a ∧ ∀ z ∈ l, z ≤ l.foldl max a := by
  induction l generalizing a with
  | nil => simp
  | cons b l ih =>
    obtain ⟨h1, h2⟩ := ih (max a b)
    refine ⟨(le_max_left _ _).trans h1, fun z hz => ?_⟩
    rcases List.mem_cons.1 hz with rfl | hz
    · exact (le_max_right _ _).trans h1
    · exact h2 z hz

lemma npMinMax_spec {l : List ℝ} (h : l ≠ []) : ∃ m, npMinMax l = .ok m ∧ ∀ z ∈ l, m.1 ≤ z ∧ z ≤ m.2 := by
  cases l with
  | nil => exact absurd rfl h
  | cons a l =>
    refine ⟨_, rfl, fun z hz => ?_⟩
    rcases List.mem_cons.1 hz with rfl | hz
    · exact ⟨(foldl_min_le l z).1, (le_foldl_max l z).1⟩
    · exact ⟨(foldl_min_le l a).2 z hz, (le_foldl_max l a).2 z hz⟩

/-- The point with coordinate `s` along the slice, which is at `t`. -/
def slicePt (axis : Axis) (t s : ℝ) : ℝ × ℝ := if axis = .x then (s, t) else (t, s)

/-- `slice_xs` of a slice along `axis`. -/
def sliceX (axis : Axis) (t : ℝ) (l : List ℝ) : A1 ℝ := if axis = .x then .vec l else .scalar t

/-- `slice_ys` of a slice along `axis`. -/
def sliceY (axis : Axis) (t : ℝ) (l : List ℝ) : A1 ℝ := if axis = .x then .scalar t else .vec l

/-- The direction orthogonal to the slice. -/
def orth (axis : Axis) : Axis := if axis = .x then .y else .x

lemma stack2_slice (axis : Axis) (t : ℝ) (l : List ℝ) :
    stack2 (sliceX axis t l) (sliceY axis t l) = .ok (.vec (l.map (slicePt axis t))) := by
  unfold sliceX sliceY
  by_cases h : axis = .x
  · simp only [h, if_true, stack2]
    congr
  · simp only [h, if_false, stack2]
    congr 3
    funext s
    simp [slicePt, h]

lemma fill_slice (ax : Ax3) {axis : Axis} (ha : axis ≠ .other) (t : ℝ) (l z1 z2 : List ℝ) (h1 : z1.length = l.length)
    (h2 : z2.length = l.length) (c : Color) :
    fillBetween3d ax (sliceX axis t l) (sliceY axis t l) (.vec z1) (.vec z2) axis c =
      .ok ({ ax with polys := ax.polys ++ [⟨l.zip z2 ++ (l.zip z1).reverse, .scalar t, orth axis, c⟩] },
        ⟨l.zip z2 ++ (l.zip z1).reverse, .scalar t, orth axis, c⟩) := by
  unfold fillBetween3d
  rw [if_neg ha]
  have : (if axis = .x then sliceX axis t l else sliceY axis t l) = .vec l := by
    unfold sliceX sliceY
    split_ifs <;> rfl
  have h' : (if axis = .x then sliceY axis t l else sliceX axis t l) = .scalar t := by
    unfold sliceX sliceY
    split_ifs <;> rfl
  simp only [this, h', stack2, h1, h2, if_true, needVec, bind, Except.bind, orth]

lemma sampleLoop_spec (o : Opts3) (t : ℝ) (l m : List ℝ) (ss : List (List ℝ)) (ax : Ax3) :
    sampleLoop o (sliceX o.axis t l) (sliceY o.axis t l) (.vec m) ss ax = .ok { ax with lines := ax.lines ++ ss.flatMap fun s =>
      [⟨lineChunks false (l.zip (s.zip m)), .scalar t, orth o.axis, false⟩,
        ⟨lineChunks true (l.zip (s.zip m)), .scalar t, orth o.axis, true⟩] } := by
  have h1 : (if o.axis = .x then sliceX o.axis t l else sliceY o.axis t l) = .vec l := by
    unfold sliceX sliceY
    split_ifs <;> rfl
  have h2 : (if o.axis = .x then sliceY o.axis t l else sliceX o.axis t l) = .scalar t := by
    unfold sliceX sliceY
    split_ifs <;> rfl
  induction ss generalizing ax with
  | nil => simp [sampleLoop]
  | cons s ss ih =>
    simp only [sampleLoop, h1, h2, zip3, bind, Except.bind]
    rw [ih]
    simp [plotLineZ, orth]

/-- C80: a slice along an axis at `t` of level `c ∈ (0, 1)` is drawn as two polygons at `t`: between the lower end of the credible
interval and the mean, and between the mean and the upper end; at every position where the standard deviation is positive the normal
distribution of the process puts probability `c` between the two ends.  Every sample is drawn as its parts below and above the mean.
With `slice_color` two more polygons fill the slice down to and up to the limits of the vertical axis.  The limits enclose the
surface, the interval and the samples.  Missing: a slice along the second axis with
`slice_color` (`slice_color_violated`). -/
theorem plot2d_slice_partial (P : Proc2) (ax : Ax3) {xy : List (ℝ × ℝ)} (hxy : xy ≠ []) {o : Opts3} {t : ℝ} {l : List ℝ}
    (hl : l ≠ []) (ha : o.axis ≠ .other) (hX : o.xs = some (sliceX o.axis t l)) (hY : o.ys = some (sliceY o.axis t l))
    (h0 : 0 < o.credInt) (h1 : o.credInt < 1) (hc : o.color = none ∨ o.axis = .x) (hpad : 0 ≤ o.padding)
    (hrng : 0 < o.numSamples → ∃ g, o.rng = some g ∧ (P.sample g o.numSamples (l.map (slicePt o.axis t))).flatten ≠ []) :
    ∃ (r : Ax3) (lo up : ℝ → ℝ) (p₁ p₂ : Poly3) (rest : List Poly3) (z : ℝ × ℝ), plot2d P ax xy o = .ok r ∧
      r.surfs = ax.surfs ++ [xy.map fun q => (q, P.mean q)] ∧ r.polys = ax.polys ++ [p₁, p₂] ++ rest ∧
      r.zlim = some z ∧
      p₁.color = p₂.color ∧
      (∀ p ∈ [p₁, p₂] ++ rest, p.zs = .scalar t ∧ p.zdir = orth o.axis) ∧
      (o.color = none → rest = []) ∧
      (∀ c, o.color = some c → ∃ p₃ p₄ : Poly3, rest = [p₃, p₄] ∧ p₃.color = c ∧ p₄.color = c ∧
        p₃.verts = l.map (fun s => (s, lo s)) ++ (l.map fun s => (s, z.1)).reverse ∧
        p₄.verts = l.map (fun s => (s, z.2)) ++ (l.map fun s => (s, up s)).reverse) ∧
      p₁.verts = l.map (fun s => (s, P.mean (slicePt o.axis t s))) ++ (l.map fun s => (s, lo s)).reverse ∧
      p₂.verts = l.map (fun s => (s, up s)) ++ (l.map fun s => (s, P.mean (slicePt o.axis t s))).reverse ∧
      (∀ s, P.mean (slicePt o.axis t s) - lo s = up s - P.mean (slicePt o.axis t s)) ∧
      (∀ s, 0 < P.std (slicePt o.axis t s) → (gaussianReal (P.mean (slicePt o.axis t s))
        (Real.toNNReal (P.std (slicePt o.axis t s) ^ 2))).real (Icc (lo s) (up s)) = o.credInt) ∧
      (∀ q ∈ xy, z.1 ≤ P.mean q ∧ P.mean q ≤ z.2) ∧ (∀ s ∈ l, z.1 ≤ lo s ∧ up s ≤ z.2) ∧
      ∃ ss : List (List ℝ), (∀ s ∈ ss, ∀ v ∈ s, z.1 ≤ v ∧ v ≤ z.2) ∧
        (o.numSamples = 0 → ss = []) ∧
        (∀ g, 0 < o.numSamples → o.rng = some g → ss = P.sample g o.numSamples (l.map (slicePt o.axis t))) ∧
        r.lines = ax.lines ++ ss.flatMap fun s =>
          [⟨lineChunks false (l.zip (s.zip (l.map fun s => P.mean (slicePt o.axis t s)))), .scalar t, orth o.axis, false⟩,
            ⟨lineChunks true (l.zip (s.zip (l.map fun s => P.mean (slicePt o.axis t s)))), .scalar t, orth o.axis, true⟩] := by
  set pt := slicePt o.axis t with hpt
  set k := width o.credInt with hk
  have hkp : 0 < k := width_pos h0 h1
  have hfac : stdFactor o.credInt = .fin k := stdFactor_fin (by linarith) h1
  let lo : ℝ → ℝ := fun s => P.mean (pt s) - k * P.std (pt s)
  let up : ℝ → ℝ := fun s => P.mean (pt s) + k * P.std (pt s)
  obtain ⟨z0, hz0, hz0'⟩ := npMinMax_spec (l := xy.map P.mean) (by simpa using hxy)
  obtain ⟨a, hma, hma'⟩ := npMinMax_spec (l := l.map lo) (by simpa using hl)
  obtain ⟨b, hmb, hmb'⟩ := npMinMax_spec (l := l.map up) (by simpa using hl)
  have zipm : ∀ f : ℝ → ℝ, l.zip (l.map f) = l.map fun s => (s, f s) := fun f => zip_map_self f l
  let mid : List ℝ := l.map fun s => P.mean (pt s)
  have hslice : ∀ (A : Ax3) (c : Color), drawSlice P A o (sliceX o.axis t l) (sliceY o.axis t l) (.vec (l.map pt)) c z0 =
      .ok ({ A with polys := A.polys ++
        [⟨l.map (fun s => (s, P.mean (pt s))) ++ (l.map fun s => (s, lo s)).reverse, .scalar t, orth o.axis, c⟩,
          ⟨l.map (fun s => (s, up s)) ++ (l.map fun s => (s, P.mean (pt s))).reverse, .scalar t, orth o.axis, c⟩] },
        .vec (l.map lo), .vec (l.map up), (min z0.1 a.1, max z0.2 b.2)) := by
    intro A c
    unfold drawSlice
    rw [hfac]
    simp only [if_pos hkp, A1.map, List.map_map]
    rw [fill_slice A ha t l _ _ (by simp) (by simp) c]
    simp only [bind, Except.bind]
    rw [fill_slice _ ha t l _ _ (by simp) (by simp) c]
    have e1 : ((fun q => P.mean q - k * P.std q) ∘ pt) = lo := rfl
    have e2 : ((fun q => P.mean q + k * P.std q) ∘ pt) = up := rfl
    simp only [A1.toList, e1, e2, hma, hmb, zipm, Function.comp]
    simp
  have hin : ∀ z : ℝ × ℝ, z.1 ≤ z0.1 ∧ z.1 ≤ a.1 ∧ z0.2 ≤ z.2 ∧ b.2 ≤ z.2 →
      (∀ q ∈ xy, z.1 ≤ P.mean q ∧ P.mean q ≤ z.2) ∧ (∀ s ∈ l, z.1 ≤ lo s ∧ up s ≤ z.2) := by
    rintro z ⟨q1, q2, q3, q4⟩
    refine ⟨fun q hq => ?_, fun s hs => ?_⟩
    · have := hz0' _ (List.mem_map_of_mem hq)
      exact ⟨q1.trans this.1, this.2.trans q3⟩
    · have h1 := hma' _ (List.mem_map_of_mem (f := lo) hs)
      have h2 := hmb' _ (List.mem_map_of_mem (f := up) hs)
      exact ⟨q2.trans h1.1, h2.2.trans q4⟩
  have hmass : ∀ s, 0 < P.std (pt s) →
      (gaussianReal (P.mean (pt s)) (Real.toNNReal (P.std (pt s) ^ 2))).real (Icc (lo s) (up s)) = o.credInt :=
    fun s hs => gaussian_width h0 h1 hs
  have hcc : ∀ A : Ax3, (credColor A o).1.polys = A.polys ∧ (credColor A o).1.surfs = A.surfs ∧
      (credColor A o).1.lines = A.lines := by
    intro A
    unfold credColor
    cases o.credColor <;> simp
  let C : Color := (credColor { ax with surfs := ax.surfs ++ [xy.map fun q => (q, P.mean q)] } o).2
  let p₁ : Poly3 := ⟨l.map (fun s => (s, P.mean (pt s))) ++ (l.map fun s => (s, lo s)).reverse, .scalar t, orth o.axis, C⟩
  let p₂ : Poly3 := ⟨l.map (fun s => (s, up s)) ++ (l.map fun s => (s, P.mean (pt s))).reverse, .scalar t, orth o.axis, C⟩
  -- the rest of the slice, for any axes and range
  have hrest : ∀ (A : Ax3) (zz : ℝ × ℝ), ∃ (rest : List Poly3) (z : ℝ × ℝ),
      drawRest A o (sliceX o.axis t l) (sliceY o.axis t l) (.vec (l.map lo)) (.vec (l.map up)) zz =
        .ok ({ A with polys := A.polys ++ rest }, z) ∧ z.1 ≤ zz.1 ∧ zz.2 ≤ z.2 ∧
      (∀ p ∈ rest, p.zs = .scalar t ∧ p.zdir = orth o.axis) ∧ (o.color = none → rest = []) ∧
      (∀ c, o.color = some c → ∃ p₃ p₄ : Poly3, rest = [p₃, p₄] ∧ p₃.color = c ∧ p₄.color = c ∧
        p₃.verts = l.map (fun s => (s, lo s)) ++ (l.map fun s => (s, z.1)).reverse ∧
        p₄.verts = l.map (fun s => (s, z.2)) ++ (l.map fun s => (s, up s)).reverse) := by
    intro A zz
    cases hcol : o.color with
    | none => exact ⟨[], zz, by simp [drawRest, hcol], le_rfl, le_rfl, by simp, fun _ => rfl, fun c h => by cases h⟩
    | some c =>
      have hx : o.axis = .x := by
        rcases hc with h | h
        · rw [h] at hcol; cases hcol
        · exact h
      refine ⟨[⟨l.map (fun s => (s, lo s)) ++ (l.map fun s => (s, zz.1 - o.padding)).reverse, .scalar t, .y, c⟩,
        ⟨l.map (fun s => (s, zz.2 + o.padding)) ++ (l.map fun s => (s, up s)).reverse, .scalar t, .y, c⟩],
        (zz.1 - o.padding, zz.2 + o.padding), ?_, by simpa using hpad, by simpa using hpad, by simp [orth, hx],
        (fun h => by cases h), (fun c' h => ?_)⟩
      · simp [drawRest, hcol, fillBetween3d, sliceX, sliceY, hx, stack2, needVec, bind, Except.bind, zipm]
      · cases h
        exact ⟨_, _, rfl, rfl, rfl, rfl, rfl⟩
  unfold plot2d
  simp only [hz0, hX, hY, bind, Except.bind, stack2_slice, ← hpt, hslice]
  by_cases hn : 0 < o.numSamples
  · obtain ⟨g, hg, hne⟩ := hrng hn
    obtain ⟨m, hm, hm'⟩ := npMinMax_spec hne
    simp only [drawSamples3, if_pos hn, hg, bind, Except.bind, A1.map, sampleLoop_spec, A1.toList, hm]
    generalize hA : (Ax3.mk _ _ _ _ _) = A
    obtain ⟨rest, z, hz, hz1, hz2, r1, r2, r3⟩ := hrest A (min (min z0.1 a.1) m.1, max (max z0.2 b.2) m.2)
    simp only [hz]
    have hz1' := hz1.trans (min_le_left _ _)
    have hz2' := (le_max_left _ _).trans hz2
    have hb : z.1 ≤ z0.1 ∧ z.1 ≤ a.1 ∧ z0.2 ≤ z.2 ∧ b.2 ≤ z.2 :=
      ⟨hz1'.trans (min_le_left _ _), hz1'.trans (min_le_right _ _), (le_max_left _ _).trans hz2', (le_max_right _ _).trans hz2'⟩
    refine ⟨_, lo, up, p₁, p₂, rest, z, rfl, ?_, ?_, rfl, rfl, ?_, r2, r3, rfl, rfl, fun s => by simp only [lo, up]; ring,
      hmass, (hin _ hb).1, (hin _ hb).2, P.sample g o.numSamples (l.map pt), fun s hs v hv => ?_, fun h => absurd hn (by omega),
      fun g' _ hg' => by rw [Option.some.inj hg'], ?_⟩
    · simp [← hA, hcc]
    · simp [← hA, hcc, p₁, p₂, C]
    · intro p hp
      rcases List.mem_append.1 hp with hp | hp
      · rcases List.mem_cons.1 hp with rfl | hp
        · exact ⟨rfl, rfl⟩
        · rw [List.mem_singleton.1 hp]
          exact ⟨rfl, rfl⟩
      · exact r1 p hp
    · have := hm' v (List.mem_flatten.2 ⟨s, hs, hv⟩)
      exact ⟨hz1.trans ((min_le_right _ _).trans this.1), (this.2.trans (le_max_right _ _)).trans hz2⟩
    · simp [← hA, hcc, List.map_map, Function.comp_def]
  · simp only [drawSamples3, if_neg hn]
    generalize hA : (Ax3.mk _ _ _ _ _) = A
    obtain ⟨rest, z, hz, hz1, hz2, r1, r2, r3⟩ := hrest A (min z0.1 a.1, max z0.2 b.2)
    simp only [hz]
    have hb : z.1 ≤ z0.1 ∧ z.1 ≤ a.1 ∧ z0.2 ≤ z.2 ∧ b.2 ≤ z.2 :=
      ⟨hz1.trans (min_le_left _ _), hz1.trans (min_le_right _ _), (le_max_left _ _).trans hz2, (le_max_right _ _).trans hz2⟩
    refine ⟨_, lo, up, p₁, p₂, rest, z, rfl, ?_, ?_, rfl, rfl, ?_, r2, r3, rfl, rfl, fun s => by simp only [lo, up]; ring,
      hmass, (hin _ hb).1, (hin _ hb).2, [], by simp, fun _ => rfl, fun g h => absurd h hn, ?_⟩
    · simp [← hA, hcc]
    · simp [← hA, hcc, p₁, p₂, C]
    · intro p hp
      rcases List.mem_append.1 hp with hp | hp
      · rcases List.mem_cons.1 hp with rfl | hp
        · exact ⟨rfl, rfl⟩
        · rw [List.mem_singleton.1 hp]
          exact ⟨rfl, rfl⟩
      · exact r1 p hp
    · simp [← hA, hcc]

/-- A slice along the first axis at `1`, with a colour and one sample. -/
def exampleSlice : Opts3 where
  xs := some (.vec [0, 1])
  ys := some (.scalar 1)
  color := some (.named "grey")
  numSamples := 1
  rng := some 0

/-- The slice above of a process with mean `x + y` and standard deviation `1`. -/
example : ∃ r p, plot2d ⟨fun q => q.1 + q.2, fun _ => 1, fun _ n l => List.replicate n (l.map fun _ => 3)⟩ ⟨0, [], [], [], none⟩
    [(0, 0), (1, 1)] exampleSlice = .ok r ∧ r.polys.length = 4 ∧ p ∈ r.lines := by
  obtain ⟨r, lo, up, p₁, p₂, rest, z, h, -, hp, -, -, -, -, hr, -, -, -, -, -, -, ss, -, -, hss, hln⟩ :=
    plot2d_slice_partial (o := exampleSlice) ⟨fun q => q.1 + q.2, fun _ => 1, fun _ n l => List.replicate n (l.map fun _ => 3)⟩
      ⟨0, [], [], [], none⟩ (xy := [(0, 0), (1, 1)]) (by simp) (t := 1) (l := [0, 1]) (by simp) (by simp [exampleSlice])
      (by simp [exampleSlice, sliceX]) (by simp [exampleSlice, sliceY]) (by norm_num [exampleSlice]) (by norm_num [exampleSlice])
      (by simp [exampleSlice]) (by simp [exampleSlice]) (fun _ => ⟨0, rfl, by simp [exampleSlice]⟩)
  obtain ⟨p₃, p₄, hr', -⟩ := hr _ rfl
  have hss' := hss 0 (by simp [exampleSlice]) rfl
  simp only [exampleSlice, List.replicate_one, List.map_cons, List.map_nil] at hss'
  rw [hss'] at hln
  simp only [List.flatMap_cons, List.flatMap_nil, List.nil_append, List.append_nil] at hln
  exact ⟨r, _, h, by rw [hp, hr']; rfl, by rw [hln]; exact List.mem_cons_self⟩

/-- C80 is violated: a slice along the second axis with `slice_color` always raises `AxisError` once the interval and the samples
are drawn, because the remaining part of the slice is drawn along the first axis, where the slice has a single coordinate. -/
theorem slice_color_violated (ax : Ax3) (o : Opts3) {c : Color} (hc : o.color = some c) (t : ℝ) (l lower upper : List ℝ)
    (z : ℝ × ℝ) : drawRest ax o (sliceX .y t l) (sliceY .y t l) (.vec lower) (.vec upper) z = .error .axisError := by
  simp [drawRest, hc, fillBetween3d, sliceX, stack2, needVec, bind, Except.bind]

/-- C80 is violated: no slice along the second axis of level in `(0, 1)` without samples can be drawn with `slice_color`. -/
theorem plot2d_slice_color_violated (P : Proc2) (ax : Ax3) {xy : List (ℝ × ℝ)} (hxy : xy ≠ []) {o : Opts3} {t : ℝ} {l : List ℝ}
    (hl : l ≠ []) (ha : o.axis = .y) (hX : o.xs = some (.scalar t)) (hY : o.ys = some (.vec l)) (h0 : 0 < o.credInt)
    (h1 : o.credInt < 1) {c : Color} (hc : o.color = some c) (hn : o.numSamples = 0) :
    plot2d P ax xy o = .error .axisError := by
  obtain ⟨z0, hz0, -⟩ := npMinMax_spec (l := xy.map P.mean) (by simpa using hxy)
  have hfac : stdFactor o.credInt = .fin (width o.credInt) := stdFactor_fin (by linarith) h1
  have hst : stack2 (sliceX .y t l) (sliceY .y t l) = _ := stack2_slice .y t l
  simp only [sliceX, sliceY, reduceCtorEq, if_false] at hst
  obtain ⟨a, hma, -⟩ := npMinMax_spec (l := (l.map (slicePt .y t)).map fun q => P.mean q - width o.credInt * P.std q)
    (by simpa using hl)
  obtain ⟨b, hmb, -⟩ := npMinMax_spec (l := (l.map (slicePt .y t)).map fun q => P.mean q + width o.credInt * P.std q)
    (by simpa using hl)
  have hf : ∀ (A : Ax3) (z1 z2 : List ℝ) (c : Color), z1.length = l.length → z2.length = l.length → _ :=
    fun A z1 z2 c h1 h2 => fill_slice A (axis := .y) (by simp) t l z1 z2 h1 h2 c
  simp only [sliceX, sliceY, reduceCtorEq, if_false] at hf
  unfold plot2d
  simp only [hz0, hX, hY, bind, Except.bind, hst]
  unfold drawSlice
  rw [hfac]
  simp only [if_pos (width_pos h0 h1), A1.map, ha]
  rw [hf _ _ _ _ (by simp) (by simp)]
  simp only [bind, Except.bind]
  rw [hf _ _ _ _ (by simp) (by simp)]
  simp only [A1.toList, hma, hmb, drawSamples3, hn, lt_irrefl, if_false]
  have := slice_color_violated (o := o) (hc := hc)
  simp only [sliceX, sliceY, reduceCtorEq, if_false] at this
  rw [this]

/-- C80: without both coordinates of a slice only the surface is drawn. -/
theorem plot2d_surface (P : Proc2) (ax : Ax3) {xy : List (ℝ × ℝ)} (hxy : xy ≠ []) {o : Opts3} (h : o.xs = none ∨ o.ys = none) :
    plot2d P ax xy o = .ok { ax with surfs := ax.surfs ++ [xy.map fun q => (q, P.mean q)] } := by
  obtain ⟨z0, hz0, -⟩ := npMinMax_spec (l := xy.map P.mean) (by simpa using hxy)
  unfold plot2d
  simp only [hz0, bind, Except.bind]
  rcases h with h | h
  · rw [h]
  · rw [h]
    cases o.xs <;> rfl

lemma map_ok {ε α β : Type} (x : Except ε α) (f : α → β) (d : β) : x.map f = .ok d ↔ ∃ a, x = .ok a ∧ d = f a := by
  cases x <;> simp [Except.map, eq_comm]

/-- C80: `plot_random_process` draws processes on the line and on the plane and refuses all others. -/
theorem plot_dispatch (ax : Ax) (ax3 : Ax3) (xs : List ℝ) (xy : List (ℝ × ℝ)) (o : Opts) (o3 : Opts3) :
    (∀ P d, plotRandomProcess (.one P) ax ax3 xs xy o o3 = .ok d ↔ ∃ d', plot1d P ax xs o = .ok d' ∧ d = .inl d') ∧
    (∀ P d, plotRandomProcess (.two P) ax ax3 xs xy o o3 = .ok d ↔ ∃ d', plot2d P ax3 xy o3 = .ok d' ∧ d = .inr d') ∧
    ∀ s, plotRandomProcess (.shape s) ax ax3 xs xy o o3 = .error .typeError := by
  refine ⟨fun P d => ?_, fun P d => ?_, fun s => rfl⟩
  · exact map_ok _ _ _
  · exact map_ok _ _ _

/-- A process on the plane is drawn as its surface. -/
example (P : Proc2) (ax : Ax) (ax3 : Ax3) : ∃ d, plotRandomProcess (.two P) ax ax3 [] [(0, 1)] {} {} = .ok (.inr d) ∧
    d.surfs = ax3.surfs ++ [[((0, 1), P.mean (0, 1))]] :=
  ⟨_, ((plot_dispatch ax ax3 [] [(0, 1)] {} {}).2.1 P _).2 ⟨_, plot2d_surface P ax3 (by simp) (Or.inl rfl), rfl⟩, rfl⟩

end LinPDE.Plot
