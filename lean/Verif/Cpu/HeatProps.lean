import Verif.Cpu.Model
import Verif.Piecewise.Interp

/-! # C72: the heat distributions of `cpu.py` -/

namespace LinPDE.Cpu
open LinPDE.Piecewise MeasureTheory Set
open LinPDE.Pde (val)

/-- The cores lie inside of the die, with room for the flanks of the heat distribution. -/
structure Chip.Ok (c : Chip) : Prop where
  width : 0 < c.width
  height : 0 < c.height
  depth : 0 < c.depth
  coreWidth : 0 < c.coreWidth
  coreHeight : 0 < c.coreHeight
  dist : 0 < c.dist
  left : c.dist / 3 < c.offset
  right : c.offset + (c.coreWidth + c.dist) * c.nx - c.dist + c.dist / 3 < c.width
  gap : 2 * c.coreHeight < c.height
  kappa : 0 < c.kappa

/-- The chip of the script satisfies the assumptions. -/
theorem coffeeLake_ok : coffeeLake.Ok := by
  constructor <;> norm_num [coffeeLake]

variable {c : Chip}

/-! ## The points -/

/-- Cores one after the other between `a` and `w`. -/
def Sep (cw eps : ℝ) : ℝ → List (ℝ × ℝ) → ℝ → Prop
  | a, [], w => a < w
  | a, t :: L, w => a < t.1 - cw / 2 - eps ∧ Sep cw eps (t.1 + cw / 2 + eps) L w

lemma sep_range (h : c.Ok) (n s : ℕ) (rel : List ℝ) (a : ℝ) (ha : a < c.offset + (c.coreWidth + c.dist) * s - c.dist / 3)
    (haw : a < c.width) (hw : c.offset + (c.coreWidth + c.dist) * (s + n : ℕ) - c.dist + c.dist / 3 < c.width) :
    Sep c.coreWidth (c.dist / 3) a (((List.range' s n).map fun i : ℕ =>
      c.offset + (c.coreWidth + c.dist) * (i : ℝ) + c.coreWidth / 2).zip rel) c.width := by
  have h1 := h.coreWidth
  have h2 := h.dist
  induction n generalizing s rel a with
  | zero => simpa [Sep] using haw
  | succ n ih =>
    cases rel with
    | nil => simpa [Sep] using haw
    | cons r rel =>
      rw [List.range'_succ, List.map_cons, List.zip_cons_cons]
      refine ⟨by linarith, ih (s + 1) rel _ ?_ ?_ ?_⟩
      · push_cast; linarith
      · have : (0 : ℝ) ≤ (c.coreWidth + c.dist) * n := by positivity
        push_cast at hw
        linarith
      · rw [show s + 1 + n = s + (n + 1) by omega]; exact hw

lemma sep_centers (h : c.Ok) (rel : List ℝ) : Sep c.coreWidth (c.dist / 3) 0 (c.centersX.zip rel) c.width := by
  have := sep_range h c.nx 0 rel 0 (by simpa using h.left) h.width (by simpa using h.right)
  rwa [← List.range_eq_range'] at this

lemma sep_sorted {eps : ℝ} (hcw : 0 < c.coreWidth) (he : 0 < eps) (L : List (ℝ × ℝ)) {a w : ℝ}
    (h : Sep c.coreWidth eps a L w) :
    (((a, (0 : ℝ)) :: (L.flatMap (c.coreKnots eps)) ++ [(w, 0)]).map Prod.fst).Pairwise (· < ·) := by
  rw [← List.isChain_iff_pairwise]
  induction L generalizing a with
  | nil =>
    have : a < w := h
    simp [this]
  | cons t L ih =>
    have := ih h.2
    simp only [List.flatMap_cons, Chip.coreKnots, List.cons_append, List.nil_append, List.map_cons, List.isChain_cons_cons]
      at this ⊢
    exact ⟨h.1, by linarith, by linarith, by linarith, this⟩

lemma area_flat (eps : ℝ) (L : List (ℝ × ℝ)) (a w : ℝ) :
    area ((a, (0 : ℝ)) :: (L.flatMap (c.coreKnots eps)) ++ [(w, 0)]) = (c.coreWidth + eps) * (L.map Prod.snd).sum := by
  induction L generalizing a with
  | nil => simp [area]
  | cons t L ih =>
    have := ih (t.1 + c.coreWidth / 2 + eps)
    simp only [List.flatMap_cons, Chip.coreKnots, List.cons_append, List.nil_append, List.map_cons, area, List.sum_cons]
      at this ⊢
    rw [this]; ring

lemma map_snd_zip (l m : List ℝ) : (l.zip m).map Prod.snd = m.take l.length := by
  induction l generalizing m with
  | nil => simp
  | cons a l ih => cases m <;> simp [ih]

lemma sum_zip (rel : List ℝ) : ((c.centersX.zip rel).map Prod.snd).sum = (rel.take c.nx).sum := by
  rw [map_snd_zip]
  simp [Chip.centersX]

/-- Neighbouring points lie on the base line or belong to the same core. -/
def Near (cw eps : ℝ) (L : List (ℝ × ℝ)) (p q : ℝ × ℝ) : Prop :=
  p.2 = 0 ∧ q.2 = 0 ∨ ∃ t ∈ L, t.1 - cw / 2 - eps ≤ p.1 ∧ q.1 ≤ t.1 + cw / 2 + eps

lemma near_flat {eps : ℝ} (hcw : 0 < c.coreWidth) (he : 0 < eps) (L0 L : List (ℝ × ℝ)) (hL : ∀ t ∈ L, t ∈ L0) (a w : ℝ) :
    ((a, (0 : ℝ)) :: (L.flatMap (c.coreKnots eps)) ++ [(w, 0)]).IsChain (Near c.coreWidth eps L0) := by
  induction L generalizing a with
  | nil => simp [Near]
  | cons t L ih =>
    have := ih (fun t ht => hL t (by simp [ht])) (t.1 + c.coreWidth / 2 + eps)
    have ht := hL t (by simp)
    simp only [List.flatMap_cons, Chip.coreKnots, List.cons_append, List.nil_append, List.isChain_cons_cons] at this ⊢
    exact ⟨Or.inl ⟨rfl, rfl⟩, Or.inr ⟨t, ht, by dsimp only; linarith, by dsimp only; linarith⟩,
      Or.inr ⟨t, ht, by dsimp only; linarith, by dsimp only; linarith⟩,
      Or.inr ⟨t, ht, by dsimp only; linarith, by dsimp only; linarith⟩, this⟩

/-! ## Values -/

lemma line_nonneg {p q : ℝ × ℝ} (hp : 0 ≤ p.2) (hq : 0 ≤ q.2) (hpq : p.1 < q.1) {x : ℝ} (h0 : p.1 ≤ x) (h1 : x ≤ q.1) :
    0 ≤ line p q x := by
  have hd : 0 < q.1 - p.1 := by linarith
  have : line p q x = (p.2 * (q.1 - x) + q.2 * (x - p.1)) / (q.1 - p.1) := by
    unfold line
    field_simp
    ring
  rw [this]
  exact div_nonneg (add_nonneg (mul_nonneg hp (by linarith)) (mul_nonneg hq (by linarith))) hd.le

/-- The index of the piece of a point. -/
lemma Interp.cases {f : PW} {pts : List (ℝ × ℝ)} (h : Interp f pts) (x : ℝ) :
    val f x = 0 ∨ ∃ i, ∃ hi : i + 1 < pts.length, pts[i].1 < pts[i + 1].1 ∧ pts[i].1 ≤ x ∧ x ≤ pts[i + 1].1 ∧
      val f x = line pts[i] pts[i + 1] x := by
  have hl := h.length
  by_cases hx : f.X 0 ≤ x ∧ x ≤ f.X f.fns.length
  · obtain ⟨i, ⟨hi, hin⟩, -⟩ := piecewise_cover h.ok hx.1 hx.2
    have e : ∀ j (hj : j < pts.length), pts.getD j 0 = pts[j] := fun j hj => by
      simp [List.getD_eq_getElem?_getD, hj]
    have h0 := hin.lower
    have h1 := hin.2
    have h2 := h.ok.lt (Nat.lt_succ_self i) (by omega : i + 1 ≤ f.fns.length)
    rw [h.X] at h0 h1 h2
    rw [h.X] at h2
    have h3 := h.val_at (by omega) h0 h1
    rw [e _ (by omega)] at h0 h1 h2
    rw [e _ (by omega)] at h2
    rw [e _ (by omega), e _ (by omega)] at h3
    exact Or.inr ⟨i, by omega, h2, h0, h1, h3⟩
  · have : x < f.X 0 ∨ f.X f.fns.length < x := by
      by_contra hc
      push Not at hc
      exact hx ⟨hc.1, hc.2⟩
    exact Or.inl (Except.ok.inj (ε := Err) (by rw [← h.evaluate, piecewise_eval_outside h.ok this]))

lemma Interp.nonneg {f : PW} {pts : List (ℝ × ℝ)} (h : Interp f pts) (hp : ∀ p ∈ pts, 0 ≤ p.2) (x : ℝ) : 0 ≤ val f x := by
  rcases Interp.cases h x with h0 | ⟨i, hi, h0, h1, h2, h3⟩
  · exact h0.ge
  · rw [h3]
    exact line_nonneg (hp _ (List.getElem_mem _)) (hp _ (List.getElem_mem _)) h0 h1 h2

lemma Interp.smul_val {f g : PW} {pts : List (ℝ × ℝ)} (h : Interp f pts) {k : ℝ} (hg : f.smul k = .ok g) (x : ℝ) :
    val g x = k * val f x := by
  obtain ⟨g', hg', hev⟩ := smul_eval h.ok (by rw [h.kind]; simp) k
  obtain rfl := Except.ok.inj (hg.symm.trans hg')
  obtain ⟨y, e1, e2⟩ := hev x
  unfold val
  rw [e1, e2]

/-- The normalisation: a nonzero area gives a function with integral one. -/
lemma normalized_ok {p : ℝ × ℝ} {pts : List (ℝ × ℝ)} {r : ℝ} (h2 : 2 ≤ (p :: pts).length)
    (hs : ((p :: pts).map Prod.fst).Pairwise (· < ·)) (h0 : p.1 = 0) (hr : ((p :: pts).getLastD 0).1 = r)
    (ha : area (p :: pts) ≠ 0) :
    ∃ f g, Interp f (p :: pts) ∧ Chip.normalized (p :: pts) r = .ok g ∧
      Interp g ((p :: pts).map fun q => (q.1, 1 / area (p :: pts) * q.2)) ∧
      (∀ x, val g x = 1 / area (p :: pts) * val f x) ∧ IntervalIntegrable (val g) volume 0 r ∧ ∫ x in (0 : ℝ)..r, val g x = 1 := by
  obtain ⟨f, hf, hI⟩ := interp_fromPoints h2 hs
  obtain ⟨g, hg, hJ⟩ := hI.smul (1 / area (p :: pts))
  have hint := hI.integral
  have har := hI.area
  rw [h0, hr] at hint har
  have hv := Interp.smul_val hI hg
  refine ⟨f, g, hI, ?_, hJ, hv, ?_, ?_⟩
  · unfold Chip.normalized
    simp only [hf, bind, Except.bind, hint, hg]
  · rw [show val g = fun x => 1 / area (p :: pts) * val f x from funext hv]
    exact har.1.const_mul _
  · rw [show val g = fun x => 1 / area (p :: pts) * val f x from funext hv, intervalIntegral.integral_const_mul, har.2]
    field_simp

lemma knotsX_cons (c : Chip) (rel : List ℝ) : c.knotsX rel =
    ((0 : ℝ), (0 : ℝ)) :: (((c.centersX.zip rel).flatMap (c.coreKnots (c.dist / 3))) ++ [(c.width, 0)]) := rfl

lemma heatDistX_interp (h : c.Ok) {rel : List ℝ} (hrel : (rel.take c.nx).sum ≠ 0) :
    ∃ f g, Interp f (c.knotsX rel) ∧ c.heatDistX rel = .ok g ∧
      Interp g ((c.knotsX rel).map fun q => (q.1, 1 / ((c.coreWidth + c.dist / 3) * (rel.take c.nx).sum) * q.2)) ∧
      (∀ x, val g x = 1 / ((c.coreWidth + c.dist / 3) * (rel.take c.nx).sum) * val f x) ∧
      IntervalIntegrable (val g) volume 0 c.width ∧ ∫ x in (0 : ℝ)..c.width, val g x = 1 := by
  have h1 := h.coreWidth
  have h2 := h.dist
  have ha : area (c.knotsX rel) = (c.coreWidth + c.dist / 3) * (rel.take c.nx).sum := by
    rw [← sum_zip]
    exact area_flat _ _ _ _
  rw [← ha]
  have hne : area (c.knotsX rel) ≠ 0 := by
    rw [ha]
    exact mul_ne_zero (by positivity) hrel
  unfold Chip.heatDistX
  rw [knotsX_cons] at hne ⊢
  exact normalized_ok (p := (0, 0)) (pts := ((c.centersX.zip rel).flatMap (c.coreKnots (c.dist / 3))) ++ [(c.width, 0)])
    (by simp) (by have := sep_sorted h1 (show 0 < c.dist / 3 by positivity) _ (sep_centers h rel); rwa [List.cons_append] at this) rfl
    (by rw [← List.cons_append, List.getLastD_eq_getLast?, List.getLast?_concat]; rfl) hne

/-- C72: the heat distribution across the cores is defined, integrates to one over the width of the die, is constant on every
core with value proportional to the relative height, vanishes away from the cores, and is nonnegative for nonnegative
heights. -/
theorem heat_dist_x (h : c.Ok) {rel : List ℝ} (hrel : (rel.take c.nx).sum ≠ 0) :
    ∃ g, c.heatDistX rel = .ok g ∧ (∀ x, g.evaluate x = .ok (val g x)) ∧ ∫ x in (0 : ℝ)..c.width, val g x = 1 ∧
      (∀ i < c.nx, ∀ hi : i < rel.length, ∀ x, |x - (c.offset + (c.coreWidth + c.dist) * i + c.coreWidth / 2)| ≤ c.coreWidth / 2 →
        val g x = rel[i] / ((c.coreWidth + c.dist / 3) * (rel.take c.nx).sum)) ∧
      (∀ x, (∀ i < c.nx, c.coreWidth / 2 + c.dist / 3 < |x - (c.offset + (c.coreWidth + c.dist) * i + c.coreWidth / 2)|) →
        val g x = 0) ∧
      ((∀ r ∈ rel, 0 ≤ r) → ∀ x, 0 ≤ val g x) := by
  have h1 := h.coreWidth
  have h2 := h.dist
  obtain ⟨f, g, hf, hg, hJ, hv, -, hint⟩ := heatDistX_interp h hrel
  refine ⟨g, hg, hJ.evaluate, hint, fun i hi hir x hx => ?_, fun x hx => ?_, fun hr x => ?_⟩
  · set L := c.centersX.zip rel with hL
    have hiL : i < L.length := by simp [hL, Chip.centersX, hi, hir]
    have hLi : L[i] = (c.offset + (c.coreWidth + c.dist) * i + c.coreWidth / 2, rel[i]) := by
      simp [hL, Chip.centersX]
    have hsplit : c.knotsX rel = ((0, 0) :: ((L.take i).flatMap (c.coreKnots (c.dist / 3))) ++ [(L[i].1 - c.coreWidth / 2 - c.dist / 3, 0)]) ++
        (L[i].1 - c.coreWidth / 2, L[i].2) :: (L[i].1 + c.coreWidth / 2, L[i].2) ::
          ((L[i].1 + c.coreWidth / 2 + c.dist / 3, 0) :: ((L.drop (i + 1)).flatMap (c.coreKnots (c.dist / 3))) ++ [(c.width, 0)]) := by
      have hLs : L = L.take i ++ L[i] :: L.drop (i + 1) := by rw [← List.drop_eq_getElem_cons hiL, List.take_append_drop]
      have hfl : L.flatMap (c.coreKnots (c.dist / 3)) = (L.take i).flatMap (c.coreKnots (c.dist / 3)) ++
          (c.coreKnots (c.dist / 3) L[i] ++ (L.drop (i + 1)).flatMap (c.coreKnots (c.dist / 3))) :=
        (congrArg (fun l => l.flatMap (c.coreKnots (c.dist / 3))) hLs).trans (by simp only [List.flatMap_append, List.flatMap_cons])
      rw [knotsX_cons, ← hL, hfl]
      simp only [Chip.coreKnots, List.cons_append, List.nil_append, List.append_assoc]
    rw [abs_le, ← show L[i].1 = c.offset + (c.coreWidth + c.dist) * i + c.coreWidth / 2 by rw [hLi]] at hx
    rw [hv, hf.val_between hsplit (by dsimp only; linarith [hx.1]) (by dsimp only; linarith [hx.2]), line,
      show rel[i] = L[i].2 by rw [hLi]]
    dsimp only
    rw [sub_self, zero_div, zero_mul, add_zero, one_div, inv_mul_eq_div]
  · rw [hv]
    rcases Interp.cases hf x with h0 | ⟨i, hi, -, h4, h5, h6⟩
    · rw [h0, mul_zero]
    · have hc := List.isChain_iff_getElem.mp (near_flat h1 (show 0 < c.dist / 3 by positivity) (c.centersX.zip rel) (c.centersX.zip rel)
        (fun _ => id) 0 c.width) i hi
      rcases hc with ⟨e0, e1⟩ | ⟨t, ht, e0, e1⟩
      · have e0' : (c.knotsX rel)[i].2 = 0 := e0
        have e1' : (c.knotsX rel)[i + 1].2 = 0 := e1
        rw [h6, line, e0', e1']
        simp
      · exfalso
        have hmem := (List.of_mem_zip (show (t.1, t.2) ∈ c.centersX.zip rel from ht)).1
        obtain ⟨j, hj, hjt⟩ := List.mem_map.mp hmem
        have := hx j (List.mem_range.mp hj)
        rw [hjt] at this
        have e0' : t.1 - c.coreWidth / 2 - c.dist / 3 ≤ (c.knotsX rel)[i].1 := e0
        have e1' : (c.knotsX rel)[i + 1].1 ≤ t.1 + c.coreWidth / 2 + c.dist / 3 := e1
        exact absurd this (not_lt.mpr (abs_le.mpr ⟨by linarith, by linarith⟩))
  · rw [hv]
    have hs : 0 ≤ (rel.take c.nx).sum := List.sum_nonneg fun r hr' => hr r (List.mem_of_mem_take hr')
    refine mul_nonneg (by positivity) (Interp.nonneg hf (fun p hp => ?_) x)
    rw [knotsX_cons] at hp
    simp only [List.mem_cons, List.mem_append, List.mem_flatMap, List.not_mem_nil, or_false, Chip.coreKnots] at hp
    rcases hp with rfl | ⟨t, ht, h3⟩ | rfl
    · simp
    · have ht2 := hr _ (List.of_mem_zip (show (t.1, t.2) ∈ c.centersX.zip rel from ht)).2
      rcases h3 with rfl | rfl | rfl | rfl <;> simp [ht2]
    · simp

/-- C72: the heat distribution along the cores is defined, integrates to one over the height of the die, is constant on the two
rows of cores, vanishes in the middle third of the gap between them, and is nonnegative. -/
theorem heat_dist_y (h : c.Ok) :
    ∃ g, c.heatDistY = .ok g ∧ (∀ y, g.evaluate y = .ok (val g y)) ∧ ∫ y in (0 : ℝ)..c.height, val g y = 1 ∧
      (∀ y, 0 ≤ y → y ≤ c.coreHeight → val g y = 1 / (2 * c.coreHeight + (c.height - 2 * c.coreHeight) / 3)) ∧
      (∀ y, c.height - c.coreHeight ≤ y → y ≤ c.height → val g y = 1 / (2 * c.coreHeight + (c.height - 2 * c.coreHeight) / 3)) ∧
      (∀ y, |y - c.height / 2| ≤ (c.height - 2 * c.coreHeight) / 6 → val g y = 0) ∧ ∀ y, 0 ≤ val g y := by
  have h1 := h.coreHeight
  have h2 := h.gap
  have hk : c.knotsY = [((0 : ℝ), (1 : ℝ)), (c.coreHeight, 1), (c.coreHeight + (c.height - 2 * c.coreHeight) / 3, 0),
      (c.height - c.coreHeight - (c.height - 2 * c.coreHeight) / 3, 0), (c.height - c.coreHeight, 1), (c.height, 1)] := by
    unfold Chip.knotsY Chip.centersY
    simp only [List.cons.injEq, Prod.mk.injEq, and_true]
    refine ⟨by ring, by ring, by ring, by ring, by ring, by ring⟩
  have ha : area c.knotsY = 2 * c.coreHeight + (c.height - 2 * c.coreHeight) / 3 := by
    rw [hk]; simp only [area]; ring
  have hpos : 0 < area c.knotsY := by rw [ha]; linarith
  have hs : (c.knotsY.map Prod.fst).Pairwise (· < ·) := by
    rw [← List.isChain_iff_pairwise, hk]
    simp only [List.map_cons, List.map_nil, List.isChain_cons_cons, List.isChain_singleton, and_true]
    exact ⟨h1, by linarith, by linarith, by linarith, by linarith⟩
  have hn := normalized_ok (r := c.height) (p := (0, 1)) (pts := [(c.coreHeight, 1), (c.coreHeight + (c.height - 2 * c.coreHeight) / 3, 0),
      (c.height - c.coreHeight - (c.height - 2 * c.coreHeight) / 3, 0), (c.height - c.coreHeight, 1), (c.height, 1)])
      (by simp) (hk ▸ hs) rfl rfl (hk ▸ hpos.ne')
  rw [← hk] at hn
  obtain ⟨f, g, hf, hg, hJ, hv, -, hint⟩ := hn
  rw [← ha]
  refine ⟨g, hg, hJ.evaluate, hint, fun y h3 h4 => ?_, fun y h3 h4 => ?_, fun y hy => ?_, fun y => ?_⟩
  · rw [hv, hf.val_between (A := []) hk h3 h4]
    simp [line]
  · rw [hv, hf.val_between (A := [_, _, _, _]) hk h3 h4]
    simp [line]
  · rw [abs_le] at hy
    rw [hv, hf.val_between (A := [_, _]) hk (by dsimp only; linarith [hy.1]) (by dsimp only; linarith [hy.2])]
    simp [line]
  · rw [hv]
    refine mul_nonneg (by positivity) (Interp.nonneg hf (fun p hp => ?_) y)
    rw [hk] at hp
    simp only [List.mem_cons, List.not_mem_nil, or_false] at hp
    rcases hp with rfl | rfl | rfl | rfl | rfl | rfl <;> norm_num

/-- Non-vacuity: the relative heights of the script. -/
example : ∃ g, coffeeLake.heatDistX [0.9, 0.75, 1] = .ok g ∧ ∫ x in (0 : ℝ)..16.28, val g x = 1 := by
  obtain ⟨g, h1, -, h2, -⟩ := heat_dist_x (rel := [0.9, 0.75, 1]) coffeeLake_ok (by norm_num [coffeeLake])
  exact ⟨g, h1, h2⟩

/-- The numbers of the script. -/
example : coffeeLake.centersX = [3.2, 6.05, 8.9] ∧ coffeeLake.centersY = (2.06775, 7.12225) ∧ coffeeLake.aTopBottom = 149.6132 ∧ coffeeLake.aSideNS = 6.0236 ∧
    coffeeLake.aSideEW = 3.4003 ∧ coffeeLake.vol = 55.356884 ∧ coffeeLake.kappa = 15.6 ∧ coffeeLake.tdp = 95 := by
  refine ⟨?_, ?_, ?_, ?_, ?_, ?_, ?_, ?_⟩
  · simp only [Chip.centersX, coffeeLake, List.range_succ, List.range_zero, List.nil_append, List.cons_append, List.map_cons, List.map_nil, List.cons.injEq, and_true]
    norm_num
  · simp only [Chip.centersY, coffeeLake, Prod.mk.injEq]
    norm_num
  all_goals norm_num [Chip.aTopBottom, Chip.aSideNS, Chip.aSideEW, Chip.vol, coffeeLake]

end LinPDE.Cpu
