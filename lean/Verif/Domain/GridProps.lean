import Verif.Domain.Props

/-! # Uniform grids on intervals, boxes and products (C39, C40) -/

namespace LinPDE.Domains

lemma linspace_get (a b : ℝ) (n i : ℕ) (h : i < (linspace a b n).length) (hn : 2 ≤ n) :
    (linspace a b n)[i] = a + i * ((b - a) / ((n : ℝ) - 1)) := by
  have hn' : ((n : ℝ) - 1) ≠ 0 := by
    have : (2 : ℝ) ≤ n := by exact_mod_cast hn
    intro h0; linarith
  simp only [linspace, List.getElem_map, List.getElem_range]
  split_ifs with hc
  · have : (i : ℝ) = n - 1 := by
      have := hc.2
      have h2 : ((i + 1 : ℕ) : ℝ) = n := by exact_mod_cast this
      push_cast at h2; linarith
    rw [this]; field_simp; ring
  · rfl

/-- C39: a uniform grid on an interval has the requested number of points, starts and ends at the
(inset) ends, and is equispaced. -/
theorem intervalGrid_spec (l u : ℝ) (n : ℕ) (e : ℝ) :
    (intervalGrid l u n e).length = n ∧
    (1 ≤ n → (intervalGrid l u n e).head? = some (l + e)) ∧
    (2 ≤ n → (intervalGrid l u n e).getLast? = some (u - e)) ∧
    (∀ (i : ℕ) (h : i + 1 < (intervalGrid l u n e).length),
      (intervalGrid l u n e)[i + 1] - (intervalGrid l u n e)[i] = (u - l - 2 * e) / ((n : ℝ) - 1)) := by
  have hlen : (linspace (l + e) (u - e) n).length = n := by simp [linspace]
  refine ⟨hlen, fun hn => ?_, fun hn => ?_, fun i h => ?_⟩
  · unfold intervalGrid
    have h0 : 0 < (linspace (l + e) (u - e) n).length := by omega
    rw [List.head?_eq_getElem?, List.getElem?_eq_getElem h0]
    simp only [linspace, List.getElem_map, List.getElem_range]
    rw [if_neg (by omega)]; simp
  · unfold intervalGrid
    rw [List.getLast?_eq_getElem?, hlen, List.getElem?_eq_getElem (by omega)]
    simp only [linspace, List.getElem_map, List.getElem_range]
    rw [if_pos (by omega)]
  · have h' : i + 1 < n := by simpa [intervalGrid, linspace] using h
    have e1 := linspace_get (l + e) (u - e) n (i + 1) h (by omega)
    have e2 := linspace_get (l + e) (u - e) n i (by rw [hlen]; omega) (by omega)
    show (linspace (l + e) (u - e) n)[i + 1]'h - (linspace (l + e) (u - e) n)[i]'(by rw [hlen]; omega) = _
    rw [e1, e2]
    push_cast; ring

/-- C39: the grid lies in the interval if the inset is not negative and not larger than the interval. -/
theorem intervalGrid_mem (l u : ℝ) (n : ℕ) (e : ℝ) (h0 : 0 ≤ e) (h1 : e ≤ u - l) :
    ∀ x ∈ intervalGrid l u n e, [x] ∈ (Dom.interval l u).den := by
  intro x hx
  obtain ⟨i, hi, rfl⟩ := List.getElem_of_mem hx
  have hn : i < n := by simpa [intervalGrid, linspace] using hi
  refine ⟨_, rfl, ?_⟩
  unfold intervalGrid
  rcases Nat.lt_or_ge n 2 with h2 | h2
  · have hi0 : i = 0 := by omega
    simp only [linspace, List.getElem_map, List.getElem_range]
    rw [if_neg (by omega), hi0]
    simp only [Nat.cast_zero, zero_mul, add_zero]
    constructor <;> linarith
  · have e1 := linspace_get (l + e) (u - e) n i hi h2
    show l ≤ (linspace (l + e) (u - e) n)[i]'hi ∧ (linspace (l + e) (u - e) n)[i]'hi ≤ u
    rw [e1]
    have hn1 : (0 : ℝ) < (n : ℝ) - 1 := by
      have : (2 : ℝ) ≤ n := by exact_mod_cast h2
      linarith
    obtain ⟨t, ht⟩ : ∃ t : ℝ, t = i / ((n : ℝ) - 1) := ⟨_, rfl⟩
    have ht0 : 0 ≤ t := by rw [ht]; positivity
    have ht1 : t ≤ 1 := by
      rw [ht, div_le_one hn1]
      have : ((i + 1 : ℕ) : ℝ) ≤ n := by exact_mod_cast hn
      push_cast at this; linarith
    have he : l + e + i * ((u - e - (l + e)) / ((n : ℝ) - 1)) = (1 - t) * (l + e) + t * (u - e) := by
      rw [ht]; field_simp; ring
    rw [he]
    constructor <;> nlinarith

/-- C39: points of a tensor-product grid are exactly the combinations of the factor grids. -/
theorem gridPoints_spec (fs : List (List ℝ)) (p : List ℝ) :
    p ∈ gridPoints fs ↔ List.Forall₂ (fun g x => x ∈ g) fs p := by
  induction fs generalizing p with
  | nil => simp [gridPoints]
  | cons g gs ih =>
    simp only [gridPoints, List.mem_flatMap, List.mem_map]
    constructor
    · rintro ⟨x, hx, q, hq, rfl⟩
      exact List.Forall₂.cons hx ((ih q).mp hq)
    · intro h
      cases h with
      | cons hx hq => exact ⟨_, hx, _, (ih _).mpr hq, rfl⟩

lemma gridPoints_length (fs : List (List ℝ)) : (gridPoints fs).length = (fs.map List.length).prod := by
  induction fs with
  | nil => simp [gridPoints]
  | cons g gs ih => simp [gridPoints, List.length_flatMap, ih]

/-- Dimensions of a box that are not collapsed. -/
noncomputable def interior (bs : List (ℝ × ℝ)) : List (ℝ × ℝ) := bs.filter fun b => decide (b.1 ≠ b.2)

lemma bgf_col {b : ℝ × ℝ} (hb : b.1 = b.2) (bs : List (ℝ × ℝ)) (shape : List ℕ) (inset : List ℝ) :
    boxGridFactors (b :: bs) shape inset = (boxGridFactors bs shape inset >>= fun r => .ok ([b.1] :: r)) := by
  cases shape <;> cases inset <;> simp only [boxGridFactors, if_pos hb]

lemma bgf_int {b : ℝ × ℝ} (hb : ¬ b.1 = b.2) (bs : List (ℝ × ℝ)) (n : ℕ) (shape : List ℕ) (x : ℝ) (inset : List ℝ) :
    boxGridFactors (b :: bs) (n :: shape) (x :: inset) =
      (boxGridFactors bs shape inset >>= fun r => .ok (intervalGrid b.1 b.2 n x :: r)) := by
  simp only [boxGridFactors, if_neg hb]

lemma bgf_nil {b : ℝ × ℝ} (hb : ¬ b.1 = b.2) (bs : List (ℝ × ℝ)) (inset : List ℝ) :
    boxGridFactors (b :: bs) [] inset = .error .valueError := by
  cases inset <;> simp only [boxGridFactors, if_neg hb]

lemma boxGridFactors_ok : ∀ (bs : List (ℝ × ℝ)) (shape : List ℕ) (inset : List ℝ),
    shape.length = (interior bs).length → inset.length = (interior bs).length →
    ∃ fs, boxGridFactors bs shape inset = .ok fs ∧ (fs.map List.length).prod = shape.prod ∧ fs.length = bs.length
  | [], shape, inset, h1, h2 => by
    obtain rfl := List.length_eq_zero_iff.mp h1
    obtain rfl := List.length_eq_zero_iff.mp h2
    exact ⟨[], rfl, rfl, rfl⟩
  | b :: bs, shape, inset, h1, h2 => by
    by_cases hb : b.1 = b.2
    · have hi : interior (b :: bs) = interior bs := by simp [interior, hb]
      rw [hi] at h1 h2
      obtain ⟨fs, e, hp, hl⟩ := boxGridFactors_ok bs shape inset h1 h2
      refine ⟨[b.1] :: fs, ?_, by simp [hp], by simp [hl]⟩
      rw [bgf_col hb, e]; rfl
    · have hi : interior (b :: bs) = b :: interior bs := by simp [interior, hb]
      rw [hi] at h1 h2
      obtain ⟨n, shape, rfl⟩ := List.exists_cons_of_length_eq_add_one h1
      obtain ⟨x, inset, rfl⟩ := List.exists_cons_of_length_eq_add_one h2
      obtain ⟨fs, e, hp, hl⟩ := boxGridFactors_ok bs shape inset (by simpa using h1) (by simpa using h2)
      refine ⟨intervalGrid b.1 b.2 n x :: fs, ?_, by simp [hp, (intervalGrid_spec b.1 b.2 n x).1], by simp [hl]⟩
      rw [bgf_int hb, e]; rfl

/-- Insets that keep the grid inside. -/
noncomputable def InsetOK (bs : List (ℝ × ℝ)) (inset : List ℝ) : Prop :=
  List.Forall₂ (fun b e => 0 ≤ e ∧ e ≤ b.2 - b.1) (interior bs) inset

/-- C39: a uniform grid on a box has the requested number of points (one in collapsed dimensions) and
lies inside the box. -/
theorem boxGrid_spec (bs : List (ℝ × ℝ)) (shape : List ℕ) (inset : List ℝ)
    (h1 : shape.length = (interior bs).length) (h2 : inset.length = (interior bs).length) :
    ∃ ps, boxGrid bs shape inset = .ok ps ∧ ps.length = shape.prod ∧ (∀ p ∈ ps, p.length = bs.length) ∧
      (InsetOK bs inset → ∀ p ∈ ps, p ∈ (Dom.box bs).den) := by
  obtain ⟨fs, e, hp, hl⟩ := boxGridFactors_ok bs shape inset h1 h2
  refine ⟨gridPoints fs, ?_, ?_, ?_, ?_⟩
  · show (boxGridFactors bs shape inset >>= fun fs => _ : Except Err _) = _
    rw [e]; rfl
  · rw [gridPoints_length, hp]
  · intro p hp'
    rw [← hl]; exact (((gridPoints_spec fs p).mp hp').length_eq).symm
  · intro hin p hp'
    rw [gridPoints_spec] at hp'
    clear h1 h2 hp hl
    induction bs generalizing shape inset fs p with
    | nil =>
      have : fs = [] := by
        cases shape <;> cases inset <;> simp [boxGridFactors] at e
        exact e
      subst this
      cases hp'
      exact List.Forall₂.nil
    | cons b bs ih =>
      by_cases hb : b.1 = b.2
      · have hi : interior (b :: bs) = interior bs := by simp [interior, hb]
        rw [InsetOK, hi] at hin
        rw [bgf_col hb] at e
        cases h3 : boxGridFactors bs shape inset with
        | error err => rw [h3] at e; cases e
        | ok r =>
          rw [h3] at e
          cases e
          cases hp' with
          | cons hx hq =>
            refine List.Forall₂.cons ?_ (ih shape inset r h3 hin _ hq)
            rw [List.mem_singleton] at hx
            rw [hx]; exact ⟨le_refl _, le_of_eq hb⟩
      · have hi : interior (b :: bs) = b :: interior bs := by simp [interior, hb]
        rw [InsetOK, hi] at hin
        cases hin with
        | cons he hrest =>
          rename_i x inset
          cases shape with
          | nil => rw [bgf_nil hb] at e; cases e
          | cons n shape =>
            rw [bgf_int hb] at e
            cases h3 : boxGridFactors bs shape inset with
            | error err => rw [h3] at e; cases e
            | ok r =>
              rw [h3] at e
              cases e
              cases hp' with
              | cons hx hq =>
                refine List.Forall₂.cons ?_ (ih shape inset r h3 hrest _ hq)
                obtain ⟨y, hy, h4⟩ := intervalGrid_mem b.1 b.2 n x he.1 he.2 _ hx
                cases hy
                exact h4

/-- C39: with no inset and at least two points per dimension, every corner of the box is a grid point. -/
theorem boxGrid_corners (bs : List (ℝ × ℝ)) (shape : List ℕ) (hs : shape.length = (interior bs).length)
    (hn : ∀ n ∈ shape, 2 ≤ n) (p : List ℝ) (hp : List.Forall₂ (fun b x => x = b.1 ∨ x = b.2) bs p) :
    ∃ ps, boxGrid bs shape (List.replicate shape.length 0) = .ok ps ∧ p ∈ ps := by
  have key : ∀ (bs : List (ℝ × ℝ)) (shape : List ℕ) (p : List ℝ), shape.length = (interior bs).length →
      (∀ n ∈ shape, 2 ≤ n) → List.Forall₂ (fun (b : ℝ × ℝ) x => x = b.1 ∨ x = b.2) bs p →
      ∃ fs, boxGridFactors bs shape (List.replicate shape.length 0) = .ok fs ∧
        List.Forall₂ (fun g x => x ∈ g) fs p := by
    intro bs
    induction bs with
    | nil =>
      intro shape p hs _ hp
      obtain rfl := List.length_eq_zero_iff.mp hs
      cases hp
      exact ⟨[], rfl, List.Forall₂.nil⟩
    | cons b bs ih =>
      intro shape p hs hn hp
      cases hp with
      | cons hx hq =>
        rename_i x q
        by_cases hb : b.1 = b.2
        · have hi : interior (b :: bs) = interior bs := by simp [interior, hb]
          rw [hi] at hs
          obtain ⟨fs, e, hm⟩ := ih shape q hs hn hq
          refine ⟨[b.1] :: fs, by rw [bgf_col hb, e]; rfl, List.Forall₂.cons ?_ hm⟩
          rw [List.mem_singleton]
          rcases hx with rfl | rfl
          · rfl
          · exact hb.symm
        · have hi : interior (b :: bs) = b :: interior bs := by simp [interior, hb]
          rw [hi] at hs
          obtain ⟨n, shape, rfl⟩ := List.exists_cons_of_length_eq_add_one hs
          obtain ⟨fs, e, hm⟩ := ih shape q (by simpa using hs) (fun n h => hn n (List.mem_cons_of_mem _ h)) hq
          have hn2 := hn n List.mem_cons_self
          refine ⟨intervalGrid b.1 b.2 n 0 :: fs, ?_, List.Forall₂.cons ?_ hm⟩
          · rw [List.length_cons, List.replicate_succ, bgf_int hb, e]; rfl
          · obtain ⟨-, hh, ht, -⟩ := intervalGrid_spec b.1 b.2 n 0
            rcases hx with rfl | rfl
            · have := hh (by omega)
              rw [add_zero] at this
              exact List.mem_of_mem_head? this
            · have := ht hn2
              rw [sub_zero] at this
              exact List.mem_of_getLast? this
  obtain ⟨fs, e, hm⟩ := key bs shape p hs hn hp
  refine ⟨gridPoints fs, ?_, (gridPoints_spec fs p).mpr hm⟩
  show (boxGridFactors bs shape _ >>= fun fs => _ : Except Err _) = _
  rw [e]; rfl

lemma asBoxBounds_spec : ∀ (fs : List Dom) (bs : List (ℝ × ℝ)), asBoxBounds fs = .ok bs → bs = boundsL fs
  | [], bs, h => by cases h; rfl
  | .interval l u :: fs, bs, h => by
    simp only [asBoxBounds] at h
    cases h3 : asBoxBounds fs with
    | error e => rw [h3] at h; cases h
    | ok r => rw [h3] at h; cases h; rw [asBoxBounds_spec fs r h3]; rfl
  | .point0 x :: fs, bs, h => by
    simp only [asBoxBounds] at h
    cases h3 : asBoxBounds fs with
    | error e => rw [h3] at h; cases h
    | ok r => rw [h3] at h; cases h; rw [asBoxBounds_spec fs r h3]; rfl
  | .point1 xs :: fs, bs, h => by
    simp only [asBoxBounds] at h
    cases h3 : asBoxBounds fs with
    | error e => rw [h3] at h; cases h
    | ok r => rw [h3] at h; cases h; rw [asBoxBounds_spec fs r h3]; rfl
  | .box cs :: fs, bs, h => by
    simp only [asBoxBounds] at h
    have ht : ∀ (cs t : List (ℝ × ℝ)), boxTuples cs = .ok t → t = cs := by
      intro cs
      induction cs with
      | nil => intro t h; cases h; rfl
      | cons c cs ih =>
        intro t h
        rw [boxTuples] at h
        split_ifs at h
        cases h3 : boxTuples cs with
        | error e => rw [h3] at h; cases h
        | ok r => rw [h3] at h; cases h; rw [ih r h3]
    cases h2 : boxTuples cs with
    | error e => rw [h2] at h; cases h
    | ok t =>
      rw [h2] at h
      cases h3 : asBoxBounds fs with
      | error e => rw [h3] at h; cases h
      | ok r => rw [h3] at h; cases h; rw [asBoxBounds_spec fs r h3, ht cs t h2]; rfl
  | .prod _ :: _, bs, h => by cases h

/-- C40: when a product is converted to a box, the box is the same set. -/
theorem asBox_spec (fs : List Dom) (B : Dom) (h : asBox fs = .ok (some B)) : B.den = (Dom.prod fs).den := by
  unfold asBox at h
  split_ifs at h
  swap
  · cases h
  cases h3 : asBoxBounds fs with
  | error e => rw [h3] at h; cases h
  | ok bs =>
    rw [h3] at h
    have h : (if bs.isEmpty then .error .valueError else (mkBox bs >>= fun b => .ok (some b)) : Except Err (Option Dom)) =
        .ok (some B) := h
    split_ifs at h
    unfold mkBox at h
    split_ifs at h
    · have h : (Except.ok (some (Dom.box bs)) : Except Err (Option Dom)) = .ok (some B) := h
      cases h
      ext v
      rw [den_iff, den_iff]
      simp only [Dom.bounds, asBoxBounds_spec fs bs h3]
    · cases h

/-- C40, negation: a product with a box factor that has a collapsed dimension cannot be turned into a
box, so that it has no uniform grid (`TypeError`), although it is a product of box-like domains. -/
theorem prodGrid_collapsed_violated (shape : List ℕ) (inset : List ℝ) :
    (Dom.prod [.box [(0, 1), (2, 2)]]).Valid ∧ prodGrid [.box [(0, 1), (2, 2)]] shape inset = .error .typeError := by
  refine ⟨by simp [Dom.Valid, validL], ?_⟩
  simp [prodGrid, asBox, Dom.boxLike, asBoxBounds, boxTuples, bind, Except.bind]

/-- C40: the grid on a product of intervals and points lies in the product and has the requested size. -/
theorem prodGrid_spec (fs : List Dom) (hv : (Dom.prod fs).Valid) (hne : fs ≠ [])
    (hleaf : ∀ f ∈ fs, (∃ l u, f = .interval l u) ∨ ∃ x, f = .point0 x)
    (shape : List ℕ) (inset : List ℝ) (h1 : shape.length = (interior (boundsL fs)).length)
    (h2 : InsetOK (boundsL fs) inset) :
    ∃ ps, prodGrid fs shape inset = .ok ps ∧ ps.length = shape.prod ∧ ∀ p ∈ ps, p ∈ (Dom.prod fs).den := by
  have hb : asBoxBounds fs = .ok (boundsL fs) := by
    clear h1 h2 hv hne
    induction fs with
    | nil => rfl
    | cons f fs ih =>
      have ih := ih fun g hg => hleaf g (List.mem_cons_of_mem _ hg)
      rcases hleaf f List.mem_cons_self with ⟨l, u, rfl⟩ | ⟨x, rfl⟩
      · simp only [asBoxBounds]; rw [ih]; rfl
      · simp only [asBoxBounds]; rw [ih]; rfl
  have hall : fs.all Dom.boxLike = true := by
    rw [List.all_eq_true]
    intro f hf
    rcases hleaf f hf with ⟨l, u, rfl⟩ | ⟨x, rfl⟩ <;> rfl
  have hne' : (boundsL fs).isEmpty = false := by
    obtain ⟨f, fs, rfl⟩ := List.exists_cons_of_ne_nil hne
    rcases hleaf f List.mem_cons_self with ⟨l, u, rfl⟩ | ⟨x, rfl⟩ <;> rfl
  have hbox : asBox fs = .ok (some (.box (boundsL fs))) := by
    unfold asBox
    rw [if_pos hall, hb]
    show (if (boundsL fs).isEmpty then .error .valueError else (mkBox (boundsL fs) >>= fun b => .ok (some b)) :
      Except Err (Option Dom)) = _
    rw [hne', if_neg (by simp), ((mkBox_spec _).1 (validL_bounds fs hv)).1]
    rfl
  obtain ⟨ps, e, hl, -, hm⟩ := boxGrid_spec (boundsL fs) shape inset h1 h2.length_eq.symm
  refine ⟨ps, ?_, hl, fun p hp => ?_⟩
  · show (asBox fs >>= _ : Except Err _) = _
    rw [hbox]; exact e
  · have := hm h2 p hp
    rw [den_iff] at this ⊢
    exact this

/-- Non-vacuity: a box with a collapsed dimension. -/
example : interior [((0 : ℝ), (1 : ℝ)), (2, 2), (0, 3)] = [(0, 1), (0, 3)] ∧
    InsetOK [((0 : ℝ), (1 : ℝ)), (2, 2), (0, 3)] [0, 1] := by
  have h : interior [((0 : ℝ), (1 : ℝ)), (2, 2), (0, 3)] = [(0, 1), (0, 3)] := by
    simp [interior]
  refine ⟨h, ?_⟩
  rw [InsetOK, h]
  refine List.Forall₂.cons (by norm_num) (List.Forall₂.cons (by norm_num) List.Forall₂.nil)

end LinPDE.Domains
