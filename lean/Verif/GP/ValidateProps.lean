import Verif.GP.Validate

/-! # Properties of the argument handling of `condition_on_observations` (C07) -/

namespace LinPDE.GP.Validate
open LinPDE.Nd
variable {α : Type}

/-- C07: a call is accepted exactly for the documented combinations; then the functional is the
documented one and the observations are paired with the right functional component: the flattened
vector has one entry per component, and the component for output index `o` and batch index `i` is
`Y[i, o]` when function values are observed, and `Y[o]` for a functional with output index `o`. -/
theorem preprocess_ok_iff (p : PriorShapes) (L : LArg) (X : Option Shp) (b : BArg) (Y : Arr α) (m : Meas)
    (y : List α) :
    preprocess p L X b Y = .ok (m, y) ↔
      Builds p L X m ∧ NoiseOK m b ∧ YOK p m Y.shape ∧
        y = (if m.isEval && decide (0 < p.output.length) then (Y.lastToFront p.output.length).flatten
             else Y.flatten) := by
  unfold preprocess
  constructor
  · intro h
    cases hb : buildL p L X with
    | error e => rw [hb] at h; cases h
    | ok m' =>
      rw [hb] at h
      have h' : (do checkB m' b; let y ← checkY p m' Y; return (m', y) : Except Exc _) = .ok (m, y) := h
      cases hB : checkB m' b with
      | error e => rw [hB] at h'; cases h'
      | ok u =>
        rw [hB] at h'
        have h'' : (do let y ← checkY p m' Y; return (m', y) : Except Exc _) = .ok (m, y) := h'
        cases hY : checkY p m' Y with
        | error e => rw [hY] at h''; cases h''
        | ok y' =>
          rw [hY] at h''
          cases h''
          refine ⟨(buildL_ok_iff _ _ _ _).mp hb, (checkB_ok_iff _ _).mp hB, ?_⟩
          exact checkY_spec p L X m Y y ((buildL_ok_iff _ _ _ _).mp hb) hY
  · rintro ⟨h1, h2, h3, h4⟩
    rw [(buildL_ok_iff _ _ _ _).mpr h1]
    show (do checkB m b; let y ← checkY p m Y; return (m, y) : Except Exc _) = _
    rw [(checkB_ok_iff _ _).mpr h2]
    show (do let y ← checkY p m Y; return (m, y) : Except Exc _) = _
    rw [checkY_of p m Y h3, h4]
    rfl

/-- C07: which entry of `Y` is paired with which component of the functional. -/
theorem preprocess_pairing (p : PriorShapes) (L : LArg) (X : Option Shp) (b : BArg) (Y : Arr α) (m : Meas)
    (y : List α) (h : preprocess p L X b Y = .ok (m, y)) :
    y.length = m.output.prod ∧
    (m.isEval = false → ∀ i, Fits m.output i → y[ravel m.output i]? = some (Y.get i)) ∧
    (m.isEval = true → ∃ batch, m.output = p.output ++ batch ∧ Y.shape = batch ++ p.output ∧
      ∀ o i, Fits p.output o → Fits batch i →
        y[ravel p.output o * batch.prod + ravel batch i]? = some (Y.get (i ++ o))) := by
  obtain ⟨h1, h2, h3, h4⟩ := (preprocess_ok_iff p L X b Y m y).mp h
  cases hm : m.isEval with
  | false =>
    have h5 : Y.shape = m.output := by simpa [YOK, hm] using h3
    have h6 : y = Y.flatten := by simpa [hm] using h4
    subst h6
    refine ⟨by rw [Arr.flatten_length, h5], fun _ i hi => ?_, fun h => by simp at h⟩
    rw [← h5] at hi ⊢
    exact Y.flatten_getElem? hi
  | true =>
    obtain ⟨batch, h5, h6⟩ : ∃ batch, m.output = p.output ++ batch ∧ Y.shape = batch ++ p.output := by
      simpa [YOK, hm] using h3
    have h7 : y = (Y.lastToFront p.output.length).flatten := by
      rw [h4, hm]
      by_cases hk : 0 < p.output.length
      · simp [hk]
      · have hk0 : p.output.length = 0 := by omega
        simp [hk0, Arr.lastToFront]
    have hs := lastToFront_shape Y batch p.output h6
    refine ⟨?_, fun h => by simp at h, fun _ => ⟨batch, h5, h6, fun o i ho hi => ?_⟩⟩
    · rw [h7, Arr.flatten_length, hs, h5]
    · have hfit : Fits (Y.lastToFront p.output.length).shape (o ++ i) := by
        rw [hs]; exact (fits_append ho.length).mpr ⟨ho, hi⟩
      have h8 := (Y.lastToFront p.output.length).flatten_getElem? hfit
      rw [hs, ravel_append ho.length] at h8
      rw [h7, h8]
      simp [Arr.lastToFront, ← ho.length]

/-- C07: the exceptions for `L` and `X`: a functional with points and a wrong type raise `TypeError`, a
missing `X` raises `ValueError`, points of the wrong shape fail an assertion. -/
theorem buildL_errors (p : PriorShapes) :
    (∀ out xs, buildL p (.functional out) (some xs) = .error .typeError) ∧
    (∀ dom codom, buildL p (.operator dom codom) none = .error .valueError) ∧
    (buildL p .none none = .error .valueError) ∧
    (∀ X, buildL p .other X = .error .typeError) ∧
    (∀ dom codom xs, (¬ ∃ batch, xs = batch ++ dom) →
      buildL p (.operator dom codom) (some xs) = .error .assertionError) ∧
    (∀ xs, (¬ ∃ batch, xs = batch ++ p.input) → buildL p .none (some xs) = .error .assertionError) := by
  refine ⟨fun _ _ => rfl, fun _ _ => rfl, rfl, fun _ => rfl, fun dom codom xs h => ?_, fun xs h => ?_⟩
  · simp only [buildL, toLinfunctl]
    rw [mkEval_error _ _ _ h]
    rfl
  · exact mkEval_error _ _ _ h

/-- C07: wrong noise: another distribution is a `TypeError`, a wrong shape a `ValueError`; both before
the observations are looked at. -/
theorem noise_errors (p : PriorShapes) (L : LArg) (X : Option Shp) (Y : Arr α) (m : Meas) (h : Builds p L X m) :
    (∀ s, preprocess p L X (.otherRV s) Y = .error .typeError) ∧
    (∀ s, s ≠ m.output → preprocess p L X (.normal s) Y = .error .valueError ∧
      preprocess p L X (.constant s) Y = .error .valueError) := by
  have hb := (buildL_ok_iff _ _ _ _).mpr h
  refine ⟨fun s => by unfold preprocess; rw [hb]; rfl, fun s hs => ⟨?_, ?_⟩⟩
  · unfold preprocess
    rw [hb]
    show (do checkB m (.normal s); let y ← checkY p m Y; return (m, y) : Except Exc _) = _
    simp [checkB, hs]
    rfl
  · unfold preprocess
    rw [hb]
    show (do checkB m (.constant s); let y ← checkY p m Y; return (m, y) : Except Exc _) = _
    simp [checkB, hs]
    rfl

/-- C07: observations of the wrong shape are a `ValueError`. -/
theorem y_errors (p : PriorShapes) (L : LArg) (X : Option Shp) (b : BArg) (Y : Arr α) (m : Meas)
    (h : Builds p L X m) (hb : NoiseOK m b) (hY : ¬ YOK p m Y.shape) :
    preprocess p L X b Y = .error .valueError := by
  unfold preprocess
  rw [(buildL_ok_iff _ _ _ _).mpr h]
  show (do checkB m b; let y ← checkY p m Y; return (m, y) : Except Exc _) = _
  rw [(checkB_ok_iff _ _).mpr hb]
  show (do let y ← checkY p m Y; return (m, y) : Except Exc _) = _
  rw [checkY_error p L X m Y h hY]
  rfl

/-- C07, an observation about the interface: for function values of a vector-valued process the
accepted layouts of the noise and of the observations differ (outputs first for `b`, outputs last for
`Y`), so a noise variable with the shape of `Y` is rejected. -/
theorem noise_layout_differs :
    ∃ (p : PriorShapes) (X : Shp) (Y : Arr ℚ), (∃ r, preprocess p .none (some X) .none Y = .ok r) ∧
      preprocess p .none (some X) (.normal Y.shape) Y = .error .valueError ∧
      ∃ r, preprocess p .none (some X) (.normal [2, 3]) Y = .ok r := by
  refine ⟨⟨[], [2]⟩, [3], ⟨[3, 2], fun _ => 0⟩, ⟨_, rfl⟩, rfl, ⟨_, rfl⟩⟩

example : Builds ⟨[2], [3]⟩ .none (some [5, 2]) ⟨[3, 5], true⟩ ∧ NoiseOK ⟨[3, 5], true⟩ (.normal [3, 5]) ∧
    YOK ⟨[2], [3]⟩ ⟨[3, 5], true⟩ [5, 3] :=
  ⟨.evaluation [5], Or.inr (Or.inl rfl), ⟨[5], rfl, rfl⟩⟩

example : ¬ YOK ⟨[2], [3]⟩ ⟨[3, 5], true⟩ [3, 5] := by
  rintro ⟨batch, h1, h2⟩
  rcases batch with _ | ⟨a, _ | ⟨b, t⟩⟩
  · simp at h1
  · simp at h2
  · simp at h2

end LinPDE.GP.Validate
