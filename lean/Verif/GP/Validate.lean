import Verif.Nd.Basic

/-!
# Model of the argument handling of `condition_on_observations`
(`randprocs/_gaussian_process/_conditional.py:296-399`, C07)

Kinds and shapes of the arguments are modelled; the numerical part is in `GP/Model.lean`.
-/

namespace LinPDE.GP.Validate
open LinPDE.Nd

/-- Exceptions raised by the argument handling. -/
inductive Exc
  | typeError | valueError | assertionError
deriving DecidableEq, Repr

/-- The argument `L`. -/
inductive LArg
  /-- a `LinearFunctional` with its `output_shape` -/
  | functional (out : Shp)
  /-- a `LinearFunctionOperator` with its `output_domain_shape`, `output_codomain_shape` -/
  | operator (dom codom : Shp)
  | none
  /-- an object of any other type -/
  | other
deriving DecidableEq, Repr

/-- The argument `b` (after `asrandvar`). -/
inductive BArg
  | none
  | normal (shape : Shp)
  | constant (shape : Shp)
  /-- a random variable of another type -/
  | otherRV (shape : Shp)
deriving DecidableEq, Repr

/-- Shapes of the prior process. -/
structure PriorShapes where
  input : Shp
  output : Shp
deriving DecidableEq, Repr

/-- The measurement functional that is built: its output shape, and whether it is an
`_EvaluationFunctional` (which changes the treatment of `Y`). -/
structure Meas where
  output : Shp
  isEval : Bool
deriving DecidableEq, Repr

/-- `linfunctls/_evaluation.py:21-36` (`_EvaluationFunctional.__init__`). Negative slice bounds cut
from the end. -/
def mkEval (dom codom xs : Shp) : Except Exc Meas :=
  let batch := if dom.length ≤ xs.length then xs.take (xs.length - dom.length)
    else xs.take (xs.length - (dom.length - xs.length))
  if xs = batch ++ dom then .ok { output := codom ++ batch, isEval := true } else .error .assertionError

/-- `linfuncops/_linfuncop.py:93-104` (`to_linfunctl`): `Evaluation @ self`, a
`CompositeLinearFunctional` with the output shape of the evaluation. -/
def toLinfunctl (dom codom xs : Shp) : Except Exc Meas := do
  let m ← mkEval dom codom xs
  return { output := m.output, isEval := false }

/-- `_conditional.py:315-344`: build the measurement functional. -/
def buildL (p : PriorShapes) : LArg → Option Shp → Except Exc Meas
  | .functional out, X => if X.isSome then .error .typeError else .ok { output := out, isEval := false }
  | .operator dom codom, X => match X with
    | .none => .error .valueError
    | .some xs => toLinfunctl dom codom xs
  | .none, X => match X with
    | .none => .error .valueError
    | .some xs => mkEval p.input p.output xs
  | .other, _ => .error .typeError

/-- `_conditional.py:346-357`: check the noise model. -/
def checkB (m : Meas) : BArg → Except Exc Unit
  | .none => .ok ()
  | .normal s => if s ≠ m.output then .error .valueError else .ok ()
  | .constant s => if s ≠ m.output then .error .valueError else .ok ()
  | .otherRV _ => .error .typeError

variable {α : Type}

/-- `_conditional.py:369-391`: check, transpose and flatten the observations. -/
def checkY (p : PriorShapes) (m : Meas) (Y : Arr α) : Except Exc (List α) := do
  let k := p.output.length
  let Y' ← if m.isEval && decide (0 < k) then
      -- `Y.shape[-k:] != output_shape`
      if Y.shape.drop (Y.shape.length - k) ≠ p.output then Except.error Exc.valueError
      else Except.ok (Y.lastToFront k)
    else Except.ok Y
  if Y'.shape ≠ m.output then .error .valueError else .ok Y'.flatten

/-- `_conditional.py:296-399` (`_preprocess_observations`), argument handling only: the measurement
functional and the flattened observations. -/
def preprocess (p : PriorShapes) (L : LArg) (X : Option Shp) (b : BArg) (Y : Arr α) :
    Except Exc (Meas × List α) := do
  let m ← buildL p L X
  checkB m b
  let y ← checkY p m Y
  return (m, y)

/-! ## Specification -/

/-- Documented argument combinations for `L` and `X`: the resulting functional. -/
inductive Builds (p : PriorShapes) : LArg → Option Shp → Meas → Prop
  | functional (out : Shp) : Builds p (.functional out) none ⟨out, false⟩
  | operator (dom codom batch : Shp) :
    Builds p (.operator dom codom) (some (batch ++ dom)) ⟨codom ++ batch, false⟩
  | evaluation (batch : Shp) : Builds p .none (some (batch ++ p.input)) ⟨p.output ++ batch, true⟩

/-- Admissible noise. -/
def NoiseOK (m : Meas) (b : BArg) : Prop :=
  b = .none ∨ b = .normal m.output ∨ b = .constant m.output

/-- Admissible observations: the output shape of the functional; when observing function values, the
batch axes come first. -/
def YOK (p : PriorShapes) (m : Meas) (ys : Shp) : Prop :=
  if m.isEval then ∃ batch, m.output = p.output ++ batch ∧ ys = batch ++ p.output else ys = m.output

lemma take_append_eq {xs batch dom : Shp} (h : xs = batch ++ dom) :
    xs.take (xs.length - dom.length) = batch := by
  subst h; simp

lemma mkEval_ok_iff (dom codom xs : Shp) (m : Meas) :
    mkEval dom codom xs = .ok m ↔ ∃ batch, xs = batch ++ dom ∧ m = ⟨codom ++ batch, true⟩ := by
  unfold mkEval
  constructor
  · intro h
    dsimp only at h
    generalize (if dom.length ≤ xs.length then xs.take (xs.length - dom.length)
      else xs.take (xs.length - (dom.length - xs.length))) = batch at h
    split at h
    · rename_i h2
      exact ⟨_, h2, (Except.ok.inj h).symm⟩
    · simp at h
  · rintro ⟨batch, h1, rfl⟩
    have hl : dom.length ≤ xs.length := by subst h1; simp
    simp only
    rw [if_pos hl, take_append_eq h1, if_pos h1]

lemma mkEval_error (dom codom xs : Shp) (h : ¬ ∃ batch, xs = batch ++ dom) :
    mkEval dom codom xs = .error .assertionError := by
  unfold mkEval
  simp only
  rw [if_neg]
  intro h2
  exact h ⟨_, h2⟩

lemma buildL_ok_iff (p : PriorShapes) (L : LArg) (X : Option Shp) (m : Meas) :
    buildL p L X = .ok m ↔ Builds p L X m := by
  cases L with
  | functional out =>
    cases X with
    | none => exact ⟨fun h => by cases h; exact .functional out, fun h => by cases h; rfl⟩
    | some xs => exact ⟨fun h => by simp [buildL] at h, fun h => by cases h⟩
  | operator dom codom =>
    cases X with
    | none => exact ⟨fun h => by simp [buildL] at h, fun h => by cases h⟩
    | some xs =>
      simp only [buildL, toLinfunctl]
      constructor
      · intro h
        cases he : mkEval dom codom xs with
        | error e => rw [he] at h; cases h
        | ok m' =>
          rw [he] at h
          obtain ⟨batch, rfl, rfl⟩ := (mkEval_ok_iff _ _ _ _).mp he
          cases h
          exact .operator dom codom batch
      · intro h
        cases h with
        | operator _ _ batch =>
          rw [(mkEval_ok_iff dom codom (batch ++ dom) _).mpr ⟨batch, rfl, rfl⟩]
          rfl
  | none =>
    cases X with
    | none => exact ⟨fun h => by simp [buildL] at h, fun h => by cases h⟩
    | some xs =>
      simp only [buildL]
      rw [mkEval_ok_iff]
      constructor
      · rintro ⟨batch, rfl, rfl⟩
        exact .evaluation batch
      · intro h
        cases h with
        | evaluation batch => exact ⟨batch, rfl, rfl⟩
  | other => exact ⟨fun h => by simp [buildL] at h, fun h => by cases h⟩

lemma checkB_ok_iff (m : Meas) (b : BArg) : checkB m b = .ok () ↔ NoiseOK m b := by
  cases b <;> simp [checkB, NoiseOK, eq_comm]

lemma drop_append_eq {ys out : Shp} : ys.drop (ys.length - out.length) = out ↔ ∃ batch, ys = batch ++ out := by
  constructor
  · intro h
    exact ⟨ys.take (ys.length - out.length), by
      conv_lhs => rw [← List.take_append_drop (ys.length - out.length) ys]
      rw [h]⟩
  · rintro ⟨batch, rfl⟩; simp

lemma lastToFront_shape (Y : Arr α) (batch out : Shp) (h : Y.shape = batch ++ out) :
    (Y.lastToFront out.length).shape = out ++ batch := by
  simp [Arr.lastToFront, h]

lemma checkY_of (p : PriorShapes) (m : Meas) (Y : Arr α) (hY : YOK p m Y.shape) :
    checkY p m Y = .ok (if m.isEval && decide (0 < p.output.length) then
      (Y.lastToFront p.output.length).flatten else Y.flatten) := by
  unfold checkY
  cases hm : m.isEval with
  | false =>
    have h5 : Y.shape = m.output := by simpa [YOK, hm] using hY
    simp [h5, bind, Except.bind]
  | true =>
    obtain ⟨batch, h5, h6⟩ : ∃ batch, m.output = p.output ++ batch ∧ Y.shape = batch ++ p.output := by
      simpa [YOK, hm] using hY
    by_cases hk : 0 < p.output.length
    · have h7 := (drop_append_eq (ys := Y.shape) (out := p.output)).mpr ⟨batch, h6⟩
      have h8 := lastToFront_shape Y batch p.output h6
      simp [hk, h7, bind, Except.bind, h8, h5]
    · have hk0 : p.output = [] := List.length_eq_zero_iff.mp (by omega)
      rw [hk0] at h5 h6
      simp at h5 h6
      simp [hk0, bind, Except.bind, h5, h6]

lemma checkY_error (p : PriorShapes) (L : LArg) (X : Option Shp) (m : Meas) (Y : Arr α) (h : Builds p L X m)
    (hY : ¬ YOK p m Y.shape) : checkY p m Y = .error .valueError := by
  unfold checkY
  cases hm : m.isEval with
  | false =>
    have h5 : Y.shape ≠ m.output := by simpa [YOK, hm] using hY
    simp [h5, bind, Except.bind]
  | true =>
    cases h with
    | functional out => simp at hm
    | operator _ _ _ => simp at hm
    | evaluation batch =>
      have h0 : Y.shape ≠ batch ++ p.output := by
        intro h
        exact hY (by simp only [YOK, if_true]; exact ⟨batch, rfl, h⟩)
      by_cases hk : 0 < p.output.length
      · by_cases h7 : Y.shape.drop (Y.shape.length - p.output.length) = p.output
        · obtain ⟨b', hb'⟩ := drop_append_eq.mp h7
          have h8 := lastToFront_shape Y b' p.output hb'
          have h9 : b' ≠ batch := by rintro rfl; exact h0 hb'
          simp [hk, h7, bind, Except.bind, h8, h9]
        · simp [hk, h7, bind, Except.bind]
      · have hk0 : p.output = [] := List.length_eq_zero_iff.mp (by omega)
        rw [hk0] at h0
        simp at h0
        simp [hk0, bind, Except.bind, h0]

lemma checkY_spec (p : PriorShapes) (L : LArg) (X : Option Shp) (m : Meas) (Y : Arr α) (y : List α)
    (h : Builds p L X m) (hc : checkY p m Y = .ok y) : YOK p m Y.shape ∧
      y = (if m.isEval && decide (0 < p.output.length) then (Y.lastToFront p.output.length).flatten
             else Y.flatten) := by
  by_cases hY : YOK p m Y.shape
  · refine ⟨hY, ?_⟩
    rw [checkY_of p m Y hY] at hc
    exact (Except.ok.inj hc).symm
  · rw [checkY_error p L X m Y h hY] at hc
    cases hc

end LinPDE.GP.Validate
