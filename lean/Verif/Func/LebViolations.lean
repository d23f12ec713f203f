import Verif.Func.LebProps
import Verif.Func.Violations
import Verif.Func.More
import Mathlib.Analysis.SpecialFunctions.Integrals.Basic

/-!
# Failures of the Lebesgue integral functional
-/

namespace LinPDE.Func
open LinPDE.Nd MeasureTheory

/-- The functional calls itself on a scaled function: whatever the recursion limit, no scaled function is ever integrated. -/
theorem lebesgue_scaled_violated (L : Leb) (f : FE ℝ) (c : ℝ) : ∀ n, L.call n (.scaled f c) = .error .recursionError
  | 0 => by rw [Leb.call]
  | n + 1 => by
    rw [Leb.call, lebesgue_scaled_violated L f c n]
    simp only [Leb.orNumeric]

/-- Also a sum with a scaled summand is not integrated (if the summands before it are). -/
theorem lebesgue_sum_scaled_violated (L : Leb) (i o : Shp) (f g : FE ℝ) (c : ℝ) (gs : List (FE ℝ))
    (n : ℕ) {a : Arr ℝ} (hg : L.call n g = .ok a) : L.call (n + 1) (.sum i o (g :: .scaled f c :: gs)) = .error .recursionError := by
  rw [Leb.call]
  simp only [mapE, hg, lebesgue_scaled_violated, bind, Except.bind, Leb.orNumeric]

/-- Functions other than constants, sums and scaled functions cannot be integrated over boxes of two or more dimensions:
`nquad` passes one argument per dimension, the functions take one array. -/
theorem lebesgue_box_violated {ds : List (ℝ × ℝ)} (hd : 2 ≤ ds.length) (n : ℕ) {f : FE ℝ}
    (hf : (∃ A b, f = .affine A b) ∨ ∃ i o s v, f = .lam i o s v) :
    (Leb.mk (.box ds) []).call (n + 1) f = .error .typeError := by
  have key : (Leb.mk (.box ds) []).orNumeric f (.error .notImplemented) = .error .typeError := by
    match ds, hd with
    | d1 :: d2 :: ds, _ => simp [Leb.orNumeric, Leb.numeric]
  rcases hf with ⟨A, b, rfl⟩ | ⟨i, o, s, v, rfl⟩ <;> (rw [Leb.call]; exact key; all_goals nofun)

/-- Over a box of one dimension, functions of scalars without a closed form are integrated over its side; functions of vectors of
length one, the functions on the box, are refused with `ValueError`, and a side of length zero with `TypeError`. -/
theorem lebesgue_box1_partial (a b : ℝ) (n : ℕ) {f : FE ℝ} (hf : (∃ A c, f = .affine A c) ∨ ∃ i o s v, f = .lam i o s v) :
    (a = b → (Leb.mk (.box [(a, b)]) []).call (n + 1) f = .error .typeError) ∧
    (a ≠ b → f.inS = [1] → (Leb.mk (.box [(a, b)]) []).call (n + 1) f = .error .valueError) ∧
    (a ≠ b → WF f → f.inS = [] → f.outS = [] →
      (Leb.mk (.box [(a, b)]) []).call (n + 1) f = .ok ⟨[], fun _ => ∫ t in a..b, f.den (fun _ => t) []⟩) := by
  have key : (Leb.mk (.box [(a, b)]) []).call (n + 1) f = if a = b then .error .typeError else quad f a b := by
    have h : (Leb.mk (.box [(a, b)]) []).orNumeric f (.error .notImplemented) = if a = b then .error .typeError else quad f a b := by
      simp [Leb.orNumeric, Leb.numeric]
    rcases hf with ⟨A, b, rfl⟩ | ⟨i, o, s, v, rfl⟩ <;> (rw [Leb.call]; exact h; all_goals nofun)
  rw [key]
  refine ⟨fun h => if_pos h, fun h hi => ?_, fun h hw hi ho => ?_⟩
  · rw [if_neg h, quad, (call_shapes f ⟨[], fun _ => a⟩).1 (by simp [hi])]
  · rw [if_neg h]
    exact quad_ok hw hi ho a b

/-- The identity on scalars and the sum of the entries of a vector, on `[0, 2]`. -/
example : (Leb.mk (.box [(0, 2)]) []).call 1 (.affine ⟨[], fun _ => 1⟩ ⟨[], fun _ => 0⟩) = .ok ⟨[], fun _ => ∫ t in (0 : ℝ)..2,
      (FE.affine ⟨[], fun _ => 1⟩ ⟨[], fun _ => 0⟩ : FE ℝ).den (fun _ => t) []⟩ ∧
    (Leb.mk (.box [(0, 2)]) []).call 1 (.lam [1] [] (fun b => b) fun x _ => x.get [0]) = .error .valueError :=
  ⟨(lebesgue_box1_partial 0 2 0 (.inl ⟨_, _, rfl⟩)).2.2 (by norm_num) (.affine (by simp) (by simp [FE.outS])) (by simp [FE.inS]) (by simp [FE.outS]),
    (lebesgue_box1_partial 0 2 0 (.inr ⟨_, _, _, _, rfl⟩)).2.1 (by norm_num) rfl⟩

/-- The output shape of the functional is not compared with that of the function: constants of every shape are accepted. -/
theorem lebesgue_codomain_violated : ∃ (L : Leb) (f : FE ℝ), mkLeb (.interval 0 1) [] = .ok L ∧ ∀ n,
    ∃ a, L.call (n + 1) f = .ok a ∧ a.shape = [2] := by
  refine ⟨⟨.interval 0 1, []⟩, .const [] ⟨[2], fun _ => 1⟩, rfl, fun n => ?_⟩
  rw [Leb.call, Leb.ofConst]
  exact ⟨_, rfl, rfl⟩

/-- Functionals with array values do not integrate functions without a closed form: `NotImplementedError`. -/
theorem lebesgue_vector_refused {L : Leb} (hc : L.cod ≠ []) (n : ℕ) {f : FE ℝ}
    (hf : (∃ A b, f = .affine A b) ∨ ∃ i o s v, f = .lam i o s v) : L.call (n + 1) f = .error .notImplemented := by
  have key : L.orNumeric f (.error .notImplemented) = .error .notImplemented := by
    simp only [Leb.orNumeric, Leb.numeric, if_pos hc]
  rcases hf with ⟨A, b, rfl⟩ | ⟨i, o, s, v, rfl⟩ <;> (rw [Leb.call]; exact key; all_goals nofun)

/-- Domains accepted by the functional: intervals and boxes. -/
theorem mkLeb_accepts (D : Domains.Dom) (cod : Shp) :
    (∃ L, mkLeb D cod = .ok L) ↔ (∃ a b, D = .interval a b) ∨ ∃ ds, D = .box ds := by
  cases D <;> simp [mkLeb]

/-- Other domains are refused with `TypeError`. -/
theorem mkLeb_refuses {D : Domains.Dom} (h1 : ∀ a b, D ≠ .interval a b) (h2 : ∀ ds, D ≠ .box ds) (cod : Shp) : mkLeb D cod = .error .typeError := by
  cases D with
  | interval a b => exact absurd rfl (h1 a b)
  | box ds => exact absurd rfl (h2 ds)
  | _ => rfl

/-- The accepted functional keeps domain and shape. -/
theorem mkLeb_fields {D : Domains.Dom} {cod : Shp} {L : Leb} (h : mkLeb D cod = .ok L) : L.dom = D ∧ L.cod = cod := by
  cases D <;> simp only [mkLeb, Except.ok.injEq, reduceCtorEq] at h <;> subst h <;> exact ⟨rfl, rfl⟩

/-- Constants on every accepted valid domain: value times volume, with recursion depth one. -/
theorem lebesgue_const {L : Leb} (hv : L.dom.Valid) (hne : L.dom.NonEmptyProds) (i : Shp) (v : Arr ℝ) (n : ℕ) :
    ∃ a, L.call (n + 1) (.const i v) = .ok a ∧ a.shape = v.shape ∧ ∀ o, a.get o = v.get o * (volume L.dom.toSet).toReal := by
  obtain ⟨r, h1, h2⟩ := Domains.volume_measure L.dom hv hne
  refine ⟨⟨v.shape, fun i => v.get i * r⟩, by rw [Leb.call, Leb.ofConst, h1], rfl, fun o => ?_⟩
  rw [← h2]

/-- A box without factors has no volume (`reduce` of an empty sequence): constants raise `TypeError`. -/
theorem lebesgue_empty_box (cod : Shp) (i : Shp) (v : Arr ℝ) (n : ℕ) :
    mkLeb (.box []) cod = .ok ⟨.box [], cod⟩ ∧ (Leb.mk (.box []) cod).call (n + 1) (.const i v) = .error .typeError :=
  ⟨rfl, rfl⟩

/-! Cases -/

/-- `t ↦ 3 t + 2` plus the constant 5, on `[1, 2]`. -/
noncomputable def lebEx : FE ℝ := .sum [] [] [.affine ⟨[], fun _ => 3⟩ ⟨[], fun _ => 2⟩, .const [] ⟨[], fun _ => 5⟩]

example : ∃ N, ∀ n ≥ N, ∃ a, (Leb.mk (.interval 1 2) []).call n lebEx = .ok a ∧ a.shape = [] ∧ a.get [] = 23 / 2 := by
  have hok : LebOK (.interval 1 2) lebEx := by
    refine .sum (by simp) (by simp [FE.outS]) fun f hf => ?_
    rcases List.mem_cons.mp hf with rfl | hf
    · refine .affine rfl (by simp [FE.inS]) (by simp [FE.outS]) (.affine (by simp) (by simp [FE.outS])) ?_
      refine Continuous.intervalIntegrable ?_ _ _
      simp only [FE.den]
      fun_prop
    · simp only [List.mem_singleton] at hf
      subst hf
      exact .const
  obtain ⟨N, hN⟩ := lebesgue_partial (L := ⟨.interval 1 2, []⟩) (f := lebEx) (by simp [Domains.Dom.Valid]) trivial hok rfl
  refine ⟨N, fun n hn => ?_⟩
  obtain ⟨a, h1, h2, h3⟩ := hN n hn
  refine ⟨a, h1, h2, ?_⟩
  rw [h3 [] trivial]
  simp only [integralOver, lebEx, FE.den, denAll, List.map_cons, List.map_nil, List.sum_cons, List.sum_nil, add_zero]
  have : (∫ t in (1 : ℝ)..2, 3 * t + 2 + 5) = 3 * ((2 ^ 2 - 1 ^ 2) / 2) + 7 := by
    rw [intervalIntegral.integral_congr (g := fun t => 3 * t + 7) (fun t _ => by ring),
      intervalIntegral.integral_add (by apply Continuous.intervalIntegrable; fun_prop) (by simp),
      intervalIntegral.integral_const_mul, integral_id, intervalIntegral.integral_const]
    norm_num
  rw [this]
  norm_num

example : (Leb.mk (.box [(0, 1), (2, 5)]) [2]).dom.Valid ∧ (Leb.mk (.box [(0, 1), (2, 5)]) [2]).dom.NonEmptyProds := by
  simp [Domains.Dom.Valid, Domains.Dom.NonEmptyProds]; norm_num

end LinPDE.Func
