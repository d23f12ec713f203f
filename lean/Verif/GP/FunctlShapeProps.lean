import Verif.GP.FunctlShape
import Verif.GP.Props
import Verif.GP.CovPaths
import Verif.Param.Props

/-! # Linear functionals of conditioned processes: shapes and values (C52) -/

namespace LinPDE.GP
open Matrix LinPDE.Block LinPDE.Nd

variable {X : Type} {P : Prior X}

lemma fits_concat {pre : Shp} {b : ℕ} {i : List ℕ} (h : Fits (pre ++ [b]) i) :
    ∃ i' j, i = i' ++ [j] ∧ Fits pre i' ∧ j < b := by
  have hl := h.length
  rcases List.eq_nil_or_concat i with rfl | ⟨i', j, rfl⟩
  · simp at hl
  · rw [List.concat_eq_append] at *
    have hl' : i'.length = pre.length := by simpa using hl
    obtain ⟨h1, h2⟩ := (fits_append hl').mp h
    exact ⟨i', j, rfl, h1, h2.1⟩

lemma ravel_ones : ∀ {pre : Shp} {i : List ℕ}, pre.prod = 1 → Fits pre i → ravel pre i = 0
  | pre, i, hp, h => by
    have := ravel_lt h
    omega

lemma mkNormal_ok {mean : Arr ℝ} {n : ℕ} {cov : Matrix (Fin n) (Fin n) ℝ} (h : mean.shape.prod = n) :
    mkNormal mean cov = .ok (mean, cov) := by
  unfold mkNormal
  rw [if_neg fun hh => hh.2 h]

/-- Broadcasting a shape against a vector. -/
lemma bcast_vector (pre : Shp) (b n : ℕ) : Coeff.bcast (pre ++ [b]) [n] =
    if b = n then some (pre ++ [b]) else if b = 1 then some (pre ++ [n]) else if n = 1 then some (pre ++ [b]) else none := by
  unfold Coeff.bcast
  simp only [List.reverse_append, List.reverse_cons, List.reverse_nil, List.nil_append, List.singleton_append, Coeff.bcastRev]
  have h0 : ∀ s : Shp, Coeff.bcastRev s [] = some s := fun s => by cases s <;> rfl
  split_ifs <;> simp [h0]

/-- C52: a functional of the prior gives a random variable whose mean has the output shape (`(1,)` for the shape `()`) and whose
covariance has the matching size, for every output shape. -/
theorem functl_prior (P : Prior X) (out : Shp) (L : List ℕ → P.Λ) :
    ∃ m C, P.functlCall out L = .ok (m, C) ∧ m.shape = (if out = [] then [1] else out) ∧
      (∀ i, Fits out i → m.get (if out = [] then [0] else i) = (L i).1 P.m) ∧
      ∀ a b, C a b = P.cov (L (unravel out a)) (L (unravel out b)) := by
  unfold Prior.functlCall
  by_cases ho : out = []
  · subst ho
    refine ⟨_, _, mkNormal_ok (by simp), by simp, fun i hi => ?_, fun a b => rfl⟩
    cases i with
    | nil => rfl
    | cons _ _ => exact hi.elim
  · refine ⟨_, _, mkNormal_ok (by simp [ho]), by simp [ho], fun i _ => by simp [ho], fun a b => rfl⟩

/-- C52 (the part that holds): if no axis of the output shape but the last is longer than one, a functional of the conditioned
process gives a random variable of the output shape whose mean is the posterior mean of the functional and whose covariance is
its posterior covariance; for every other non-empty output shape `ValueError` is raised.  No wrong values are returned. -/
theorem functl_shape_partial (e : Env) (he : e.CholOK) (hP : P.Regular) (b : Batch P) (l : List (Batch P))
    (hG : (jG (b :: l)).PosDef) (c : Cond P) (hc : run e b l = .ok c) (out : Shp) (hpos : 0 < out.prod)
    (L : List ℕ → P.Λ) :
    (out = [] ∨ out.getLast? = some out.prod → ∃ m C, c.functlCall e out L = .ok (m, C) ∧
      m.shape = (if out = [] then [1] else out) ∧
      (∀ i, Fits out i → m.get (if out = [] then [0] else i) = (L i).1 (posterior P (b :: l)).m) ∧
      ∀ a a', C a a' = (posterior P (b :: l)).cov (L (unravel out a)) (L (unravel out a'))) ∧
    (¬ (out = [] ∨ out.getLast? = some out.prod) → c.functlCall e out L = .error .valueError) := by
  obtain ⟨hm, hC⟩ := functl_posterior e he hP b l hG c hc fun i : Fin out.prod => L (unravel out i)
  obtain ⟨m0, C0, h0, hs0, hv0, -⟩ := functl_prior P out L
  have hmean : ∀ a : Fin out.prod, (L (unravel out a)).1 P.m + ∑ j, (L (unravel out a)).1 (c.kLas j) * c.w j () =
      (L (unravel out a)).1 (posterior P (b :: l)).m := hm
  have hrw : ∀ s, Coeff.bcast m0.shape [out.prod] = some s → c.functlCall e out L =
      mkNormal ⟨s, fun i => m0.get (Param.bidx m0.shape i) +
        ∑ j, (L (unravel out ((Param.bidx [out.prod] i).getD 0 0))).1 (c.kLas j) * c.w j ()⟩
        (Matrix.of fun i j : Fin out.prod => (posterior P (b :: l)).cov (L (unravel out i)) (L (unravel out j))) := by
    intro s hs
    unfold Core.functlCall
    rw [h0]
    simp only [bind, Except.bind, hs, hC]
  have hnone : Coeff.bcast m0.shape [out.prod] = none → c.functlCall e out L = .error .valueError := by
    intro hs
    unfold Core.functlCall
    rw [h0]
    simp only [bind, Except.bind, hs]
  rcases List.eq_nil_or_concat out with rfl | ⟨pre, bb, rfl⟩
  · refine ⟨fun _ => ?_, fun hh => absurd (Or.inl rfl) hh⟩
    simp only [if_true] at hs0
    have hb : Coeff.bcast m0.shape [([] : Shp).prod] = some [1] := by rw [hs0]; rfl
    rw [hrw _ hb]
    refine ⟨_, _, mkNormal_ok (by simp), by simp, fun i hi => ?_, fun a a' => rfl⟩
    cases i with
    | cons _ _ => exact hi.elim
    | nil =>
      have := hmean ⟨0, by simp⟩
      have hv := hv0 [] trivial
      simp only [if_true] at hv ⊢
      rw [hs0]
      have e1 : Param.bidx [1] [0] = [0] := rfl
      rw [e1, hv]
      exact this
  · rw [List.concat_eq_append] at *
    have hne : pre ++ [bb] ≠ [] := by simp
    simp only [hne, if_false, false_or] at *
    have hp : (pre ++ [bb]).prod = pre.prod * bb := by simp
    have hlast : (pre ++ [bb]).getLast? = some bb := by simp
    rw [hlast]
    constructor
    · intro hb
      have hbb : bb = (pre ++ [bb]).prod := Option.some.inj hb
      have h1 : pre.prod = 1 := by
        rw [hp] at hbb hpos
        have : 0 < bb := Nat.pos_of_ne_zero fun h => by simp [h] at hpos
        have h2 : pre.prod * bb = 1 * bb := by omega
        exact Nat.eq_of_mul_eq_mul_right this h2
      have hbc : Coeff.bcast m0.shape [(pre ++ [bb]).prod] = some (pre ++ [bb]) := by
        rw [hs0, bcast_vector, if_pos hbb]
      rw [hrw _ hbc]
      refine ⟨_, _, mkNormal_ok (by simp), by simp, fun i hi => ?_, fun a a' => rfl⟩
      dsimp only
      rw [hs0, Param.bidx_self hi, hv0 i hi]
      obtain ⟨i', j, rfl, hi', hj⟩ := fits_concat hi
      have hr : ravel (pre ++ [bb]) (i' ++ [j]) = j := by
        rw [ravel_append hi'.length, ravel_ones h1 hi']
        simp [ravel]
      have hu : unravel (pre ++ [bb]) j = i' ++ [j] := by rw [← hr, unravel_ravel hi, hr]
      have hd : (Param.bidx [(pre ++ [bb]).prod] (i' ++ [j])).getD 0 0 = j := by
        unfold Param.bidx
        simp only [List.length_append, List.length_singleton, Nat.add_sub_cancel, List.drop_left, List.zipWith_cons_cons,
          List.zipWith_nil_right, List.getD_cons_zero]
        split_ifs with h
        · rw [← hbb] at h
          omega
        · rfl
      rw [hd, hu]
      have := hmean ⟨j, by rw [← hbb]; exact hj⟩
      simp only [hu] at this
      exact this
    · intro hb
      have hb' : bb ≠ (pre ++ [bb]).prod := fun h => hb (by rw [← h])
      by_cases hb1 : bb = 1
      · have hbc : Coeff.bcast m0.shape [(pre ++ [bb]).prod] = some (pre ++ [(pre ++ [bb]).prod]) := by
          rw [hs0, bcast_vector, if_neg hb', if_pos hb1]
        rw [hrw _ hbc]
        unfold mkNormal
        rw [if_pos]
        refine ⟨by simp, ?_⟩
        simp only [List.prod_append, List.prod_singleton, hb1, mul_one] at hb' hpos ⊢
        intro h
        have h2 : pre.prod * pre.prod = 1 * pre.prod := by omega
        exact hb' (Nat.eq_of_mul_eq_mul_right hpos h2).symm
      · refine hnone ?_
        have : (pre ++ [bb]).prod ≠ 1 := by
          rw [hp]
          intro h
          exact hb1 (Nat.eq_one_of_mul_eq_one_left h)
        rw [hs0, bcast_vector, if_neg hb', if_neg hb1, if_neg this]

/-- C52 for empty outputs: the shape is kept if the last axis is the empty one; a last axis of length one is replaced by
an empty one (so the mean has another shape than that of the prior); otherwise `ValueError` is raised. -/
theorem functl_shape_empty_partial (e : Env) (he : e.CholOK) (hP : P.Regular) (b : Batch P) (l : List (Batch P))
    (hG : (jG (b :: l)).PosDef) (c : Cond P) (hc : run e b l = .ok c) (pre : Shp) (last : ℕ) (hz : (pre ++ [last]).prod = 0)
    (L : List ℕ → P.Λ) :
    (last = 0 → ∃ m C, c.functlCall e (pre ++ [last]) L = .ok (m, C) ∧ m.shape = pre ++ [last]) ∧
    (last = 1 → ∃ m C, c.functlCall e (pre ++ [last]) L = .ok (m, C) ∧ m.shape = pre ++ [0]) ∧
    (1 < last → c.functlCall e (pre ++ [last]) L = .error .valueError) := by
  obtain ⟨-, hC⟩ := functl_posterior e he hP b l hG c hc fun i : Fin (pre ++ [last]).prod => L (unravel (pre ++ [last]) i)
  obtain ⟨m0, C0, h0, hs0, -, -⟩ := functl_prior P (pre ++ [last]) L
  have hne : pre ++ [last] ≠ [] := by simp
  rw [if_neg hne] at hs0
  have hok : ∀ s, Coeff.bcast m0.shape [(pre ++ [last]).prod] = some s → s.prod = (pre ++ [last]).prod →
      ∃ m C, c.functlCall e (pre ++ [last]) L = .ok (m, C) ∧ m.shape = s := by
    intro s hs hp
    unfold Core.functlCall
    rw [h0]
    simp only [bind, Except.bind, hs, hC]
    exact ⟨_, _, mkNormal_ok hp, rfl⟩
  refine ⟨fun hl => hok _ ?_ rfl, fun hl => hok _ ?_ ?_, fun hl => ?_⟩
  · rw [hs0, bcast_vector, if_pos (by rw [hz, hl])]
  · rw [hs0, bcast_vector, hz, if_neg (by omega), if_pos hl]
  · rw [hz]; simp
  · have hn : Coeff.bcast m0.shape [(pre ++ [last]).prod] = none := by
      rw [hs0, bcast_vector, hz, if_neg (by omega), if_neg (by omega), if_neg (by omega)]
    unfold Core.functlCall
    rw [h0]
    simp only [bind, Except.bind, hn]

/-- C52 (violated): after conditioning on one value, a functional of output shape `(0, 1)` gives a mean of shape
`(0, 0)`. -/
theorem functl_shape_empty_violated : ∃ (b : Batch (white ℕ)) (L : List ℕ → (white ℕ).Λ), (jG [b]).PosDef ∧
    ∀ e : Env, e.CholOK → ∃ c m C, run e b [] = .ok c ∧ c.functlCall e [0, 1] L = .ok (m, C) ∧ m.shape = [0, 0] := by
  have hinj : Function.Injective fun _ : Fin 1 => (0 : ℕ) := fun a b _ => Subsingleton.elim a b
  have hpd := exactN_posDef (fun _ : Fin 1 => (0 : ℕ)) hinj fun _ => 1
  refine ⟨_, fun i => (white_regular ℕ).ev (i.getD 0 0), hpd, fun e he => ?_⟩
  obtain ⟨c, hc, -, -⟩ := run_posterior e he (white_regular _) _ [] hpd
  obtain ⟨m, C, h1, h2⟩ := (functl_shape_empty_partial e he (white_regular _) _ [] hpd c hc [0] 1 (by norm_num)
    fun i => (white_regular ℕ).ev (i.getD 0 0)).2.1 rfl
  exact ⟨c, m, C, hc, h1, h2⟩

/-- C52 (violated): after conditioning on one value, applying a functional of output shape
`(2, 2)` raises `ValueError`, although the same functional of the prior is a random variable of this shape. -/
theorem functl_shape_violated : ∃ (b : Batch (white ℕ)) (L : List ℕ → (white ℕ).Λ), (jG [b]).PosDef ∧
    ∀ e : Env, e.CholOK → ∃ c m C, run e b [] = .ok c ∧ (white ℕ).functlCall [2, 2] L = .ok (m, C) ∧ m.shape = [2, 2] ∧
      c.functlCall e [2, 2] L = .error .valueError := by
  have hinj : Function.Injective fun _ : Fin 1 => (0 : ℕ) := fun a b _ => Subsingleton.elim a b
  have hpd := exactN_posDef (fun _ : Fin 1 => (0 : ℕ)) hinj fun _ => 1
  refine ⟨_, fun i => (white_regular ℕ).ev (i.getD 0 0), hpd, fun e he => ?_⟩
  obtain ⟨c, hc, -, -⟩ := run_posterior e he (white_regular _) _ [] hpd
  obtain ⟨m, C, h1, h2, -⟩ := functl_prior (white ℕ) [2, 2] fun i => (white_regular ℕ).ev (i.getD 0 0)
  exact ⟨c, m, C, hc, h1, by simpa using h2,
    (functl_shape_partial e he (white_regular _) _ [] hpd c hc [2, 2] (by norm_num) _).2 (by simp)⟩

/-- Output shapes that are handled and that are not. -/
example : ([1, 3] : Shp).getLast? = some ([1, 3] : Shp).prod ∧ ([3, 1] : Shp).getLast? ≠ some ([3, 1] : Shp).prod ∧
    ([2, 3] : Shp).getLast? ≠ some ([2, 3] : Shp).prod := by decide

end LinPDE.GP
