import Verif.XCov.Violations
import Verif.CovAlg.Refuse

/-!
# Incompatible shapes are refused: cross-covariances and functionals
-/

namespace LinPDE.XCov
open LinPDE.Nd LinPDE.Ops LinPDE.CovAlg LinPDE.Covar
variable {X : Type}

/-! ## Constructors -/

/-- Two cross-covariances are added exactly when all their shapes and their orientations agree. -/
theorem pvAdd_ok_iff (c d e : PV X) : c.add d = .ok e ↔
    d.inS = c.inS ∧ d.outS = c.outS ∧ d.rv = c.rv ∧ d.rev = c.rev ∧ e = .sum c.inS c.outS c.rv c.rev [c, d] := by
  unfold PV.add
  split_ifs with h
  · simp only [Except.ok.injEq, eq_comm (a := PV.sum ..)]
    tauto
  · simp only [false_iff]
    tauto

/-- A matrix is put in front of a cross-covariance exactly when that is one with a vector of as many entries as the matrix
has columns. -/
theorem mkLinopPV_ok_iff (A : LMat) (c e : PV X) : mkLinopPV A c = .ok e ↔ c.rv = [A.cols] ∧ e = .linop A c := by
  unfold mkLinopPV
  constructor
  · intro h
    split_ifs at h with h1 h2
    cases h
    exact ⟨(not_not.mp h2).symm, rfl⟩
  · rintro ⟨h, rfl⟩
    rw [if_neg (by simp [h]), if_neg (by simp [h])]

/-- A stack is built exactly from at least one cross-covariance, all with scalar processes on the same input space, the same
shape of the vector and the same orientation. -/
theorem mkStackPV_ok_iff (s : Shp) (cs : List (PV X)) (e : PV X) : mkStackPV s cs = .ok e ↔
    cs ≠ [] ∧ ∃ i rv rev, (∀ d ∈ cs, d.inS = i ∧ d.outS = [] ∧ d.rv = rv ∧ d.rev = rev) ∧ e = .stack i rv rev s cs := by
  cases cs with
  | nil => simp [mkStackPV]
  | cons c ds =>
    rw [mkStackPV]
    constructor
    · intro h
      split_ifs at h with h1 h2 h3 h4
      cases h
      simp only [List.all_eq_true, decide_eq_true_eq] at h1 h2 h3 h4
      exact ⟨by simp, _, _, _, fun d hd => ⟨h1 d hd, h2 d hd, h3 d hd, h4 d hd⟩, rfl⟩
    · rintro ⟨-, i, rv, rev, h, rfl⟩
      obtain ⟨a1, a2, a3, a4⟩ := h c List.mem_cons_self
      rw [if_neg, if_neg, if_neg, if_neg, a1, a3, a4]
      all_goals
        simp only [not_not, List.all_eq_true, decide_eq_true_eq]
        intro d hd
        obtain ⟨b1, b2, b3, b4⟩ := h d hd
        simp_all

example : ∃ e, mkStackPV [2] [(.zero [] [] [3] false : PV ℝ), .zero [] [] [3] false] = .ok e :=
  ⟨_, (mkStackPV_ok_iff _ _ _).mpr ⟨by simp, [], [3], false, by simp [PV.inS, PV.outS, PV.rv, PV.rev], rfl⟩⟩

example : ∀ e, mkStackPV [2] [(.zero [] [] [3] false : PV ℝ), .zero [] [] [3] true] ≠ .ok e := fun e h => by
  obtain ⟨-, i, rv, rev, h, -⟩ := (mkStackPV_ok_iff _ _ _).mp h
  have h1 := (h (.zero [] [] [3] false) (by simp)).2.2.2
  have h2 := (h (.zero [] [] [3] true) (by simp)).2.2.2
  simp only [PV.rev] at h1 h2
  rw [← h1] at h2
  cases h2

/-! ## Calls -/

lemma checked_ok {c : PV X} {x : Pts X} {e : Except Err (Nd.Arr ℝ)} {a : Nd.Arr ℝ} (h : c.checked x e = .ok a) :
    x.inS = c.inS ∧ a.shape = layout c.rev c.rv x.batch c.outS := by
  unfold PV.checked at h
  split_ifs at h with h1
  obtain ⟨b, -, h2⟩ := bind_ok' h
  split_ifs at h2 with h3
  cases h2
  exact ⟨not_not.mp h1, h3⟩

/-- Either view of any cross-covariance, well formed or not, returns an array only for points of its own input shape, and
then the array has the shape that the orientation, the batch and the output shapes prescribe. -/
theorem call_refuses (jax : Bool) (c : PV X) (x : Pts X) (a : Nd.Arr ℝ) (h : c.callG jax x = .ok a) :
    x.inS = c.inS ∧ a.shape = (if c.rev then c.rv ++ x.batch ++ c.outS else x.batch ++ c.outS ++ c.rv) := by
  have key : x.inS = c.inS ∧ a.shape = layout c.rev c.rv x.batch c.outS := by
    cases c <;> (rw [PV.callG] at h; exact checked_ok h)
  refine ⟨key.1, key.2.trans ?_⟩
  simp [layout]

example (x : Pts ℝ) (hx : x.inS = [2]) (a : Nd.Arr ℝ) : (PV.zero [] [] [3] false : PV ℝ).call x ≠ .ok a := fun h => by
  have := (call_refuses false _ x a h).1
  rw [hx] at this
  simp [PV.inS] at this

example (x : Pts ℝ) (hx : x.inS = []) : ∃ a, (PV.zero [] [] [3] false : PV ℝ).call x = .ok a ∧ a.shape = x.batch ++ [] ++ [3] := by
  have h : (PV.zero [] [] [3] false : PV ℝ).call x = .ok (layArr false [3] x.batch [] fun _ _ _ => 0) := by
    rw [PV.call, PV.callG, PV.checked, if_neg (by simp [hx, PV.inS])]
    exact if_pos rfl
  exact ⟨_, h, (call_refuses false _ x _ h).2⟩

/-! ## Functionals -/

lemma bind_chk_fit {α : Type} {i : Shapes} {k : K X} {arg : Bool} {f : Unit → Except Err α} {r : α}
    (h : (chk i k arg >>= f) = .ok r) : Fit i arg k := by
  obtain ⟨⟨⟩, h1, -⟩ := bind_ok' h
  exact (chk_iff i k arg).mp h1

lemma bfn_noRule_fit (b : BFn X) (arg : Bool) (k : K X) (cl : Option (PV X)) (c : PV X) (h : b.noRule arg k cl = .ok c) :
    Fit b.i arg k := by
  unfold BFn.noRule at h
  by_cases hq : b.quad = true
  · rw [if_pos hq] at h
    exact bind_chk_fit h
  · rw [if_neg hq] at h
    cases h

/-- A functional with closed forms or quadrature returns a result only for kernels of its input shapes. -/
theorem bfn_refuses (b : BFn X) (arg : Bool) (k : K X) (c : PV X) (h : b.call arg k = .ok c) : Fit b.i arg k := by
  cases k with
  | base sh cls j ev => rw [BFn.call] at h; exact bfn_noRule_fit _ _ _ _ _ h
  | imo i ks => rw [BFn.call] at h; exact bfn_noRule_fit _ _ _ _ _ h
  | scaled m s => rw [BFn.call] at h; exact bind_chk_fit h
  | sum sh ks => rw [BFn.call] at h; exact bind_chk_fit h
  | stack i0 i1 s idx ks => rw [BFn.call] at h; exact bind_chk_fit h
  | zero sh => rw [BFn.call] at h; exact bind_chk_fit h

/-- Any functional expression returns a result only for kernels that have its input shapes in the chosen argument. -/
theorem functional_refuses (dom : Shp) (arg : Bool) : ∀ (F : Fn X) (i : Shapes) (o : Shp) (k : K X) (c : PV X), F.Typed dom i o →
    F.call arg k = .ok c → Fit i arg k
  | .base b, i, o, k, c, ht, h => by
    rw [Fn.call] at h
    rw [← ht.1]
    exact bfn_refuses b arg k c h
  | .point f, i, o, k, c, ht, h => by
    rw [Fn.call] at h
    rw [← ht.1]
    exact bind_chk_fit h
  | .comp j A F L, i, o, k, c, ht, h => by
    rw [Fn.call] at h
    rw [← ht.1]
    exact bind_chk_fit h
  | .scaled F s, i, o, k, c, ht, h => by
    rw [Fn.call] at h
    obtain ⟨d, h1, -⟩ := bind_ok' h
    exact functional_refuses dom arg F i o k d ht h1
  | .sum [], _, _, _, _, ht, _ => absurd rfl ht.1
  | .sum (F :: Fs), i, o, k, c, ht, h => by
    rw [Fn.call, Fn.callAll] at h
    obtain ⟨cs, h1, -⟩ := bind_ok' h
    obtain ⟨d, h2, -⟩ := bind_ok' h1
    exact functional_refuses dom arg F i o k d ht.2.1 h2

/-- Point evaluation of scalar functions refuses a kernel that is stacked in that argument. -/
example (x : Pts ℝ) (hx : x.inS = []) : ∀ c, (Fn.point ⟨true, ([], []), x⟩).call false exK ≠ .ok c := fun c h => by
  have := functional_refuses [] false (.point ⟨true, ([], []), x⟩) ([], []) _ exK c ⟨rfl, rfl, hx, rfl⟩ h
  exact absurd this.2 (by simp [exK, K.sh, KSh.outA])

end LinPDE.XCov
