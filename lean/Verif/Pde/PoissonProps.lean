import Verif.Pde.Model
import Verif.Poly.Props
import Verif.Piecewise.Props
import Mathlib.Analysis.Calculus.Deriv.Add
import Mathlib.Analysis.Calculus.Deriv.Mul
import Mathlib.Analysis.Calculus.MeanValue
import Mathlib.Analysis.Calculus.Deriv.MeanValue

/-! # Solutions of the one-dimensional Poisson equation (C44) -/

namespace LinPDE.Pde
open LinPDE.Domains LinPDE.Nd
open LinPDE.Polys
open LinPDE.Piecewise (PW Piece mkPW)
open Set

/-- `u` is twice differentiable on `S` and `-α u'' = f` there. -/
def SolvesPoisson (α : ℝ) (f u : ℝ → ℝ) (S : Set ℝ) : Prop :=
  ∃ u' u'' : ℝ → ℝ, (∀ x ∈ S, HasDerivAt u (u' x) x) ∧ (∀ x ∈ S, HasDerivAt u' (u'' x) x) ∧ ∀ x ∈ S, -α * u'' x = f x

/-! ## Constant right-hand side, Dirichlet conditions -/

lemma constSol_deriv (s : ConstSol) (x : ℝ) :
    HasDerivAt s.eval (s.a.getD 2 0 * (x - s.l) + (s.a.getD 2 0 * (x - s.r) + s.a.getD 1 0)) x := by
  have h1 : HasDerivAt (fun x => s.a.getD 2 0 * (x - s.r) + s.a.getD 1 0) (s.a.getD 2 0) x := by
    simpa using (((hasDerivAt_id x).sub_const s.r).const_mul (s.a.getD 2 0)).add_const (s.a.getD 1 0)
  have h2 : HasDerivAt (fun x => x - s.l) 1 x := (hasDerivAt_id x).sub_const s.l
  have := (h1.mul h2).add_const (s.a.getD 0 0)
  rw [mul_one] at this
  exact this

lemma constSol_deriv2 (s : ConstSol) (x : ℝ) :
    HasDerivAt (fun x => s.a.getD 2 0 * (x - s.l) + (s.a.getD 2 0 * (x - s.r) + s.a.getD 1 0)) (2 * s.a.getD 2 0) x := by
  have h1 : HasDerivAt (fun x => s.a.getD 2 0 * (x - s.r) + s.a.getD 1 0) (s.a.getD 2 0) x := by
    simpa using (((hasDerivAt_id x).sub_const s.r).const_mul (s.a.getD 2 0)).add_const (s.a.getD 1 0)
  have h2 : HasDerivAt (fun x => s.a.getD 2 0 * (x - s.l)) (s.a.getD 2 0) x := by
    simpa using ((hasDerivAt_id x).sub_const s.l).const_mul (s.a.getD 2 0)
  have := h2.add h1
  rwa [← two_mul] at this

/-- C44: the function attached to constant right-hand sides satisfies the equation on the whole line and takes the
boundary values at the two ends. -/
theorem constSol_solves {l r : ℝ} (hlr : l < r) (c ul ur : ℝ) {α : ℝ} (hα : α ≠ 0) :
    ∃ s, mkConstSol (.scalars l r) c [ul, ur] α = .ok s ∧ SolvesPoisson α (fun _ => c) s.eval univ ∧
      s.eval l = ul ∧ s.eval r = ur := by
  have hne : r - l ≠ 0 := sub_ne_zero.mpr hlr.ne'
  refine ⟨⟨l, r, [ul, (ur - ul) / (r - l), 0.5 * c / -α]⟩, ?_, ⟨_, _, fun x _ => constSol_deriv _ x,
    fun x _ => constSol_deriv2 _ x, fun x _ => ?_⟩, ?_, ?_⟩
  · simp [mkConstSol, asdomain, mkInterval, not_lt.mpr hlr.le, hα]
  · simp; field_simp; norm_num
  · simp [ConstSol.eval]
  · simp [ConstSol.eval]; field_simp; ring

example : ∃ s, mkConstSol (.scalars 0 2) 3 [1, 5] 2 = .ok s ∧ SolvesPoisson 2 (fun _ => 3) s.eval univ ∧
    s.eval 0 = 1 ∧ s.eval 2 = 5 := constSol_solves (by norm_num) 3 1 5 (by norm_num)

/-- Any two solutions of the Dirichlet problem with the same right-hand side and the same boundary values agree. -/
theorem dirichlet_unique {l r : ℝ} (hlr : l < r) {α : ℝ} (hα : α ≠ 0) {f u v : ℝ → ℝ}
    (hu : SolvesPoisson α f u (Ioo l r)) (hv : SolvesPoisson α f v (Ioo l r))
    (cu : ContinuousOn u (Icc l r)) (cv : ContinuousOn v (Icc l r)) (hl : u l = v l) (hr : u r = v r) :
    ∀ x ∈ Icc l r, u x = v x := by
  obtain ⟨u', u'', hu1, hu2, hu3⟩ := hu
  obtain ⟨v', v'', hv1, hv2, hv3⟩ := hv
  have hd : ∀ x ∈ Ioo l r, HasDerivAt (fun x => u' x - v' x) 0 x := fun x hx => by
    have := (hu2 x hx).sub (hv2 x hx)
    have e : u'' x - v'' x = 0 := by
      have : α * (u'' x - v'' x) = 0 := by linarith [hu3 x hx, hv3 x hx]
      exact (mul_eq_zero.mp this).resolve_left hα
    rwa [e] at this
  obtain ⟨c, hc⟩ : ∃ c, ∀ x ∈ Ioo l r, u' x - v' x = c := by
    refine ⟨u' ((l + r) / 2) - v' ((l + r) / 2), fun x hx => ?_⟩
    have hm : (l + r) / 2 ∈ Ioo l r := ⟨by linarith, by linarith⟩
    exact isOpen_Ioo.is_const_of_deriv_eq_zero isPreconnected_Ioo
      (fun y hy => (hd y hy).differentiableAt.differentiableWithinAt) (fun y hy => (hd y hy).deriv) hx hm
  -- `u - v - c x` is constant on the closed interval
  have hw : ∀ x ∈ Icc l r, (u x - v x - c * x) = u l - v l - c * l := by
    intro x hx
    rcases hx.1.eq_or_lt with rfl | hlx
    · rfl
    obtain ⟨y, hy, e⟩ := exists_hasDerivAt_eq_slope (fun x => u x - v x - c * x) (fun _ => 0) hlx
      (((cu.sub cv).sub (by fun_prop)).mono (Icc_subset_Icc le_rfl hx.2)) (fun y hy => by
        have hy' : y ∈ Ioo l r := ⟨hy.1, hy.2.trans_le hx.2⟩
        have h := ((hu1 y hy').sub (hv1 y hy')).sub ((hasDerivAt_id y).const_mul c)
        have e : u' y - v' y - c * 1 = 0 := by rw [hc y hy']; ring
        rw [e] at h
        exact h)
    have := (div_eq_zero_iff.mp e.symm).resolve_right (sub_ne_zero.mpr hlx.ne')
    linarith
  have hc0 : c = 0 := by
    have := hw r ⟨hlr.le, le_rfl⟩
    rw [hl, hr] at this
    have h : c * (r - l) = 0 := by linarith
    exact (mul_eq_zero.mp h).resolve_right (sub_ne_zero.mpr hlr.ne')
  intro x hx
  have := hw x hx
  rw [hc0, hl] at this
  linarith

/-! ## Initial value problems, polynomial right-hand side -/

lemma ivp_eval (q : Poly ℝ) (c0 c1 α x : ℝ) :
    (Poly.ofCoeffs (c0 :: c1 :: (q.integrate.integrate.coeffs.drop 2).map fun c => c / -α)).eval x =
      c0 + c1 * x + q.integrate.integrate.eval x / -α := by
  have hcs : ∃ cs, q.integrate.integrate.coeffs = 0 :: 0 :: cs := by
    refine ⟨(q.integrate.integrate.coeffs.drop 2), ?_⟩
    simp [Poly.integrate, Poly.ofCoeffs]
  obtain ⟨cs, hcs⟩ := hcs
  rw [eval_eq_toPoly_eval, eval_eq_toPoly_eval, toPoly_ofCoeffs, toPoly_eq, hcs]
  have key : listPoly (cs.map fun c => c / -α) = Polynomial.C (1 / -α) * listPoly cs := by
    ext n
    rw [coeff_listPoly, Polynomial.coeff_C_mul, coeff_listPoly, getD_map0 _ _ (by simp)]
    ring
  simp only [List.drop_succ_cons, List.drop_zero, listPoly_cons, key]
  simp
  ring

/-- C44: the polynomial solution of the initial value problem. -/
theorem ivpPoly_solves {l r : ℝ} (hlr : l ≤ r) (f : Poly ℝ) (u0 u1 : ℝ) {α : ℝ} (hα : α ≠ 0) :
    ∃ u, mkIvpPoly (.scalars l r) (some f) [u0, u1] α = .ok u ∧ SolvesPoisson α f.eval u.eval univ ∧
      u.eval l = u0 ∧ u.differentiate.eval l = u1 ∧ HasDerivAt u.eval u1 l := by
  set c1 := u1 - f.integrate.eval l / -α with hc1
  set c0 := u0 - l * c1 - f.integrate.integrate.eval l / -α with hc0
  set u := Poly.ofCoeffs (c0 :: c1 :: (f.integrate.integrate.coeffs.drop 2).map fun c => c / -α) with hu
  have he : ∀ x, u.eval x = c0 + c1 * x + f.integrate.integrate.eval x / -α := fun x => ivp_eval f c0 c1 α x
  have hd1 : ∀ x, HasDerivAt u.eval (c1 + f.integrate.eval x / -α) x := fun x => by
    rw [show u.eval = fun x => c0 + c1 * x + f.integrate.integrate.eval x / -α from funext he]
    have := (((hasDerivAt_id x).const_mul c1).const_add c0).add ((hasDerivAt_integrate f.integrate x).1.div_const (-α))
    rw [mul_one] at this
    exact this
  have hd2 : ∀ x, HasDerivAt (fun x => c1 + f.integrate.eval x / -α) (f.eval x / -α) x := fun x =>
    ((hasDerivAt_integrate f x).1.div_const (-α)).const_add c1
  have hl : HasDerivAt u.eval u1 l := by
    have := hd1 l
    rwa [hc1, sub_add_cancel] at this
  refine ⟨u, ?_, ⟨_, _, fun x _ => hd1 x, fun x _ => hd2 x, fun x _ => ?_⟩, ?_, ?_, hl⟩
  · simp [mkIvpPoly, asdomain, mkInterval, not_lt.mpr hlr, hα, hu, hc0, hc1]
  · field_simp
  · rw [he, hc0]; ring
  · exact (hasDerivAt_eval u l).unique hl

example : ∃ u, mkIvpPoly (.scalars 1 2) (some (.ofCoeffs [1, 2, 3])) [4, 5] 2 = .ok u ∧
    SolvesPoisson 2 (Poly.ofCoeffs [1, 2, 3]).eval u.eval univ ∧ u.eval 1 = 4 ∧ u.differentiate.eval 1 = 5 ∧
    HasDerivAt u.eval 5 1 := ivpPoly_solves (by norm_num) _ 4 5 (by norm_num)

end LinPDE.Pde
