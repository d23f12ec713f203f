import Verif.ExpQuad.Model
import Verif.Matern.Props

/-! # Derivatives of the squared-exponential kernel (C27) -/

namespace LinPDE.ExpQuad
open LinPDE.Matern (DOp OpAt dot dot_add_left dot_comm dot_smul_left)
open Filter Topology

variable {d : ℕ}

/-! ## Along a line -/

lemma hasDerivAt_gauss (e c0 c1 t : ℝ) :
    HasDerivAt (fun t => Real.exp (-(e + c0 * t + c1 * t ^ 2 / 2)))
      (-(c0 + c1 * t) * Real.exp (-(e + c0 * t + c1 * t ^ 2 / 2))) t := by
  have h : HasDerivAt (fun t : ℝ => -(e + c0 * t + c1 * t ^ 2 / 2))
      (-(0 + c0 * 1 + c1 * ((2 : ℕ) * t ^ 1 * 1) / 2)) t :=
    (((hasDerivAt_const t e).add ((hasDerivAt_id t).const_mul c0)).add
      ((((hasDerivAt_id t).pow 2).const_mul c1).div_const 2)).neg
  refine h.exp.congr_deriv ?_
  push_cast
  ring

/-- A quadratic times a Gaussian along a line. -/
lemma hasDerivAt_quad (q0 q1 q2 e c0 c1 t : ℝ) :
    HasDerivAt (fun t => (q0 + q1 * t + q2 * t ^ 2) * Real.exp (-(e + c0 * t + c1 * t ^ 2 / 2)))
      ((q1 + 2 * q2 * t - (c0 + c1 * t) * (q0 + q1 * t + q2 * t ^ 2)) * Real.exp (-(e + c0 * t + c1 * t ^ 2 / 2))) t := by
  have h : HasDerivAt (fun t : ℝ => q0 + q1 * t + q2 * t ^ 2) (0 + q1 * 1 + q2 * ((2 : ℕ) * t ^ 1 * 1)) t :=
    ((hasDerivAt_const t q0).add ((hasDerivAt_id t).const_mul q1)).add (((hasDerivAt_id t).pow 2).const_mul q2)
  refine (h.mul (hasDerivAt_gauss e c0 c1 t)).congr_deriv ?_
  push_cast
  ring

lemma hasDerivAt_quad2 (q0 q1 q2 e c0 c1 : ℝ) :
    HasDerivAt (fun t => (q1 + 2 * q2 * t - (c0 + c1 * t) * (q0 + q1 * t + q2 * t ^ 2)) *
        Real.exp (-(e + c0 * t + c1 * t ^ 2 / 2)))
      ((2 * q2 - c1 * q0 - 2 * c0 * q1 + c0 ^ 2 * q0) * Real.exp (-e)) 0 := by
  have h : HasDerivAt (fun t : ℝ => q1 + 2 * q2 * t - (c0 + c1 * t) * (q0 + q1 * t + q2 * t ^ 2))
      (2 * q2 * 1 - (c1 * 1 * (q0 + q1 * 0 + q2 * 0 ^ 2) + (c0 + c1 * 0) * (0 + q1 * 1 + q2 * ((2 : ℕ) * 0 ^ 1 * 1)))) 0 :=
    (((hasDerivAt_id (0 : ℝ)).const_mul (2 * q2)).const_add q1).sub
      ((((hasDerivAt_id (0 : ℝ)).const_mul c1).const_add c0).mul
        (((hasDerivAt_const (0 : ℝ) q0).add ((hasDerivAt_id (0 : ℝ)).const_mul q1)).add
          (((hasDerivAt_id (0 : ℝ)).pow 2).const_mul q2)))
  refine (h.mul (hasDerivAt_gauss e c0 c1 0)).congr_deriv ?_
  push_cast
  rw [show -(e + c0 * 0 + c1 * 0 ^ 2 / 2) = -e by ring]
  ring

/-! ## Kernels as polynomial times Gaussian -/

/-- Inverse squared lengthscales. -/
noncomputable def iv (l : Fin d → ℝ) : Fin d → ℝ := fun i => 1 / l i ^ 2

/-- Bilinear form with weights. -/
def bil (a u v : Fin d → ℝ) : ℝ := ∑ i, a i * u i * v i

/-- The Gaussian. -/
noncomputable def gauss (l v : Fin d → ℝ) : ℝ := Real.exp (-(bil (iv l) v v / 2))

/-- The polynomial factor. -/
noncomputable def EK.fac (k : EK d) (v : Fin d → ℝ) : ℝ :=
  match k with
  | .expquad _ => 1
  | .idDD l dir r => (if r then -1 else 1) * bil (iv l) dir v
  | .ddDD l dir0 dir1 => bil (iv l) dir0 dir1 - bil (iv l) dir0 v * bil (iv l) dir1 v
  | .idWL l w _ => bil (fun i => w i * iv l i ^ 2) v v - ∑ i, w i * iv l i
  | .wlWL l w0 w1 =>
    (bil (fun i => w0 i * iv l i ^ 2) v v - ∑ i, w0 i * iv l i) *
      (bil (fun i => w1 i * iv l i ^ 2) v v - ∑ i, w1 i * iv l i) -
      4 * bil (fun i => w0 i * w1 i * iv l i ^ 3) v v + 2 * ∑ i, w0 i * w1 i * iv l i ^ 2
  | .ddWL l dir w r =>
    (if r then -1 else 1) * (2 * bil (fun i => w i * iv l i ^ 2) dir v -
      bil (iv l) dir v * (bil (fun i => w i * iv l i ^ 2) v v - ∑ i, w i * iv l i))

/-- The lengthscales of a kernel. -/
def EK.ls : EK d → Fin d → ℝ
  | .expquad l | .idDD l _ _ | .ddDD l _ _ | .idWL l _ _ | .wlWL l _ _ | .ddWL l _ _ _ => l

lemma sf_sq (l : Fin d → ℝ) (i : Fin d) : 2 * sf l i ^ 2 = iv l i := by
  unfold sf iv
  rw [div_pow, Real.sq_sqrt (by norm_num)]
  ring

lemma exp_sf (l v : Fin d → ℝ) : Real.exp (-normSq fun i => sf l i * v i) = gauss l v := by
  unfold gauss normSq bil
  congr 2
  rw [Finset.sum_div]
  refine Finset.sum_congr rfl fun i _ => ?_
  rw [← sf_sq]; ring

lemma exp_half (l v : Fin d → ℝ) : Real.exp (-0.5 * normSq fun i => v i / l i) = gauss l v := by
  unfold gauss normSq bil
  congr 1
  rw [neg_mul, Finset.mul_sum, Finset.sum_div]
  congr 1
  refine Finset.sum_congr rfl fun i _ => ?_
  unfold iv
  rw [div_pow]; ring

lemma wInv_eq (l w : Fin d → ℝ) (i : Fin d) : wInv l w i = w i * iv l i := by
  rw [← sf_sq]; unfold wInv; ring

lemma sfSq_eq (l w : Fin d → ℝ) (i : Fin d) : sfSq l w i = w i * iv l i ^ 2 := by
  unfold sfSq
  rw [wInv_eq]
  linear_combination (w i * iv l i) * sf_sq l i

lemma trace_eq (l w : Fin d → ℝ) : trace l w = ∑ i, w i * iv l i :=
  Finset.sum_congr rfl fun i _ => by rw [← sf_sq]; ring

lemma evalIdWL_eq (l w v : Fin d → ℝ) :
    evalIdWL l w v = (bil (fun i => w i * iv l i ^ 2) v v - ∑ i, w i * iv l i) * gauss l v := by
  unfold evalIdWL
  rw [exp_sf, trace_eq]
  congr 2
  exact Finset.sum_congr rfl fun i _ => by rw [sfSq_eq]

lemma eval_eq (k : EK d) (x0 x1 : Fin d → ℝ) : k.eval x0 x1 = k.fac (x0 - x1) * gauss k.ls (x0 - x1) := by
  have hv : (fun i => x0 i - x1 i) = x0 - x1 := rfl
  cases k with
  | expquad l =>
    show ek l _ = 1 * gauss l _
    rw [ek, exp_sf, one_mul]; rfl
  | idDD l dir r =>
    show dot _ _ * Real.exp (-0.5 * normSq fun i => (x0 - x1) i / l i) = (_ * _) * gauss l _
    rw [exp_half]
    congr 1
    unfold dot bil
    rw [Finset.mul_sum]
    refine Finset.sum_congr rfl fun i _ => ?_
    unfold iv
    cases r <;> simp only [Bool.false_eq_true, if_true, if_false, Pi.sub_apply] <;> ring
  | ddDD l dir0 dir1 =>
    show (_ - _ * _) * Real.exp (-0.5 * normSq fun i => (x0 - x1) i / l i) = (_ - _ * _) * gauss l _
    rw [exp_half]
    have e : ∀ u : Fin d → ℝ, dot (fun i => u i / l i ^ 2) (fun i => x0 i - x1 i) = bil (iv l) u (x0 - x1) := by
      intro u
      exact Finset.sum_congr rfl fun i _ => by unfold iv; simp only [Pi.sub_apply]; ring
    have e2 : dot dir0 (fun i => dir1 i / l i ^ 2) = bil (iv l) dir0 dir1 :=
      Finset.sum_congr rfl fun i _ => by unfold iv; ring
    rw [e, e, e2]
  | idWL l w r => exact evalIdWL_eq l w _
  | wlWL l w0 w1 =>
    show (_ * _ - 4 * _ + 2 * _) * Real.exp (-normSq fun i => sf l i * (x0 - x1) i) = (_ * _ - 4 * _ + 2 * _) * gauss l _
    rw [exp_sf, trace_eq, trace_eq]
    have e : ∀ w : Fin d → ℝ, ∑ i, sfSq l w i * (x0 i - x1 i) ^ 2 = bil (fun i => w i * iv l i ^ 2) (x0 - x1) (x0 - x1) := by
      intro w
      exact Finset.sum_congr rfl fun i _ => by rw [sfSq_eq]; simp; ring
    have e2 : ∑ i, sfSq l w0 i * wInv l w1 i * (x0 i - x1 i) ^ 2 =
        bil (fun i => w0 i * w1 i * iv l i ^ 3) (x0 - x1) (x0 - x1) :=
      Finset.sum_congr rfl fun i _ => by rw [sfSq_eq, wInv_eq]; simp; ring
    have e3 : ∑ i, wInv l w0 i * wInv l w1 i = ∑ i, w0 i * w1 i * iv l i ^ 2 :=
      Finset.sum_congr rfl fun i _ => by rw [wInv_eq, wInv_eq]; ring
    rw [e, e, e2, e3]
  | ddWL l dir w r =>
    have e : dot (fun i => dir i * 2 * sf l i ^ 2) (x0 - x1) = bil (iv l) dir (x0 - x1) :=
      Finset.sum_congr rfl fun i _ => by rw [← sf_sq]; ring
    have e2 : dot (fun i => dir i * 2 * sf l i ^ 2 * wInv l w i) (x0 - x1) =
        bil (fun i => w i * iv l i ^ 2) dir (x0 - x1) :=
      Finset.sum_congr rfl fun i _ => by simp only [wInv_eq, ← sf_sq]; ring
    have e3 : ek l (x0 - x1) = gauss l (x0 - x1) := by rw [ek, exp_sf]
    show (if r then -(2 * dot _ (x0 - x1) * ek l (x0 - x1) - dot _ (x0 - x1) * evalIdWL l w (x0 - x1)) else
      (2 * dot _ (x0 - x1) * ek l (x0 - x1) - dot _ (x0 - x1) * evalIdWL l w (x0 - x1))) = ((if r then -1 else 1) * (2 * _ - _)) * gauss l _
    rw [e, e2, e3, evalIdWL_eq]
    cases r <;> simp <;> ring

lemma bil_add_right (a u v w : Fin d → ℝ) : bil a u (v + w) = bil a u v + bil a u w := by
  unfold bil; rw [← Finset.sum_add_distrib]; exact Finset.sum_congr rfl fun i _ => by simp; ring

lemma bil_smul_right (a u v : Fin d → ℝ) (c : ℝ) : bil a u (c • v) = c * bil a u v := by
  unfold bil; rw [Finset.mul_sum]; exact Finset.sum_congr rfl fun i _ => by simp; ring

lemma bil_comm (a u v : Fin d → ℝ) : bil a u v = bil a v u :=
  Finset.sum_congr rfl fun i _ => by ring

lemma bil_line (a v u : Fin d → ℝ) (t : ℝ) :
    bil a (v + t • u) (v + t • u) = bil a v v + 2 * bil a u v * t + bil a u u * t ^ 2 := by
  rw [bil_add_right, bil_smul_right, bil_comm a (v + t • u) v, bil_comm a (v + t • u) u, bil_add_right, bil_add_right,
    bil_smul_right, bil_smul_right, bil_comm a v u]
  ring

lemma gauss_line (l v u : Fin d → ℝ) (t : ℝ) : gauss l (v + t • u) =
    Real.exp (-(bil (iv l) v v / 2 + bil (iv l) u v * t + bil (iv l) u u * t ^ 2 / 2)) := by
  unfold gauss
  rw [bil_line]
  congr 1; ring

/-- The sign of the argument position. -/
def sgn (a : Bool) : ℝ := if a then 1 else -1

/-- The difference when one argument moves. -/
lemma slice_diff (x0 x1 u : Fin d → ℝ) (a : Bool) (t : ℝ) :
    (if a then (x0 + t • u) - x1 else x0 - (x1 + t • u)) = (x0 - x1) + t • (sgn a • u) := by
  funext i
  cases a <;> simp [sgn] <;> ring

/-- A kernel as a function of one argument. -/
noncomputable def slice (k : EK d) (a : Bool) (x0 x1 : Fin d → ℝ) : (Fin d → ℝ) → ℝ :=
  if a then fun x => k.eval x x1 else fun x => k.eval x0 x

/-- The differentiated argument. -/
def pt (a : Bool) (x0 x1 : Fin d → ℝ) : Fin d → ℝ := if a then x0 else x1

lemma slice_line (k : EK d) (a : Bool) (x0 x1 u : Fin d → ℝ) (t : ℝ) :
    slice k a x0 x1 (pt a x0 x1 + t • u) =
      k.fac ((x0 - x1) + t • (sgn a • u)) * gauss k.ls ((x0 - x1) + t • (sgn a • u)) := by
  rw [← slice_diff]
  cases a
  · exact eval_eq k _ _
  · exact eval_eq k _ _

lemma bil_smul_left (a u v : Fin d → ℝ) (c : ℝ) : bil a (c • u) v = c * bil a u v := by
  rw [bil_comm, bil_smul_right, bil_comm]

/-- Operators whose argument has not been differentiated before. -/
def Quadratic (k : EK d) : Prop :=
  match k with
  | .expquad _ | .idDD .. | .idWL .. => True
  | _ => False

/-- Coefficients of the polynomial factor along a line. -/
noncomputable def EK.q1 (k : EK d) (v u : Fin d → ℝ) : ℝ :=
  match k with
  | .idDD l dir r => (if r then -1 else 1) * bil (iv l) dir u
  | .idWL l w _ => 2 * bil (fun i => w i * iv l i ^ 2) u v
  | _ => 0

/-- Quadratic coefficient. -/
noncomputable def EK.q2 (k : EK d) (u : Fin d → ℝ) : ℝ :=
  match k with
  | .idWL l w _ => bil (fun i => w i * iv l i ^ 2) u u
  | _ => 0

lemma fac_line {k : EK d} (hk : Quadratic k) (v u : Fin d → ℝ) (t : ℝ) :
    k.fac (v + t • u) = k.fac v + k.q1 v u * t + k.q2 u * t ^ 2 := by
  cases k with
  | expquad l => simp [EK.fac, EK.q1, EK.q2]
  | idDD l dir r =>
    simp only [EK.fac, EK.q1, EK.q2]
    rw [bil_add_right, bil_smul_right]; ring
  | idWL l w r =>
    simp only [EK.fac, EK.q1, EK.q2]
    rw [bil_line]; ring
  | ddDD => cases hk
  | wlWL => cases hk
  | ddWL => cases hk

lemma slice_line_quad {k : EK d} (hk : Quadratic k) (a : Bool) (x0 x1 u : Fin d → ℝ) (t : ℝ) :
    slice k a x0 x1 (pt a x0 x1 + t • u) =
      (k.fac (x0 - x1) + k.q1 (x0 - x1) (sgn a • u) * t + k.q2 (sgn a • u) * t ^ 2) *
      Real.exp (-(bil (iv k.ls) (x0 - x1) (x0 - x1) / 2 + bil (iv k.ls) (sgn a • u) (x0 - x1) * t +
        bil (iv k.ls) (sgn a • u) (sgn a • u) * t ^ 2 / 2)) := by
  rw [slice_line, fac_line hk, gauss_line]

lemma sgn_mul (a : Bool) : sgn a * sgn a = 1 := by cases a <;> simp [sgn]

lemma bil_single_left (a v : Fin d → ℝ) (i : Fin d) : bil a (Pi.single i 1) v = a i * v i := by
  unfold bil
  rw [Finset.sum_eq_single i]
  · simp
  · intro j _ hj; simp [hj]
  · simp

/-- Result of a directional derivative. -/
lemma applyDD_spec {u : Fin d → ℝ} {a : Bool} {k k' : EK d} (h : applyDD u a k = .ok k') :
    Quadratic k ∧ k'.ls = k.ls ∧ ∀ v, k'.fac v = k.q1 v (sgn a • u) - bil (iv k.ls) (sgn a • u) v * k.fac v := by
  cases k with
  | expquad l =>
    cases h
    refine ⟨trivial, rfl, fun v => ?_⟩
    simp only [EK.fac, EK.q1, EK.ls, bil_smul_left]
    cases a <;> simp [sgn]
  | idDD l dir r =>
    rw [applyDD] at h
    split_ifs at h with h1 h2
    · cases h
      obtain ⟨rfl, hr⟩ := h1
      have : r = false := by simpa using hr
      subst this
      refine ⟨trivial, rfl, fun v => ?_⟩
      simp only [EK.fac, EK.q1, EK.ls, bil_smul_left, bil_smul_right, sgn]
      rw [bil_comm _ dir u]
      simp
    · cases h
      obtain ⟨ha, rfl⟩ := h2
      have : a = false := by simpa using ha
      subst this
      refine ⟨trivial, rfl, fun v => ?_⟩
      simp only [EK.fac, EK.q1, EK.ls, bil_smul_left, bil_smul_right, sgn]
      simp
      ring
  | idWL l w r =>
    rw [applyDD] at h
    split_ifs at h with h1
    cases h
    refine ⟨trivial, rfl, fun v => ?_⟩
    simp only [EK.fac, EK.q1, EK.ls, bil_smul_left, sgn]
    cases a <;> simp <;> ring
  | ddDD => cases h
  | wlWL => cases h
  | ddWL => cases h

/-- Result of a weighted Laplacian. -/
lemma applyWL_spec {w : Fin d → ℝ} {a : Bool} {k k' : EK d} (h : applyWL w a k = .ok k') :
    Quadratic k ∧ k'.ls = k.ls ∧ ∀ v, k'.fac v = ∑ i, w i * (2 * k.q2 (sgn a • Pi.single i 1) -
      bil (iv k.ls) (sgn a • Pi.single i 1) (sgn a • Pi.single i 1) * k.fac v -
      2 * bil (iv k.ls) (sgn a • Pi.single i 1) v * k.q1 v (sgn a • Pi.single i 1) +
      bil (iv k.ls) (sgn a • Pi.single i 1) v ^ 2 * k.fac v) := by
  have e1 : ∀ (b v : Fin d → ℝ) (i : Fin d), bil b (sgn a • Pi.single i 1) v = sgn a * (b i * v i) := by
    intro b v i; rw [bil_smul_left, bil_single_left]
  have e2 : ∀ (b : Fin d → ℝ) (i : Fin d), bil b (sgn a • Pi.single i 1) (sgn a • Pi.single i 1) = b i := by
    intro b i
    rw [e1]
    simp
    linear_combination (b i) * sgn_mul a
  have e3 : ∀ (b v : Fin d → ℝ) (i : Fin d), bil b v (sgn a • Pi.single i 1) = sgn a * (b i * v i) := by
    intro b v i; rw [bil_comm, e1]
  have hs := sgn_mul a
  cases k with
  | expquad l =>
    cases h
    refine ⟨trivial, rfl, fun v => ?_⟩
    simp only [EK.fac, EK.q1, EK.q2, EK.ls, e2]
    simp only [e1]
    unfold bil
    rw [← Finset.sum_sub_distrib]
    refine Finset.sum_congr rfl fun i _ => ?_
    linear_combination (-w i * iv l i ^ 2 * v i ^ 2) * hs
  | idDD l dir r =>
    rw [applyWL] at h
    split_ifs at h with h1
    cases h
    refine ⟨trivial, rfl, fun v => ?_⟩
    simp only [EK.fac, EK.q1, EK.q2, EK.ls, e2]
    simp only [e1, e3]
    have key : ∀ B : ℝ, 2 * bil (fun i => w i * iv l i ^ 2) dir v -
        B * (bil (fun i => w i * iv l i ^ 2) v v - ∑ i, w i * iv l i) =
        -∑ i, w i * (2 * 0 - iv l i * B - 2 * (sgn a * (iv l i * v i)) * (sgn a * (iv l i * dir i)) +
          (sgn a * (iv l i * v i)) ^ 2 * B) := by
      intro B
      unfold bil
      rw [← Finset.sum_sub_distrib, Finset.mul_sum, Finset.mul_sum, ← Finset.sum_sub_distrib, ← Finset.sum_neg_distrib]
      refine Finset.sum_congr rfl fun i _ => ?_
      linear_combination (-2 * w i * iv l i ^ 2 * v i * dir i + w i * iv l i ^ 2 * v i ^ 2 * B) * hs
    rw [key]
    have hr : (if a then (-1 : ℝ) else 1) = -(if r then (-1 : ℝ) else 1) := by
      rcases h1 with ⟨h1, h2⟩ | ⟨h1, h2⟩
      · have : r = false := by simpa using h2
        subst h1 this; simp
      · have : a = false := by simpa using h1
        subst this h2; simp
    rw [hr, neg_mul_neg, Finset.mul_sum]
    exact Finset.sum_congr rfl fun i _ => by ring
  | idWL l w' r =>
    rw [applyWL] at h
    split_ifs at h with h1
    cases h
    refine ⟨trivial, rfl, fun v => ?_⟩
    simp only [EK.fac, EK.q1, EK.q2, EK.ls, e2]
    simp only [e1]
    set F := bil (fun i => w' i * iv l i ^ 2) v v - ∑ i, w' i * iv l i
    unfold bil
    rw [← Finset.sum_sub_distrib, Finset.sum_mul, Finset.mul_sum, Finset.mul_sum, ← Finset.sum_sub_distrib,
      ← Finset.sum_add_distrib]
    refine Finset.sum_congr rfl fun i _ => ?_
    linear_combination (-w i * iv l i ^ 2 * v i ^ 2 * F + 4 * w i * w' i * iv l i ^ 3 * v i ^ 2) * hs
  | ddDD => cases h
  | wlWL => cases h
  | ddWL => cases h

lemma dd_spec {u : Fin d → ℝ} {a : Bool} {k k' : EK d} (h : applyDD u a k = .ok k') (x0 x1 : Fin d → ℝ) :
    HasDerivAt (fun t : ℝ => slice k a x0 x1 (pt a x0 x1 + t • u)) (k'.eval x0 x1) 0 := by
  obtain ⟨hq, hl, hf⟩ := applyDD_spec h
  refine ((hasDerivAt_quad _ _ _ _ _ _ 0).congr_deriv ?_).congr_of_eventuallyEq
    (Eventually.of_forall fun t => slice_line_quad hq a x0 x1 u t)
  rw [eval_eq, hf, hl]
  unfold gauss
  simp

lemma wl_spec {w : Fin d → ℝ} {a : Bool} {k k' : EK d} (h : applyWL w a k = .ok k') (x0 x1 : Fin d → ℝ) :
    ∃ (D1 : Fin d → ℝ → ℝ) (D2 : Fin d → ℝ),
      (∀ i t, HasDerivAt (fun t : ℝ => slice k a x0 x1 (pt a x0 x1 + t • Pi.single i 1)) (D1 i t) t) ∧
      (∀ i, HasDerivAt (D1 i) (D2 i) 0) ∧ k'.eval x0 x1 = ∑ i, w i * D2 i := by
  obtain ⟨hq, hl, hf⟩ := applyWL_spec h
  let c0 : Fin d → ℝ := fun i => bil (iv k.ls) (sgn a • Pi.single i 1) (x0 - x1)
  let c1 : Fin d → ℝ := fun i => bil (iv k.ls) (sgn a • Pi.single i 1) (sgn a • Pi.single i 1)
  let q1 : Fin d → ℝ := fun i => k.q1 (x0 - x1) (sgn a • Pi.single i 1)
  let q2 : Fin d → ℝ := fun i => k.q2 (sgn a • Pi.single i 1)
  let q0 := k.fac (x0 - x1)
  let e := bil (iv k.ls) (x0 - x1) (x0 - x1) / 2
  refine ⟨fun i t => (q1 i + 2 * q2 i * t - (c0 i + c1 i * t) * (q0 + q1 i * t + q2 i * t ^ 2)) *
      Real.exp (-(e + c0 i * t + c1 i * t ^ 2 / 2)),
    fun i => (2 * q2 i - c1 i * q0 - 2 * c0 i * q1 i + c0 i ^ 2 * q0) * Real.exp (-e),
    fun i t => ?_, fun i => hasDerivAt_quad2 q0 (q1 i) (q2 i) e (c0 i) (c1 i), ?_⟩
  · exact (hasDerivAt_quad _ _ _ _ _ _ t).congr_of_eventuallyEq
      (Eventually.of_forall fun t => slice_line_quad hq a x0 x1 (Pi.single i 1) t)
  · rw [eval_eq, hf, hl, Finset.sum_mul]
    refine Finset.sum_congr rfl fun i _ => ?_
    unfold gauss
    ring

lemma applyPD_inv {n : ℕ} {a : Bool} {k k' : EK d} (h : applyPD n a k = .ok k') :
    (n = 0 ∧ k' = k) ∨ (n = 1 ∧ d = 1 ∧ applyDD (fun _ => 1) a k = .ok k') ∨
      (n = 2 ∧ d = 1 ∧ applyWL (fun _ => 1) a k = .ok k') := by
  cases k <;> simp only [applyPD] at h
  case ddDD => cases h
  case wlWL => cases h
  case ddWL => cases h
  all_goals
    split_ifs at h with h1 h2 h3
    · cases h; exact Or.inl ⟨h1, rfl⟩
    · exact Or.inr (Or.inl ⟨h2.2, h2.1, h⟩)
    · exact Or.inr (Or.inr ⟨h3.2, h3.1, h⟩)

/-! ## C27 -/

/-- C27: whenever an operator applied to an argument of a squared-exponential kernel, or of a kernel obtained from it,
returns a kernel, that kernel is the mathematical derivative with respect to that argument, at every pair of points. -/
theorem expquad_derivative {k k' : EK d} {L : DOp d} {a : Bool} (h : apply L a k = .ok k') (x0 x1 : Fin d → ℝ) :
    OpAt L (if a then fun x => k.eval x x1 else fun x => k.eval x0 x) (if a then x0 else x1) (k'.eval x0 x1) := by
  show OpAt L (slice k a x0 x1) (pt a x0 x1) _
  cases L with
  | dd u => exact dd_spec h x0 x1
  | wl w =>
    obtain ⟨D1, D2, h1, h2, h3⟩ := wl_spec h x0 x1
    exact ⟨D1, D2, fun i => Eventually.of_forall (h1 i), h2, h3⟩
  | pd n =>
    rcases applyPD_inv h with ⟨rfl, rfl⟩ | ⟨rfl, _, h⟩ | ⟨rfl, hd, h⟩
    · show k'.eval x0 x1 = _
      cases a <;> rfl
    · exact dd_spec h x0 x1
    · obtain ⟨D1, D2, h1, h2, h3⟩ := wl_spec h x0 x1
      subst hd
      rw [Fin.sum_univ_one, one_mul] at h3
      refine ⟨D1 0, Eventually.of_forall fun t => ?_, h3 ▸ h2 0⟩
      have := h1 0 t
      have e : (Pi.single (0 : Fin 1) (1 : ℝ) : Fin 1 → ℝ) = 1 := by
        funext i
        have : i = 0 := Subsingleton.elim _ _
        subst this; simp
      rwa [e] at this

/-- C27: the value computed for `x1 = None` is the value on the diagonal. -/
theorem expquad_evalNone (k : EK d) (x : Fin d → ℝ) : k.evalNone = k.eval x x := by
  cases k <;> simp [EK.evalNone, EK.eval, ek, evalIdWL, normSq, dot]

/-- The operators of the first derivatives in each argument, unless both are of second order. -/
def NotBothWL : DOp d → DOp d → Prop
  | .wl _, .wl _ => False
  | .pd 2, .pd 2 => False
  | .wl _, .pd 2 => False
  | .pd 2, .wl _ => False
  | _, _ => True

lemma resolve (L : DOp d) :
    (∀ a k, Quadratic k → apply L a k = .ok k) ∨
    (∃ u, ∀ a k, Quadratic k → apply L a k = applyDD u a k) ∨
    (∃ w, (∀ a k, Quadratic k → apply L a k = applyWL w a k) ∧ (L = .wl w ∨ L = .pd 2)) ∨
    (∀ a k, Quadratic k → apply L a k = .error .notImplemented) := by
  cases L with
  | dd u => exact Or.inr (Or.inl ⟨u, fun _ _ _ => rfl⟩)
  | wl w => exact Or.inr (Or.inr (Or.inl ⟨w, fun _ _ _ => rfl, Or.inl rfl⟩))
  | pd n =>
    have pd : ∀ (a : Bool) (k : EK d), Quadratic k → apply (.pd n) a k =
        if n = 0 then .ok k else if d = 1 ∧ n = 1 then applyDD (fun _ => 1) a k
        else if d = 1 ∧ n = 2 then applyWL (fun _ => 1) a k else .error .notImplemented := by
      intro a k hk
      cases k <;> first | rfl | cases hk
    by_cases h0 : n = 0
    · exact Or.inl fun a k hk => by rw [pd a k hk, if_pos h0]
    by_cases h1 : d = 1 ∧ n = 1
    · exact Or.inr (Or.inl ⟨_, fun a k hk => by rw [pd a k hk, if_neg h0, if_pos h1]⟩)
    by_cases h2 : d = 1 ∧ n = 2
    · exact Or.inr (Or.inr (Or.inl ⟨_, fun a k hk => by rw [pd a k hk, if_neg h0, if_neg h1, if_pos h2],
        Or.inr (by rw [h2.2])⟩))
    · exact Or.inr (Or.inr (Or.inr fun a k hk => by rw [pd a k hk, if_neg h0, if_neg h1, if_neg h2]))

/-- C27 (part): applying operators to both arguments in either order gives the same kernel, except for two Laplacians
(see `expquad_wl_order_violated`). -/
theorem expquad_commute_partial (l : Fin d → ℝ) (L0 L1 : DOp d) (h : NotBothWL L0 L1) :
    (apply L0 true (.expquad l) >>= fun k => apply L1 false k) =
      (apply L1 false (.expquad l) >>= fun k => apply L0 true k) := by
  have qx : Quadratic (.expquad l) := trivial
  rcases resolve L0 with ⟨r0⟩ | ⟨u, r0⟩ | ⟨w, r0, hw0⟩ | ⟨r0⟩ <;> rcases resolve L1 with ⟨r1⟩ | ⟨u', r1⟩ | ⟨w', r1, hw1⟩ | ⟨r1⟩
  case inr.inr.inl.inr.inr.inl =>
    exfalso
    rcases hw0 with rfl | rfl <;> rcases hw1 with rfl | rfl <;> exact h
  all_goals
    rw [r0 _ _ qx, r1 _ _ qx]
    first
      | rfl
      | (show apply L1 false _ = Except.error _; rw [r1 _ _ (by trivial)])
      | (show apply L1 false _ = apply L0 true _; rw [r1 _ _ (by trivial), r0 _ _ (by trivial)]; try rfl)
      | (show Except.error _ = apply L0 true _; rw [r0 _ _ (by trivial)])

/-- C27: a directional derivative in one argument and a directional derivative or Laplacian in the other are always
accepted, so the two previous theorems apply to the result. -/
theorem expquad_accepted (l u : Fin d → ℝ) (L : DOp d) (hL : (∃ u', L = .dd u') ∨ ∃ w, L = .wl w) (a : Bool) :
    ∃ k k', apply (.dd u) a (.expquad l) = .ok k ∧ apply L (!a) k = .ok k' := by
  rcases hL with ⟨u', rfl⟩ | ⟨w, rfl⟩ <;> cases a <;> exact ⟨_, _, rfl, rfl⟩

/-- C27 is violated for Laplacians: applying the second Laplacian to the second argument of a kernel whose first argument
has been differentiated raises `AttributeError`, while the other order returns the kernel. -/
theorem expquad_wl_order_violated (l w0 w1 : Fin d → ℝ) :
    (apply (.wl w0) true (.expquad l) >>= fun k => apply (.wl w1) false k) = .error .attributeError ∧
    (apply (.wl w1) false (.expquad l) >>= fun k => apply (.wl w0) true k) = .ok (.wlWL l w0 w1) := by
  constructor <;> simp [apply, applyWL] <;> rfl

/-! ## Non-vacuity -/

/-- Two directional derivatives and a Laplacian on a two-dimensional kernel are accepted. -/
example : apply (.wl ![1, 2]) true (.idDD ![1, 3] ![0, 1] false) = .ok (.ddWL ![1, 3] ![0, 1] ![1, 2] true) := by
  simp [apply, applyWL]

/-- The Laplacian of the one-dimensional kernel with unit lengthscale is `(v² - 1) exp(-v²/2)`. -/
example : (EK.idWL (d := 1) (fun _ => 1) (fun _ => 1) false).eval (fun _ => 2) (fun _ => 0) = 3 * Real.exp (-2) := by
  rw [eval_eq]
  simp [EK.fac, EK.ls, gauss, bil, iv]
  norm_num

example : NotBothWL (d := 2) (.dd ![1, 0]) (.wl ![1, 2]) := trivial

end LinPDE.ExpQuad
