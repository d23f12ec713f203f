import Verif.Rounding.Close
import Verif.Rounding.DerivModel

/-!
# Rounding errors of derivative kernels (C90)

Every derivative kernel is computed up to a fixed number of roundings, relative to the sum of the absolute values of the terms it adds, and
up to the error of the exponential function.
-/

namespace LinPDE.Rounding
open Finset LinPDE.Polys LinPDE.Matern
open LinPDE.ExpQuad (EK sf sfSq wInv trace normSq)

variable {F : Fmt} {d a : ℕ}

/-! ## Squared exponential kernels -/

/-- The lengthscales of the kernel that was differentiated. -/
def lens : EK d → Fin d → ℝ
  | .expquad l | .idDD l _ _ | .ddDD l _ _ | .idWL l _ _ | .wlWL l _ _ | .ddWL l _ _ _ => l

/-- `Σ |a i| |b i|`. -/
def adot (a b : Fin d → ℝ) : ℝ := ∑ i, |a i| * |b i|

/-- The terms of the Laplacian of an exponential without signs. -/
noncomputable def lapMag (l w v : Fin d → ℝ) : ℝ := (∑ i, |sfSq l w i| * |v i| ^ 2) + ∑ i, |wInv l w i|

/-- The sum of the absolute values of the terms in front of the exponential. -/
noncomputable def ekMag (k : EK d) (x y : Fin d → ℝ) : ℝ :=
  let v := fun i => x i - y i
  match k with
  | .expquad _ => 1
  | .idDD l dir _ => adot (fun i => dir i / l i ^ 2) v
  | .ddDD l dir0 dir1 => adot dir0 (fun i => dir1 i / l i ^ 2) + adot (fun i => dir0 i / l i ^ 2) v * adot (fun i => dir1 i / l i ^ 2) v
  | .idWL l w _ => lapMag l w v
  | .wlWL l w0 w1 => lapMag l w0 v * lapMag l w1 v + 4 * (∑ i, |sfSq l w0 i * wInv l w1 i| * |v i| ^ 2) + 2 * adot (wInv l w0) (wInv l w1)
  | .ddWL l dir w _ => 2 * adot (fun i => dir i * 2 * sf l i ^ 2 * wInv l w i) v + adot (fun i => dir i * 2 * sf l i ^ 2) v * lapMag l w v

/-- The error factor: `K` roundings, the error `v` of the exponential function and the effect of `k` roundings of its argument `q`. -/
noncomputable def Fmt.gf (F : Fmt) (K k : ℕ) (q : ℝ) : ℝ := (1 + F.u) ^ K * ((1 + F.v) * Real.exp (((1 + F.u) ^ k - 1) * q))

lemma gf_mono {K K' k : ℕ} {q : ℝ} (h : K ≤ K') : F.gf K k q ≤ F.gf K' k q :=
  mul_le_mul_of_nonneg_right (pow_le_pow_right₀ F.le_add h) (mul_nonneg (by linarith [F.v_nonneg]) (Real.exp_pos _).le)

lemma ex_mono {k k' : ℕ} {q : ℝ} (hq : 0 ≤ q) (h : k ≤ k') :
    (1 + F.v) * Real.exp (((1 + F.u) ^ k - 1) * q) ≤ (1 + F.v) * Real.exp (((1 + F.u) ^ k' - 1) * q) :=
  mul_le_mul_of_nonneg_left (Real.exp_le_exp.mpr (mul_le_mul_of_nonneg_right (eps_mono F h) hq)) (by linarith [F.v_nonneg])

/-- A factor times an exponential. -/
lemma times_ex {K k : ℕ} {A B M e q : ℝ} (h : F.Cn K A B M) (he : Cl ((1 + F.v) * Real.exp (((1 + F.u) ^ k - 1) * q)) e (Real.exp (-q)) (Real.exp (-q))) :
    Cl (F.gf (K + 1) k q) (F.rd (A * e)) (B * Real.exp (-q)) (M * Real.exp (-q)) := by
  have h1 := (Cl.mul h he).rd (F := F)
  have e1 : (1 + F.u) ^ K * ((1 + F.v) * Real.exp (((1 + F.u) ^ k - 1) * q)) * (1 + F.u) = F.gf (K + 1) k q := by
    rw [Fmt.gf, pow_succ]
    ring
  rwa [e1] at h1

variable {t : Tree (Fin d)} {s l w : Fin d → ℝ}

lemma pos_of_full (ht : t.Full) : 0 < d := by
  have := ht.length
  rw [Fintype.card_fin] at this
  rw [← this]
  exact t.leaves_pos

lemma diff_near (x y : Fin d → ℝ) (i : Fin d) : F.Near 1 (diffFl F x y i) (x i - y i) := rd_fac F _

lemma dot_cn {p q : ℕ} (ht : t.Full) {u u' v v' : Fin d → ℝ} (hu : ∀ i, F.Near p (u i) (u' i)) (hv : ∀ i, F.Near q (v i) (v' i)) :
    F.Cn (p + q + d) (dotFl F t u v) (dot u' v') (adot u' v') := by
  have h := ht.cn (F := F) (k := p + q + 1) (a := fun i => F.rd (u i * v i)) (b := fun i => u' i * v' i) (m := fun i => |u' i| * |v' i|)
    fun i => by
      have := ((hu i).mul (hv i)).rd.cn
      rwa [abs_mul] at this
  rw [Fintype.card_fin] at h
  have := pos_of_full ht
  exact h.mono (by omega)

lemma resc_near (hu : F.u ≤ 1 / 2) (l dir : Fin d → ℝ) (i : Fin d) : F.Near 3 (rescFl F l dir i) (dir i / l i ^ 2) := by
  have h1 : F.Near 1 (F.rd (l i ^ 2)) (l i ^ 2) := rd_fac F _
  exact ((near_refl F 0 (dir i)).div hu h1).rd

lemma wInv_near (hs : ∀ i, F.Near a (s i) (sf l i)) (w : Fin d → ℝ) (i : Fin d) : F.Near (2 * a + 3) (wInvFl F s w i) (wInv l w i) := by
  have h1 : F.Near 1 (F.rd (2 * w i)) (2 * w i) := rd_fac F _
  have h2 := (h1.mul ((hs i).pow 2).rd).rd
  exact h2.mono (by omega)

lemma sfSq_near (hs : ∀ i, F.Near a (s i) (sf l i)) (w : Fin d → ℝ) (i : Fin d) : F.Near (4 * a + 6) (sfSqFl F s w i) (sfSq l w i) := by
  have h1 := (((near_refl F 0 2).mul (wInv_near hs w i)).rd.mul ((hs i).pow 2).rd).rd
  exact h1.mono (by omega)

lemma trace_cn (ht : t.Full) (hs : ∀ i, F.Near a (s i) (sf l i)) (w : Fin d → ℝ) :
    F.Cn (2 * a + 2 + d) (traceFl F t s w) (trace l w) (∑ i, |wInv l w i|) := by
  have h := ht.cn (F := F) fun i => (wInv_near hs w i).cn
  rw [Fintype.card_fin] at h
  have := pos_of_full ht
  exact h.mono (by omega)

lemma q_nonneg (l x y : Fin d → ℝ) : 0 ≤ ∑ i, (sf l i * (x i - y i)) ^ 2 := sum_nonneg fun i _ => sq_nonneg _

lemma gaussScaled_cl (ht : t.Full) (hs : ∀ i, F.Near a (s i) (sf l i)) (x y : Fin d → ℝ) :
    Cl ((1 + F.v) * Real.exp (((1 + F.u) ^ (d + 2 * a + 5) - 1) * ∑ i, (sf l i * (x i - y i)) ^ 2)) (gaussScaledFl F t s (diffFl F x y))
      (Real.exp (-∑ i, (sf l i * (x i - y i)) ^ 2)) (Real.exp (-∑ i, (sf l i * (x i - y i)) ^ 2)) := by
  have h := ht.fl_near (F := F) (k := 2 * (a + 1 + 1) + 1) (f := fun i => F.rd (F.rd (s i * diffFl F x y i) ^ 2))
    (g := fun i => (sf l i * (x i - y i)) ^ 2) (fun i => sq_nonneg _) fun i => (((hs i).mul (diff_near x y i)).rd.pow 2).rd
  rw [Fintype.card_fin] at h
  exact (ex_cl (q_nonneg l x y) h).mono (ex_mono (q_nonneg l x y) (by omega))

lemma half_sq (l x y : Fin d → ℝ) : ∑ i, (sf l i * (x i - y i)) ^ 2 = 0.5 * ∑ i, ((x i - y i) / l i) ^ 2 := by
  rw [mul_sum]
  refine sum_congr rfl fun i _ => ?_
  have h : Real.sqrt 0.5 ^ 2 = 0.5 := Real.sq_sqrt (by norm_num)
  rw [sf, mul_pow, div_pow, div_pow, h]
  ring

lemma gauss_cl (ht : t.Full) (l x y : Fin d → ℝ) :
    Cl ((1 + F.v) * Real.exp (((1 + F.u) ^ (d + 2 * a + 5) - 1) * ∑ i, (sf l i * (x i - y i)) ^ 2)) (gaussFl F t l (diffFl F x y))
      (Real.exp (-∑ i, (sf l i * (x i - y i)) ^ 2)) (Real.exp (-∑ i, (sf l i * (x i - y i)) ^ 2)) := by
  have h := ht.fl_near (F := F) (k := 5) (f := fun i => F.rd (F.rd (diffFl F x y i / l i) ^ 2))
    (g := fun i => ((x i - y i) / l i) ^ 2) (fun i => sq_nonneg _) fun i => by
      have h1 := ((diff_near (F := F) x y i).mul (near_refl F 0 (l i)⁻¹)).rd
      rw [← div_eq_mul_inv, ← div_eq_mul_inv] at h1
      exact (h1.pow 2).rd
  rw [Fintype.card_fin] at h
  have h2 := ((near_refl F 0 0.5).mul h).rd
  rw [← half_sq] at h2
  have h3 := (ex_cl (q_nonneg l x y) h2).mono (ex_mono (k' := d + 2 * a + 5) (q_nonneg l x y) (by have := pos_of_full ht; omega))
  rwa [← F.neg, ← neg_mul] at h3

lemma expQuad_cl (ht : t.Full) (hs : ∀ i, F.Near a (s i) (sf l i)) (x y : Fin d → ℝ) :
    Cl ((1 + F.v) * Real.exp (((1 + F.u) ^ (d + 2 * a + 5) - 1) * ∑ i, (sf l i * (x i - y i)) ^ 2)) (expQuad F t s x y)
      (Real.exp (-∑ i, (sf l i * (x i - y i)) ^ 2)) (Real.exp (-∑ i, (sf l i * (x i - y i)) ^ 2)) := by
  have h := sqDist_near ht hs x y
  rw [Fintype.card_fin] at h
  exact (ex_cl (q_nonneg l x y) h).mono (ex_mono (q_nonneg l x y) (by omega))

variable {T : ℕ → Tree (Fin d)}

lemma idWL_cl (hT : ∀ n, (T n).Full) (hs : ∀ i, F.Near a (s i) (sf l i)) (w x y : Fin d → ℝ) :
    Cl (F.gf (4 * a + d + 11) (d + 2 * a + 5) (∑ i, (sf l i * (x i - y i)) ^ 2)) (idWLFl F T s w (diffFl F x y))
      (ExpQuad.evalIdWL l w fun i => x i - y i) (lapMag l w (fun i => x i - y i) * Real.exp (-∑ i, (sf l i * (x i - y i)) ^ 2)) := by
  have h1 := (hT 0).cn (F := F) (k := 4 * a + 10) (a := fun i => F.rd (F.rd (sfSqFl F s w i * diffFl F x y i) * diffFl F x y i))
    (b := fun i => sfSq l w i * (x i - y i) * (x i - y i)) (m := fun i => |sfSq l w i| * |x i - y i| ^ 2) fun i => by
      have := ((((sfSq_near hs w i).mul (diff_near x y i)).rd.mul (diff_near x y i)).rd).cn
      rw [abs_mul, abs_mul, mul_assoc |sfSq l w i|, ← pow_two] at this
      exact this.mono (by omega)
  rw [Fintype.card_fin] at h1
  have hd := pos_of_full (hT 0)
  have h2 := ((h1.sub (trace_cn (hT 1) hs w)).rd).mono (l := 4 * a + d + 10) (by omega)
  exact times_ex h2 (gaussScaled_cl (hT 2) hs x y)

lemma lap_cn {t' : Tree (Fin d)} (ht : t.Full) (ht' : t'.Full) (hs : ∀ i, F.Near a (s i) (sf l i)) (w x y : Fin d → ℝ) :
    F.Cn (4 * a + d + 10) (lapFl F t t' s w (diffFl F x y)) ((∑ i, sfSq l w i * (x i - y i) ^ 2) - trace l w) (lapMag l w fun i => x i - y i) := by
  have h1 := ht.cn (F := F) (k := 4 * a + 10) (a := fun i => F.rd (sfSqFl F s w i * F.rd (diffFl F x y i ^ 2)))
    (b := fun i => sfSq l w i * (x i - y i) ^ 2) (m := fun i => |sfSq l w i| * |x i - y i| ^ 2) fun i => by
      have := (((sfSq_near hs w i).mul ((diff_near x y i).pow 2).rd).rd).cn
      rw [abs_mul, abs_pow] at this
      exact this.mono (by omega)
  rw [Fintype.card_fin] at h1
  have hd := pos_of_full ht
  exact ((h1.sub (trace_cn ht' hs w)).rd).mono (by omega)

lemma ek_cl (hu : F.u ≤ 1 / 2) (hT : ∀ n, (T n).Full) (k : EK d) (hs : ∀ i, F.Near a (s i) (sf (lens k) i)) (x y : Fin d → ℝ) :
    Cl (F.gf (2 * d + 8 * a + 24) (d + 2 * a + 5) (∑ i, (sf (lens k) i * (x i - y i)) ^ 2)) (ekFl F T s k x y) (k.eval x y)
      (ekMag k x y * Real.exp (-∑ i, (sf (lens k) i * (x i - y i)) ^ 2)) := by
  have hd := pos_of_full (hT 0)
  cases k with
  | expquad l =>
    rw [ekMag, one_mul]
    have h := expQuad_cl (hT 0) hs x y
    have h2 : (1 + F.v) * Real.exp (((1 + F.u) ^ (d + 2 * a + 5) - 1) * ∑ i, (sf l i * (x i - y i)) ^ 2) ≤
        F.gf (2 * d + 8 * a + 24) (d + 2 * a + 5) (∑ i, (sf l i * (x i - y i)) ^ 2) := by
      have := gf_mono (F := F) (K := 0) (K' := 2 * d + 8 * a + 24) (k := d + 2 * a + 5) (q := ∑ i, (sf l i * (x i - y i)) ^ 2) (by omega)
      simpa [Fmt.gf] using this
    exact h.mono h2
  | idDD l dir reverse =>
    have h1 : F.Cn (d + 4) (dotFl F (T 0) (fun i => if reverse then -rescFl F l dir i else rescFl F l dir i) (diffFl F x y))
        (dot (fun i => if reverse then -(dir i / l i ^ 2) else dir i / l i ^ 2) fun i => x i - y i)
        (adot (fun i => dir i / l i ^ 2) fun i => x i - y i) := by
      have h := dot_cn (F := F) (p := 3) (q := 1) (hT 0) (u := fun i => if reverse then -rescFl F l dir i else rescFl F l dir i)
        (u' := fun i => if reverse then -(dir i / l i ^ 2) else dir i / l i ^ 2) (v := diffFl F x y) (v' := fun i => x i - y i)
        (fun i => by
          obtain ⟨t, ht, e⟩ := resc_near hu l dir i
          refine ⟨t, ht, ?_⟩
          rw [e]
          split_ifs <;> ring) fun i => diff_near x y i
      have e : adot (fun i => if reverse then -(dir i / l i ^ 2) else dir i / l i ^ 2) (fun i => x i - y i) =
          adot (fun i => dir i / l i ^ 2) fun i => x i - y i := by
        unfold adot
        refine sum_congr rfl fun i _ => ?_
        cases reverse <;> simp
      rw [e] at h
      exact h.mono (by omega)
    have h2 := (times_ex h1 (gauss_cl (a := a) (hT 1) l x y)).mono (gf_mono (K' := 2 * d + 8 * a + 24) (by omega))
    have e : (EK.idDD l dir reverse).eval x y = dot (fun i => if reverse then -(dir i / l i ^ 2) else dir i / l i ^ 2) (fun i => x i - y i) *
        Real.exp (-∑ i, (sf l i * (x i - y i)) ^ 2) := by
      rw [half_sq, ← neg_mul]
      rfl
    rw [e]
    exact h2
  | ddDD l dir0 dir1 =>
    have h0 := dot_cn (F := F) (p := 0) (q := 3) (hT 0) (fun i => near_refl F 0 (dir0 i)) fun i => resc_near hu l dir1 i
    have h1 := dot_cn (F := F) (p := 3) (q := 1) (hT 1) (fun i => resc_near hu l dir0 i) fun i => diff_near x y i
    have h2 := dot_cn (F := F) (p := 3) (q := 1) (hT 2) (fun i => resc_near hu l dir1 i) fun i => diff_near x y i
    have h3 := (times_ex ((h0.sub (h1.mul h2).rd).rd) (gauss_cl (a := a) (hT 3) l x y)).mono (gf_mono (K' := 2 * d + 8 * a + 24) (by omega))
    have e : (EK.ddDD l dir0 dir1).eval x y = (dot dir0 (fun i => dir1 i / l i ^ 2) - dot (fun i => dir0 i / l i ^ 2) (fun i => x i - y i) *
        dot (fun i => dir1 i / l i ^ 2) (fun i => x i - y i)) * Real.exp (-∑ i, (sf l i * (x i - y i)) ^ 2) := by
      rw [half_sq, ← neg_mul]
      rfl
    rw [e]
    exact h3
  | idWL l w reverse => exact (idWL_cl hT hs w x y).mono (gf_mono (by omega))
  | wlWL l w0 w1 =>
    have h0 := lap_cn (hT 0) (hT 1) hs w0 x y
    have h1 := lap_cn (hT 2) (hT 3) hs w1 x y
    have h2 := (hT 4).cn (F := F) (k := 6 * a + 14) (a := fun i => F.rd (F.rd (sfSqFl F s w0 i * wInvFl F s w1 i) * F.rd (diffFl F x y i ^ 2)))
      (b := fun i => sfSq l w0 i * wInv l w1 i * (x i - y i) ^ 2) (m := fun i => |sfSq l w0 i * wInv l w1 i| * |x i - y i| ^ 2) fun i => by
        have := ((((sfSq_near hs w0 i).mul (wInv_near hs w1 i)).rd.mul ((diff_near x y i).pow 2).rd).rd).cn
        rw [abs_mul (_ * _), abs_pow] at this
        exact this.mono (by omega)
    rw [Fintype.card_fin] at h2
    have h3 := dot_cn (F := F) (hT 5) (fun i => wInv_near hs w0 i) fun i => wInv_near hs w1 i
    have c4 := ((cn_refl F 0 4).mul h2).rd
    have c2 := ((cn_refl F 0 2).mul h3).rd
    rw [abs_of_pos (by norm_num : (0 : ℝ) < 4)] at c4
    rw [abs_of_pos (by norm_num : (0 : ℝ) < 2)] at c2
    have h4 := (((h0.mul h1).rd.sub c4).rd.add c2).rd.mono (l := 2 * d + 8 * a + 23) (by simp only [max_le_iff, Nat.add_le_add_iff_right]; omega)
    exact times_ex h4 (gaussScaled_cl (hT 6) hs x y)
  | ddWL l dir w reverse =>
    replace hs : ∀ i, F.Near a (s i) (sf l i) := hs
    set q := ∑ i, (sf l i * (x i - y i)) ^ 2 with hq
    have hr : ∀ i, F.Near (2 * a + 3) (F.rd (F.rd (dir i * 2) * F.rd (s i ^ 2))) (dir i * 2 * sf l i ^ 2) := fun i => by
      have h1 : F.Near 1 (F.rd (dir i * 2)) (dir i * 2) := rd_fac F _
      exact ((h1.mul ((hs i).pow 2).rd).rd).mono (by omega)
    have hrw : ∀ i, F.Near (4 * a + 7) (F.rd (F.rd (F.rd (dir i * 2) * F.rd (s i ^ 2)) * wInvFl F s w i)) (dir i * 2 * sf l i ^ 2 * wInv l w i) :=
      fun i => (((hr i).mul (wInv_near hs w i)).rd).mono (by omega)
    have h1 := ((cn_refl F 0 2).mul (dot_cn (F := F) (hT 3) hrw fun i => diff_near x y i)).rd
    rw [abs_of_pos (by norm_num : (0 : ℝ) < 2)] at h1
    have k1 := (times_ex h1 (expQuad_cl (hT 4) hs x y)).mono (gf_mono (K' := 2 * d + 8 * a + 23) (by omega))
    have h2 := dot_cn (F := F) (hT 5) hr fun i => diff_near x y i
    have k2 := (Cl.mul h2 (idWL_cl hT hs w x y)).rd (F := F)
    have e2 : (1 + F.u) ^ (2 * a + 3 + 1 + d) * F.gf (4 * a + d + 11) (d + 2 * a + 5) q * (1 + F.u) = F.gf (6 * a + 2 * d + 16) (d + 2 * a + 5) q := by
      simp only [Fmt.gf]
      ring
    rw [← hq, e2] at k2
    have k3 := (k1.sub (k2.mono (gf_mono (K' := 2 * d + 8 * a + 23) (by omega)))).rd (F := F)
    have e3 : F.gf (2 * d + 8 * a + 23) (d + 2 * a + 5) q * (1 + F.u) = F.gf (2 * d + 8 * a + 24) (d + 2 * a + 5) q := by
      simp only [Fmt.gf]
      ring
    rw [e3] at k3
    have em : 2 * adot (fun i => dir i * 2 * sf l i ^ 2 * wInv l w i) (fun i => x i - y i) * Real.exp (-q) +
        adot (fun i => dir i * 2 * sf l i ^ 2) (fun i => x i - y i) * (lapMag l w (fun i => x i - y i) * Real.exp (-q)) =
        ekMag (.ddWL l dir w reverse) x y * Real.exp (-q) := by
      rw [ekMag]
      ring
    rw [em] at k3
    cases reverse with
    | false => exact k3
    | true => exact k3.neg

/-- C90: the computed value of a squared-exponential derivative kernel. -/
theorem expquad_deriv_error (hu : F.u ≤ 1 / 2) (hT : ∀ n, (T n).Full) (k : EK d) (hs : ∀ i, F.Near a (s i) (sf (lens k) i)) (x y : Fin d → ℝ) :
    let q := ∑ i, (sf (lens k) i * (x i - y i)) ^ 2
    |ekFl F T s k x y - k.eval x y| ≤
      ((1 + F.u) ^ (2 * d + 8 * a + 24) * ((1 + F.v) * Real.exp (((1 + F.u) ^ (d + 2 * a + 5) - 1) * q)) - 1) * (ekMag k x y * Real.exp (-q)) :=
  (ek_cl hu hT k hs x y).err

/-! ## Matérn kernels -/

/-- The order, scale factors and polynomials of a derivative kernel. -/
def parOf : MK d → Par d
  | .matern m | .idDD m _ _ _ | .ddDD m _ _ _ _ | .uniDDDD m _ _ _ | .idWL m _ _ _ | .wlWL m _ _ _ | .ddWL m _ _ _ _ => m

/-- The highest degree of the polynomials of a derivative kernel. -/
def degOf : MK d → ℕ
  | .matern m => m.p
  | .idDD _ _ _ q | .uniDDDD _ _ _ q | .idWL _ _ _ q | .wlWL _ _ _ q | .ddWL _ _ _ _ q => q.degree
  | .ddDD _ _ _ q q' => max q.degree q'.degree

/-- A polynomial with the absolute values of its coefficients. -/
noncomputable def amag (q : Poly ℚ) (r : ℝ) : ℝ := ∑ i ∈ range (q.degree + 1), |((q.coeffs.getD i 0 : ℚ) : ℝ)| * r ^ i

/-- The sum of the absolute values of the terms in front of the exponential. -/
noncomputable def mkMag (k : MK d) (x y : Fin d → ℝ) : ℝ :=
  let v := sdiff (parOf k).s x y
  let s := (parOf k).s
  let r := Matern.norm v
  match k with
  | .matern m => pev (derivPoly m.p 0) r
  | .idDD _ dir _ q => amag q r * adot (fun i => s i * dir i) v
  | .ddDD _ dir0 dir1 q q' => adot (fun i => s i * dir0 i) (fun i => s i * dir1 i) * amag q r +
      adot (fun i => s i * dir0 i) v * adot (fun i => s i * dir1 i) v * amag q' r
  | .uniDDDD _ dir0 dir1 q => (∑ i, |dir0 i * dir1 i * s i ^ 2|) * amag q r
  | .idWL _ w _ q => (∑ i, |w i * s i * s i|) * amag q r
  | .wlWL _ w0 w1 q => (∑ i, |w0 i * w1 i * s i ^ 4|) * amag q r
  | .ddWL _ dir w _ q => amag q r * adot (fun i => w i * s i ^ 3 * dir i) v

lemma toReal_coeffs (q : Poly ℚ) : (toReal q).coeffs = q.coeffs.map fun c : ℚ => (c : ℝ) :=
  coeffs_ofCoeffs_of_ne _ fun h => q.ne (List.map_eq_nil_iff.mp h)

lemma pev_sum (q : Poly ℚ) (r : ℝ) : pev q r = ∑ i ∈ range (q.degree + 1), ((q.coeffs.getD i 0 : ℚ) : ℝ) * r ^ i := by
  rw [pev, eval_sum]
  have hd : (toReal q).degree = q.degree := by rw [Poly.degree, toReal_coeffs, List.length_map, Poly.degree]
  rw [hd]
  refine sum_congr rfl fun i _ => ?_
  congr 1
  rw [toReal_coeffs]
  simp only [List.getD_eq_getElem?_getD, List.getElem?_map]
  cases q.coeffs[i]? <;> simp

/-- A polynomial at a computed distance. -/
lemma rpoly_cn (q : Poly ℚ) {k D : ℕ} (hD : q.degree ≤ D) {r r' : ℝ} (hr : 0 ≤ r') (h : F.Near k r r') :
    F.Cn (2 * D + 1 + D * k) (rpolyFl F q r) (pev q r') (amag q r') := by
  obtain ⟨θ, h1, h2, h3⟩ := polyFl_eq F (ratFl F q) r
  have hd : (ratFl F q).degree = q.degree := by simp [ratFl, Poly.degree]
  rw [hd] at h1 h2 h3
  rw [rpolyFl, h3, pev_sum]
  refine Cl.sum _ (one_le_pow₀ F.le_add) fun i hi => ?_
  have hi' : i ≤ q.degree := Nat.lt_succ_iff.mp (mem_range.mp hi)
  have hf : F.Fac (2 * q.degree) (θ i) := by
    rcases hi'.lt_or_eq with hi | rfl
    · exact (h1 i hi).mono (by omega)
    · exact h2
  have hc : (ratFl F q).coeffs.getD i 0 = F.rd ((q.coeffs.getD i 0 : ℚ) : ℝ) := by
    simp only [ratFl, List.getD_eq_getElem?_getD, List.getElem?_map]
    cases q.coeffs[i]? <;> simp [rd_zero]
  have hn : F.Near (2 * D + 1 + D * k) (θ i * (ratFl F q).coeffs.getD i 0 * r ^ i) (((q.coeffs.getD i 0 : ℚ) : ℝ) * r' ^ i) := by
    have a1 : F.Near (2 * q.degree) (θ i * F.rd ((q.coeffs.getD i 0 : ℚ) : ℝ)) (F.rd ((q.coeffs.getD i 0 : ℚ) : ℝ)) := ⟨_, hf, rfl⟩
    have a2 : F.Near 1 (F.rd ((q.coeffs.getD i 0 : ℚ) : ℝ)) ((q.coeffs.getD i 0 : ℚ) : ℝ) := rd_fac F _
    rw [hc]
    refine ((a1.trans a2).mul (h.pow i)).mono ?_
    have := Nat.mul_le_mul_right k (hi'.trans hD)
    omega
  have := hn.cn
  rwa [abs_mul, abs_pow, abs_of_nonneg hr] at this

lemma sdiff_near {s s' : Fin d → ℝ} (hs : ∀ i, F.Near a (s i) (s' i)) (x y : Fin d → ℝ) (i : Fin d) :
    F.Near (a + 2) (sdiffFl F s x y i) (sdiff s' x y i) := ((diff_near x y i).mul (hs i)).rd.mono (by omega)

lemma norm_sdiff (s x y : Fin d → ℝ) : √(∑ i, (s i * (x i - y i)) ^ 2) = Matern.norm (sdiff s x y) := by
  rw [Matern.norm]
  refine congrArg _ (sum_congr rfl fun i _ => ?_)
  show _ = ((x i - y i) * s i) ^ 2
  ring

lemma norm_nonneg' (v : Fin d → ℝ) : 0 ≤ Matern.norm v := Real.sqrt_nonneg _

/-- Exponential times a computed factor, then times another. -/
lemma ex_times {K K' k : ℕ} {A B M A' B' M' e q : ℝ} (h : F.Cn K A B M) (h' : F.Cn K' A' B' M')
    (he : Cl ((1 + F.v) * Real.exp (((1 + F.u) ^ k - 1) * q)) e (Real.exp (-q)) (Real.exp (-q))) :
    Cl (F.gf (K + K' + 2) k q) (F.rd (F.rd (A * e) * A')) (B * Real.exp (-q) * B') (M * Real.exp (-q) * M') := by
  have h1 := (Cl.mul (times_ex h he) h').rd (F := F)
  have e1 : F.gf (K + 1) k q * (1 + F.u) ^ K' * (1 + F.u) = F.gf (K + K' + 2) k q := by
    simp only [Fmt.gf]
    ring
  rwa [e1] at h1

lemma sgn_near {k : ℕ} {a b c : ℝ} (h : F.Near k a b) : F.Near k (a * c) (b * c) := by
  simpa using h.mul (near_refl F 0 c)

lemma adot_sgn (u v : Fin d → ℝ) (c : ℝ) (hc : |c| = 1) : adot (fun i => u i * c) v = adot u v := by
  unfold adot
  refine sum_congr rfl fun i _ => ?_
  rw [abs_mul, hc, mul_one]

lemma mk_cl (hT : ∀ n, (T n).Full) (k : MK d) (hs : ∀ i, F.Near a (s i) ((parOf k).s i)) (x y : Fin d → ℝ) :
    Cl (F.gf (4 * a + 2 * d + 10 + (2 * degOf k + 1 + degOf k * (d + a + 3))) (d + a + 3) (Matern.norm (sdiff (parOf k).s x y)))
      (mkFl F T s k x y) (k.eval x y) (mkMag k x y * Real.exp (-Matern.norm (sdiff (parOf k).s x y))) := by
  have hd := pos_of_full (hT 0)
  have hr := dist_near (hT 0) hs x y
  rw [Fintype.card_fin, norm_sdiff] at hr
  have hr0 := norm_nonneg' (sdiff (parOf k).s x y)
  have he := ex_cl hr0 hr
  cases k with
  | matern m =>
    have h := (horner_near (p := m.p) hr0 hr).cn
    have e : |pev (derivPoly m.p 0) (Matern.norm (sdiff m.s x y))| = pev (derivPoly m.p 0) (Matern.norm (sdiff m.s x y)) := by
      rw [pev_matern]
      exact abs_of_nonneg (sum_nonneg fun i _ => mul_nonneg (by exact_mod_cast maternCoeff_nonneg m.p i) (pow_nonneg hr0 i))
    have h1 := (times_ex h he).mono (gf_mono (K' := 4 * a + 2 * d + 10 + (2 * m.p + 1 + m.p * (d + a + 3))) (by omega))
    simp only [parOf] at h1
    rw [e] at h1
    exact h1
  | idDD m dir reverse q =>
    have h1 := rpoly_cn (F := F) q le_rfl hr0 hr
    have h2 := dot_cn (F := F) (p := a + 1) (hT 1) (u := fun i => F.rd (s i * dir i) * (if reverse then 1 else -1)) (u' := dirDD m dir reverse)
      (fun i => sgn_near (((hs i).mul (near_refl F 0 (dir i))).rd)) (sdiff_near hs x y)
    have e : adot (dirDD m dir reverse) (sdiff m.s x y) = adot (fun i => m.s i * dir i) (sdiff m.s x y) :=
      adot_sgn _ _ _ (by cases reverse <;> simp)
    simp only [parOf] at *
    rw [e] at h2
    have h3 := (ex_times h1 h2 he).mono (gf_mono (K' := 4 * a + 2 * d + 10 + (2 * q.degree + 1 + q.degree * (d + a + 3))) (by omega))
    have em : amag q (Matern.norm (sdiff m.s x y)) * Real.exp (-Matern.norm (sdiff m.s x y)) * adot (fun i => m.s i * dir i) (sdiff m.s x y) =
        mkMag (.idDD m dir reverse q) x y * Real.exp (-Matern.norm (sdiff m.s x y)) := by
      simp only [mkMag, parOf]
      ring
    rw [em] at h3
    exact h3
  | ddDD m dir0 dir1 q q' =>
    simp only [parOf] at *
    set D := degOf (.ddDD m dir0 dir1 q q') with hD
    have u0 : ∀ i, F.Near (a + 1) (F.rd (s i * dir0 i)) (m.s i * dir0 i) := fun i => ((hs i).mul (near_refl F 0 (dir0 i))).rd
    have u1 : ∀ i, F.Near (a + 1) (F.rd (s i * dir1 i)) (m.s i * dir1 i) := fun i => ((hs i).mul (near_refl F 0 (dir1 i))).rd
    have p1 := rpoly_cn (F := F) q (D := D) (le_max_left _ _) hr0 hr
    have p2 := rpoly_cn (F := F) q' (D := D) (le_max_right _ _) hr0 hr
    have h1 := (dot_cn (F := F) (hT 1) u0 u1).mul p1
    have h2 := dot_cn (F := F) (hT 2) u0 (sdiff_near hs x y)
    have h3 := dot_cn (F := F) (hT 3) u1 (sdiff_near hs x y)
    have h4 := ((h1.rd.sub (((h2.mul h3).rd.mul p2).rd)).rd).mono (l := 4 * a + 2 * d + 9 + (2 * D + 1 + D * (d + a + 3))) (by omega)
    exact (times_ex h4 he).mono (gf_mono (by omega))
  | uniDDDD m dir0 dir1 q =>
    simp only [parOf] at *
    have p1 := rpoly_cn (F := F) q le_rfl hr0 hr
    have h1 := (hT 1).cn (F := F) (k := 2 * a + 3) (a := fun i => F.rd (F.rd (dir0 i * dir1 i) * F.rd (s i ^ 2)))
      (b := fun i => dir0 i * dir1 i * m.s i ^ 2) (m := fun i => |dir0 i * dir1 i * m.s i ^ 2|) fun i => by
        have h0 : F.Near 1 (F.rd (dir0 i * dir1 i)) (dir0 i * dir1 i) := rd_fac F _
        exact ((h0.mul ((hs i).pow 2).rd).rd.mono (by omega)).cn
    rw [Fintype.card_fin] at h1
    exact (times_ex ((h1.mul p1).rd) he).mono (gf_mono (by simp only [degOf]; omega))
  | idWL m w reverse q =>
    simp only [parOf] at *
    have p1 := rpoly_cn (F := F) q le_rfl hr0 hr
    have h1 := (hT 1).cn (F := F) (k := 2 * a + 2) (a := fun i => F.rd (F.rd (w i * s i) * s i))
      (b := fun i => w i * m.s i * m.s i) (m := fun i => |w i * m.s i * m.s i|) fun i =>
        ((((near_refl F 0 (w i)).mul (hs i)).rd.mul (hs i)).rd.mono (by omega)).cn
    rw [Fintype.card_fin] at h1
    have h3 := (ex_times h1 p1 he).mono (gf_mono (K' := 4 * a + 2 * d + 10 + (2 * q.degree + 1 + q.degree * (d + a + 3))) (by omega))
    have em : (∑ i, |w i * m.s i * m.s i|) * Real.exp (-Matern.norm (sdiff m.s x y)) * amag q (Matern.norm (sdiff m.s x y)) =
        mkMag (.idWL m w reverse q) x y * Real.exp (-Matern.norm (sdiff m.s x y)) := by
      simp only [mkMag, parOf]
      ring
    rw [em] at h3
    exact h3
  | wlWL m w0 w1 q =>
    simp only [parOf] at *
    have p1 := rpoly_cn (F := F) q le_rfl hr0 hr
    have h1 := (hT 1).cn (F := F) (k := 4 * a + 3) (a := fun i => F.rd (F.rd (w0 i * w1 i) * F.rd (s i ^ 4)))
      (b := fun i => w0 i * w1 i * m.s i ^ 4) (m := fun i => |w0 i * w1 i * m.s i ^ 4|) fun i => by
        have h0 : F.Near 1 (F.rd (w0 i * w1 i)) (w0 i * w1 i) := rd_fac F _
        exact ((h0.mul ((hs i).pow 4).rd).rd.mono (by omega)).cn
    rw [Fintype.card_fin] at h1
    have h3 := (ex_times h1 p1 he).mono (gf_mono (K' := 4 * a + 2 * d + 10 + (2 * q.degree + 1 + q.degree * (d + a + 3))) (by omega))
    have em : (∑ i, |w0 i * w1 i * m.s i ^ 4|) * Real.exp (-Matern.norm (sdiff m.s x y)) * amag q (Matern.norm (sdiff m.s x y)) =
        mkMag (.wlWL m w0 w1 q) x y * Real.exp (-Matern.norm (sdiff m.s x y)) := by
      simp only [mkMag, parOf]
      ring
    rw [em] at h3
    exact h3
  | ddWL m dir w reverse q =>
    have p1 := rpoly_cn (F := F) q le_rfl hr0 hr
    have h2 := dot_cn (F := F) (p := 3 * a + 3) (hT 1) (u := fun i => F.rd (F.rd (w i * F.rd (s i ^ 3)) * dir i) * (if reverse then -1 else 1))
      (u' := dirDDWL m dir w reverse)
      (fun i => sgn_near (((((near_refl F 0 (w i)).mul ((hs i).pow 3).rd).rd.mul (near_refl F 0 (dir i))).rd).mono (by omega))) (sdiff_near hs x y)
    have e : adot (dirDDWL m dir w reverse) (sdiff m.s x y) = adot (fun i => w i * m.s i ^ 3 * dir i) (sdiff m.s x y) :=
      adot_sgn _ _ _ (by cases reverse <;> simp)
    simp only [parOf] at *
    rw [e] at h2
    have h3 := (ex_times p1 h2 he).mono (gf_mono (K' := 4 * a + 2 * d + 10 + (2 * q.degree + 1 + q.degree * (d + a + 3))) (by omega))
    have em : amag q (Matern.norm (sdiff m.s x y)) * Real.exp (-Matern.norm (sdiff m.s x y)) * adot (fun i => w i * m.s i ^ 3 * dir i) (sdiff m.s x y) =
        mkMag (.ddWL m dir w reverse q) x y * Real.exp (-Matern.norm (sdiff m.s x y)) := by
      simp only [mkMag, parOf]
      ring
    rw [em, mul_comm (rpolyFl F q _)] at h3
    rw [mul_comm (pev q _)] at h3
    exact h3

/-- C90: the computed value of a Matérn derivative kernel. -/
theorem matern_deriv_error (hT : ∀ n, (T n).Full) (k : MK d) (hs : ∀ i, F.Near a (s i) ((parOf k).s i)) (x y : Fin d → ℝ) :
    let r := Matern.norm (sdiff (parOf k).s x y)
    let K := 4 * a + 2 * d + 10 + (2 * degOf k + 1 + degOf k * (d + a + 3))
    |mkFl F T s k x y - k.eval x y| ≤
      ((1 + F.u) ^ K * ((1 + F.v) * Real.exp (((1 + F.u) ^ (d + a + 3) - 1) * r)) - 1) * (mkMag k x y * Real.exp (-r)) :=
  (mk_cl hT k hs x y).err

end LinPDE.Rounding
