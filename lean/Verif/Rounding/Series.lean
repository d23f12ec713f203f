import Verif.Rounding.SeriesModel
import Verif.Rounding.TensorHistory
import Verif.Rounding.Examples
import Verif.Pde.HeatProps
import Verif.Pde.PoissonProps
import Mathlib.Analysis.Real.Pi.Irrational

/-!
# C94: the closed-form solutions in floating point
-/

namespace LinPDE.Rounding
open Finset LinPDE.Pde

variable {F : Fmt} {S : Sn F} {l r : ℝ}

lemma freq_near (hu : F.u ≤ 1 / 2) (l r : ℝ) (k : ℕ) : F.Near 5 (freqFl F l r k) (freq l r k) := by
  have h1 : F.Near 2 (F.rd (F.rd Real.pi * (k + 1))) (Real.pi * (k + 1)) := (Fmt.Near.mul (rd_fac F Real.pi) (near_refl F 0 ((k : ℝ) + 1))).rd
  have h2 : F.Near 1 (F.rd (r - l)) (r - l) := rd_fac F (r - l)
  exact (h1.div hu h2).rd

/-- The argument of the sine carries seven roundings, the sine is accurate relative to the argument. -/
lemma sn_cl (hu : F.u ≤ 1 / 2) (S : Sn F) (l r : ℝ) (k : ℕ) (x : ℝ) :
    Cl ((1 + F.v) * (1 + F.u) ^ 7) (S.sn (F.rd (freqFl F l r k * F.rd (x - l)))) (Real.sin (freq l r k * (x - l))) |freq l r k * (x - l)| := by
  have h : F.Near 7 (F.rd (freqFl F l r k * F.rd (x - l))) (freq l r k * (x - l)) := ((freq_near hu l r k).mul (rd_fac F (x - l))).rd
  set X := F.rd (freqFl F l r k * F.rd (x - l))
  set θ := freq l r k * (x - l)
  have hv := F.v_nonneg
  have hp : 1 ≤ (1 + F.u) ^ 7 := one_le_pow₀ F.le_add
  have h1 : |X - θ| ≤ ((1 + F.u) ^ 7 - 1) * |θ| := h.abs
  have h2 : |Real.sin X - Real.sin θ| ≤ |X - θ| := Real.abs_sin_sub_sin_le X θ
  have h3 := S.err X
  have h4 : |Real.sin X| ≤ |X| := Real.abs_sin_le_abs
  have h5 : |X| ≤ (1 + F.u) ^ 7 * |θ| := h.cl.abs_le
  refine ⟨by nlinarith, Real.abs_sin_le_abs, ?_⟩
  have e : S.sn X - Real.sin θ = (S.sn X - Real.sin X) + (Real.sin X - Real.sin θ) := by ring
  rw [e]
  refine (abs_add_le _ _).trans ?_
  have h6 := mul_le_mul_of_nonneg_left (h4.trans h5) hv
  linarith

/-- The factor of the error of one term of the series. -/
noncomputable def modeGam (F : Fmt) : ℝ := (1 + F.v) * (1 + F.u) ^ 8

lemma mode_cl (hu : F.u ≤ 1 / 2) (S : Sn F) (l r c : ℝ) (k : ℕ) (x : ℝ) :
    Cl (modeGam F) (modeFl F S l r c k x) (c * Real.sin (freq l r k * (x - l))) (|c| * |freq l r k * (x - l)|) := by
  have h1 : Cl 1 c c |c| := ⟨le_rfl, le_rfl, by simp⟩
  have h2 := (h1.mul (sn_cl hu S l r k x)).rd (F := F)
  refine h2.mono (le_of_eq ?_)
  rw [modeGam]
  ring

lemma sum_get (cs : List ℝ) (f : ℕ → ℝ → ℝ) : ∑ k ∈ range cs.length, f k (cs.getD k 0) = ∑ k : Fin cs.length, f k (cs.get k) := by
  rw [Finset.sum_range]
  refine sum_congr rfl fun k _ => ?_
  simp

/-- C94: the computed series. -/
theorem sine_error (hu : F.u ≤ 1 / 2) (S : Sn F) (l r : ℝ) (cs : List ℝ) {t : Option (Tree (Fin cs.length))} (ht : FullOpt t) (x : ℝ) :
    |sineFl F S l r cs t x - sineEval l r cs x| ≤
      ((1 + F.u) ^ (cs.length - 1) * ((1 + F.v) * (1 + F.u) ^ 8) - 1) * ∑ k : Fin cs.length, |cs.get k| * |Real.pi * (k + 1) / (r - l) * (x - l)| := by
  have h := (tree_er (F := F) ht (v := fun k => modeFl F S l r (cs.get k) k x) (w := fun k => cs.get k * Real.sin (freq l r k * (x - l)))
    (E := fun k => (modeGam F - 1) * (|cs.get k| * |freq l r k * (x - l)|)) (M := fun k => |cs.get k| * |freq l r k * (x - l)|)
    fun k => ⟨(mode_cl hu S l r _ k x).err, (mode_cl hu S l r _ k x).mag⟩).1
  rw [sineEval_eq, sum_get cs fun k c => c * Real.sin (freq l r k * (x - l))]
  refine h.trans (le_of_eq ?_)
  rw [mul_sum]
  refine sum_congr rfl fun k _ => ?_
  rw [Fintype.card_fin, modeGam, freq]
  ring

/-- C94: the left boundary value is exact. -/
theorem sine_left (hu : F.u ≤ 1 / 2) (S : Sn F) (l r : ℝ) (cs : List ℝ) {t : Option (Tree (Fin cs.length))} (ht : FullOpt t) : sineFl F S l r cs t l = 0 := by
  have h := sine_error hu S l r cs ht l
  simp only [sub_self, mul_zero, abs_zero, sum_const_zero] at h
  rw [sineEval_eq] at h
  simpa using h

/-- C94: the right boundary value is small. -/
theorem sine_right_partial (hu : F.u ≤ 1 / 2) (S : Sn F) (h : l < r) (cs : List ℝ) {t : Option (Tree (Fin cs.length))} (ht : FullOpt t) :
    |sineFl F S l r cs t r| ≤ ((1 + F.u) ^ (cs.length - 1) * ((1 + F.v) * (1 + F.u) ^ 8) - 1) * ∑ k : Fin cs.length, |cs.get k| * (Real.pi * (k + 1)) := by
  have h1 := sine_error hu S l r cs ht r
  rw [(sine_ends h cs).2, sub_zero] at h1
  refine h1.trans (le_of_eq ?_)
  congr 1
  refine sum_congr rfl fun k _ => ?_
  have hne : r - l ≠ 0 := sub_ne_zero.2 h.ne'
  rw [div_mul_cancel₀ _ hne, abs_of_pos (a := Real.pi * (k + 1)) (mul_pos Real.pi_pos (by positivity))]

/-- The exponent carries fourteen roundings. -/
lemma rate_near (hu : F.u ≤ 1 / 2) (l r alpha : ℝ) (k : ℕ) (s : ℝ) : F.Near 14 (F.rd (rateFl F l r alpha k * F.rd s)) (alpha * freq l r k ^ 2 * s) := by
  have h := freq_near hu l r k
  have h1 := ((near_refl F 0 alpha).mul (h.mul h).rd).rd
  have h2 := (h1.mul (rd_fac F s)).rd
  rw [pow_two]
  exact h2.mono (by norm_num)

/-- The factor of the error of one term of the solution of the heat equation. -/
noncomputable def heatGam (F : Fmt) (y : ℝ) : ℝ := (1 + F.v) * (1 + F.u) ^ 8 * ((1 + F.v) * Real.exp (((1 + F.u) ^ 14 - 1) * y)) * (1 + F.u)

lemma heat_cl (hu : F.u ≤ 1 / 2) (S : Sn F) {alpha t0 τ : ℝ} (ha : 0 ≤ alpha) (hτ : t0 ≤ τ) (l r c : ℝ) (k : ℕ) (x : ℝ) :
    Cl (heatGam F (alpha * freq l r k ^ 2 * (τ - t0))) (F.rd (modeFl F S l r c k x * F.ex (F.rd (rateFl F l r alpha k * F.rd (t0 - τ)))))
      (c * Real.sin (freq l r k * (x - l)) * Real.exp (alpha * freq l r k ^ 2 * (t0 - τ)))
      (|c| * |freq l r k * (x - l)| * Real.exp (alpha * freq l r k ^ 2 * (t0 - τ))) := by
  have e1 : F.rd (rateFl F l r alpha k * F.rd (t0 - τ)) = -F.rd (rateFl F l r alpha k * F.rd (τ - t0)) := by
    rw [show t0 - τ = -(τ - t0) by ring, F.neg, mul_neg, F.neg]
  have e2 : alpha * freq l r k ^ 2 * (t0 - τ) = -(alpha * freq l r k ^ 2 * (τ - t0)) := by ring
  rw [e1, e2]
  have h := ex_cl (mul_nonneg (mul_nonneg ha (sq_nonneg (freq l r k))) (sub_nonneg.2 hτ)) (rate_near hu l r alpha k (τ - t0))
  exact ((mode_cl hu S l r c k x).mul h).rd

/-- C94: the computed solution of the heat equation. -/
theorem heatSol_error (hu : F.u ≤ 1 / 2) (S : Sn F) {alpha t0 τ : ℝ} (ha : 0 ≤ alpha) (hτ : t0 ≤ τ) (l r : ℝ) (cs : List ℝ) {t : Option (Tree (Fin cs.length))}
    (ht : FullOpt t) (x : ℝ) :
    |heatFl F S t0 l r cs alpha t τ x - heatEval t0 l r cs alpha τ x| ≤ ∑ k : Fin cs.length,
      ((1 + F.u) ^ (cs.length - 1) * heatGam F (alpha * (Real.pi * (k + 1) / (r - l)) ^ 2 * (τ - t0)) - 1) *
        (|cs.get k| * |Real.pi * (k + 1) / (r - l) * (x - l)| * Real.exp (-(alpha * (Real.pi * (k + 1) / (r - l)) ^ 2 * (τ - t0)))) := by
  have h := (tree_er (F := F) ht (E := fun k => (heatGam F (alpha * freq l r k ^ 2 * (τ - t0)) - 1) *
      (|cs.get k| * |freq l r k * (x - l)| * Real.exp (alpha * freq l r k ^ 2 * (t0 - τ))))
    fun k => ⟨(heat_cl hu S ha hτ l r (cs.get k) k x).err, (heat_cl hu S ha hτ l r (cs.get k) k x).mag⟩).1
  rw [heatEval_eq, sum_get cs fun k c => c * Real.sin (freq l r k * (x - l)) * Real.exp (alpha * freq l r k ^ 2 * (t0 - τ))]
  refine h.trans (le_of_eq (sum_congr rfl fun k _ => ?_))
  rw [Fintype.card_fin, freq, show alpha * (Real.pi * (k + 1) / (r - l)) ^ 2 * (t0 - τ) = -(alpha * (Real.pi * (k + 1) / (r - l)) ^ 2 * (τ - t0)) by ring]
  ring

/-- C94: the computed solution of the heat equation vanishes at the left end, at all times. -/
theorem heatSol_left (hu : F.u ≤ 1 / 2) (S : Sn F) {alpha t0 τ : ℝ} (ha : 0 ≤ alpha) (hτ : t0 ≤ τ) (l r : ℝ) (cs : List ℝ) {t : Option (Tree (Fin cs.length))}
    (ht : FullOpt t) : heatFl F S t0 l r cs alpha t τ l = 0 := by
  have h := heatSol_error hu S ha hτ l r cs ht l
  simp only [sub_self, mul_zero, abs_zero, zero_mul, sum_const_zero] at h
  rw [heatEval_eq] at h
  simpa using h

/-- C94: at the initial time the computed solution of the heat equation is the computed series of initial values. -/
theorem heatSol_initial (hi : ∀ x, F.rd (F.rd x) = F.rd x) (S : Sn F) (alpha t0 l r : ℝ) (cs : List ℝ) (t : Option (Tree (Fin cs.length))) (x : ℝ) :
    heatFl F S t0 l r cs alpha t t0 x = sineFl F S l r cs t x := by
  unfold heatFl sineFl
  refine congrArg (fun f => sumFl F f t) (funext fun k => ?_)
  rw [sub_self, rd_zero, mul_zero, rd_zero, F.ex_zero, mul_one, modeFl, hi]

/-! ## The right end -/

lemma rd_ne (F : Fmt) {x : ℝ} (h : x ≠ 0) : F.rd x ≠ 0 := by
  obtain ⟨t, ht, e⟩ := rd_fac F x
  rw [e]
  exact mul_ne_zero ht.pos.ne' h

lemma binPos_rat (p : ℕ) (x : ℝ) : ∃ q : ℚ, binPos p x = q :=
  ⟨round (x / (2 : ℝ) ^ (Int.log 2 x - p)) * (2 : ℚ) ^ (Int.log 2 x - p), by rw [binPos]; push_cast; rfl⟩

lemma binRd_rat (p : ℕ) (x : ℝ) : ∃ q : ℚ, (bin p).rd x = q := by
  show ∃ q : ℚ, binRd p x = q
  unfold binRd
  split_ifs
  · obtain ⟨q, hq⟩ := binPos_rat p (-x)
    exact ⟨-q, by rw [hq]; push_cast; rfl⟩
  · exact ⟨0, by simp⟩
  · exact binPos_rat p x

/-- C94: a computed mode vanishes at no point other than the left end: the sine of a number other than zero is not zero. -/
theorem mode_ne_zero (p : ℕ) (S : Sn (bin p)) {l r c x : ℝ} (h : l ≠ r) (hc : c ≠ 0) (hx : x ≠ l) (k : ℕ) : modeFl (bin p) S l r c k x ≠ 0 := by
  unfold modeFl
  have hf : freqFl (bin p) l r k ≠ 0 := rd_ne _ (div_ne_zero (rd_ne _ (mul_ne_zero (rd_ne _ Real.pi_ne_zero) (by positivity))) (rd_ne _ (sub_ne_zero.2 h.symm)))
  have hX : (bin p).rd (freqFl (bin p) l r k * (bin p).rd (x - l)) ≠ 0 := rd_ne _ (mul_ne_zero hf (rd_ne _ (sub_ne_zero.2 hx)))
  obtain ⟨q, hq⟩ := binRd_rat p (freqFl (bin p) l r k * (bin p).rd (x - l))
  rw [hq] at hX ⊢
  have hs : Real.sin q ≠ 0 := fun h0 => by
    obtain ⟨n, hn⟩ := Real.sin_eq_zero_iff.1 h0
    have hn0 : (n : ℝ) ≠ 0 := fun h0 => hX (by rw [← hn, h0, zero_mul])
    refine irrational_pi ⟨q / n, ?_⟩
    push_cast
    rw [← hn, mul_div_cancel_left₀ _ hn0]
  refine rd_ne _ (mul_ne_zero hc fun h0 => ?_)
  have he := S.err q
  rw [h0, zero_sub, abs_neg] at he
  have := mul_lt_mul_of_pos_right (bin p).v_lt (abs_pos.2 hs)
  linarith

/-- C94: the right boundary value is not exact: a series with one term vanishes at the right end, its computed value never does. -/
theorem sine_right_violated (p : ℕ) (S : Sn (bin p)) {l r c : ℝ} (h : l < r) (hc : c ≠ 0) :
    sineEval l r [c] r = 0 ∧ sineFl (bin p) S l r [c] (some (.leaf (0 : Fin 1))) r ≠ 0 :=
  ⟨(sine_ends h [c]).2, mode_ne_zero p S h.ne hc h.ne' 0⟩

/-- Rounding to `p + 1` binary digits is idempotent. -/
lemma binPos_idem (p : ℕ) {x : ℝ} (hx : 0 < x) : binPos p (binPos p x) = binPos p x := by
  have hb : (1 : ℕ) < 2 := by norm_num
  set L := Int.log 2 x with hL
  have h1 : (2 : ℝ) ^ L ≤ x := by exact_mod_cast Int.zpow_log_le_self hb hx
  have h2 : x < (2 : ℝ) ^ (L + 1) := by exact_mod_cast Int.lt_zpow_succ_log_self hb x
  have hp : (0 : ℝ) < (2 : ℝ) ^ (L - p) := by positivity
  set n := round (x / (2 : ℝ) ^ (L - p)) with hn
  have hy : binPos p x = n * (2 : ℝ) ^ (L - p) := rfl
  have e1 : (2 : ℝ) ^ L = ((2 ^ p : ℤ) : ℝ) * (2 : ℝ) ^ (L - p) := by
    push_cast
    rw [← zpow_natCast, ← zpow_add₀ two_ne_zero]
    congr 1
    ring
  have e2 : (2 : ℝ) ^ (L + 1) = ((2 ^ (p + 1) : ℤ) : ℝ) * (2 : ℝ) ^ (L - p) := by
    rw [zpow_add_one₀ two_ne_zero, e1]
    push_cast
    ring
  have n1 : 2 ^ p ≤ n := by
    have : ((2 ^ p : ℤ) : ℝ) ≤ x / (2 : ℝ) ^ (L - p) := by
      rw [le_div_iff₀ hp, ← e1]
      exact h1
    rw [hn, round_eq]
    exact Int.le_floor.2 (by linarith)
  have n2 : n ≤ 2 ^ (p + 1) := by
    have : x / (2 : ℝ) ^ (L - p) ≤ ((2 ^ (p + 1) : ℤ) : ℝ) := by
      rw [div_le_iff₀ hp, ← e2]
      exact h2.le
    have h3 : n < 2 ^ (p + 1) + 1 := by
      rw [hn, round_eq]
      exact Int.floor_lt.2 (by push_cast at this ⊢; linarith)
    omega
  rw [hy]
  rcases n2.lt_or_eq with h | h
  · have h3 : binPos p ((n : ℝ) * (2 : ℝ) ^ (L - p)) = n * (2 : ℝ) ^ (L - p) := by
      refine binPos_eq L ?_ ?_ n ?_
      · rw [e1]
        exact mul_le_mul_of_nonneg_right (by exact_mod_cast n1) hp.le
      · rw [e2]
        exact mul_lt_mul_of_pos_right (by exact_mod_cast h) hp
      · rw [mul_div_cancel_right₀ _ hp.ne']
        norm_num
    exact h3
  · rw [h, ← e2]
    have hq : (0 : ℝ) < (2 : ℝ) ^ (L + 1 - p) := by positivity
    have e3 : (2 : ℝ) ^ (L + 1) = ((2 ^ p : ℤ) : ℝ) * (2 : ℝ) ^ (L + 1 - p) := by
      push_cast
      rw [← zpow_natCast, ← zpow_add₀ two_ne_zero]
      congr 1
      ring
    refine (binPos_eq (L + 1) le_rfl ?_ (2 ^ p) ?_).trans e3.symm
    · exact zpow_lt_zpow_right₀ one_lt_two (by omega)
    · rw [e3, mul_div_cancel_right₀ _ hq.ne']
      norm_num

/-- C94: binary rounding is idempotent. -/
theorem bin_idem (p : ℕ) (x : ℝ) : (bin p).rd ((bin p).rd x) = (bin p).rd x := by
  have key : ∀ x : ℝ, 0 < x → (bin p).rd ((bin p).rd x) = (bin p).rd x := fun x hx => by
    have h0 : 0 < (bin p).rd x := by
      obtain ⟨t, ht, e⟩ := rd_fac (bin p) x
      rw [e]
      exact mul_pos ht.pos hx
    show binRd p (binRd p x) = binRd p x
    rw [binRd_pos p (show 0 < binRd p x from h0), binRd_pos p hx]
    exact binPos_idem p hx
  rcases lt_trichotomy x 0 with h | h | h
  · have := key (-x) (by linarith)
    rw [(bin p).neg, (bin p).neg, neg_inj] at this
    exact this
  · rw [h, rd_zero, rd_zero]
  · exact key x h

/-! ## The Poisson equation -/

/-- C94: the computed solution of the Poisson equation with constant right-hand side. -/
theorem const_error (hu : F.u ≤ 1 / 2) (l r rhs ul ur : ℝ) (alpha : ℝ) (x : ℝ) :
    |constFl F l r (constCoeffs F l r rhs ul ur alpha) x - (ConstSol.mk l r [ul, (ur - ul) / (r - l), 0.5 * rhs / -alpha]).eval x| ≤
      ((1 + F.u) ^ 8 - 1) * ((|0.5 * rhs / -alpha| * |x - r| + |(ur - ul) / (r - l)|) * |x - l| + |ul|) := by
  have h2 : F.Near 2 (F.rd (F.rd (0.5 * rhs) / -alpha)) (0.5 * rhs / -alpha) := by
    have := (Fmt.Near.div hu (rd_fac F (0.5 * rhs)) (near_refl F 0 (-alpha))).rd
    exact this
  have h1 : F.Near 4 (F.rd (F.rd (ur - ul) / F.rd (r - l))) ((ur - ul) / (r - l)) := by
    have := (Fmt.Near.div hu (rd_fac F (ur - ul)) (rd_fac F (r - l))).rd
    exact this
  have hr : F.Cn 1 (F.rd (x - r)) (x - r) |x - r| := Fmt.Near.cn (rd_fac F (x - r))
  have hl : F.Cn 1 (F.rd (x - l)) (x - l) |x - l| := Fmt.Near.cn (rd_fac F (x - l))
  have h := (((((h2.cn.mul hr).rd.add h1.cn).rd.mul hl).rd).add (cn_refl F 0 ul)).rd
  have h' := (h.mono (l := 8) (by norm_num)).err
  simpa [constFl, constCoeffs, ConstSol.eval] using h'

/-- C94: the left boundary value of the computed solution is exact, the right one is within the roundings. -/
theorem const_ends (hu : F.u ≤ 1 / 2) (h : l < r) (rhs ul ur alpha : ℝ) :
    constFl F l r (constCoeffs F l r rhs ul ur alpha) l = F.rd ul ∧
      |constFl F l r (constCoeffs F l r rhs ul ur alpha) r - ur| ≤ ((1 + F.u) ^ 8 - 1) * (|ur - ul| + |ul|) := by
  refine ⟨by simp [constFl, constCoeffs, rd_zero], ?_⟩
  have h1 := const_error hu l r rhs ul ur alpha r
  have hne : r - l ≠ 0 := sub_ne_zero.2 h.ne'
  have e : (ConstSol.mk l r [ul, (ur - ul) / (r - l), 0.5 * rhs / -alpha]).eval r = ur := by
    simp [ConstSol.eval, div_mul_cancel₀ _ hne]
  rw [e, sub_self, abs_zero, mul_zero, zero_add, ← abs_mul, div_mul_cancel₀ _ hne] at h1
  exact h1

/-! ## Cases -/

/-- A sine with the accuracy of the exponential. -/
noncomputable def exactSn (F : Fmt) : Sn F := ⟨Real.sin, fun x => by simpa using mul_nonneg F.v_nonneg (abs_nonneg _)⟩

/-- Double precision: the solution `3 sin(π x) e^{-π² t}` in the unit interval for `t ≤ 1` is computed with an absolute error below `10⁻¹²`. -/
example (x τ : ℝ) (hx : 0 ≤ x ∧ x ≤ 1) (hτ : 0 ≤ τ ∧ τ ≤ 1) :
    |heatFl (bin 52) (exactSn _) 0 0 1 [3] 1 (some (.leaf (0 : Fin 1))) τ x - heatEval 0 0 1 [3] 1 τ x| ≤ 1 / 10 ^ 12 := by
  have h := heatSol_error (F := bin 52) (by rw [bin_u.1]; norm_num) (exactSn _) zero_le_one hτ.1 0 1 [3] (t := some (.leaf (0 : Fin 1))) leaf_full x
  refine h.trans ?_
  have hs : ∀ f : Fin [(3 : ℝ)].length → ℝ, ∑ k, f k = f (0 : Fin 1) := fun f => Fin.sum_univ_one f
  rw [hs]
  have hy : 1 * (Real.pi * ((((0 : Fin 1) : ℕ) : ℝ) + 1) / (1 - 0)) ^ 2 * (τ - 0) ≤ 16 ∧ 0 ≤ 1 * (Real.pi * ((((0 : Fin 1) : ℕ) : ℝ) + 1) / (1 - 0)) ^ 2 * (τ - 0) := by
    have h1 := Real.pi_le_four
    have h2 := Real.pi_pos
    simp only [Fin.val_zero, Nat.cast_zero, zero_add, mul_one, sub_zero, div_one, one_mul]
    refine ⟨?_, mul_nonneg (sq_nonneg _) hτ.1⟩
    calc Real.pi ^ 2 * τ ≤ 4 ^ 2 * 1 := mul_le_mul (pow_le_pow_left₀ h2.le h1 2) hτ.2 hτ.1 (by norm_num)
      _ = 16 := by norm_num
  have hm : |Real.pi * ((((0 : Fin 1) : ℕ) : ℝ) + 1) / (1 - 0) * (x - 0)| ≤ 4 := by
    simp only [Fin.val_zero, Nat.cast_zero, zero_add, mul_one, sub_zero, div_one]
    rw [abs_of_nonneg (mul_nonneg Real.pi_pos.le hx.1)]
    calc Real.pi * x ≤ 4 * 1 := mul_le_mul Real.pi_le_four hx.2 hx.1 (by norm_num)
      _ = 4 := by norm_num
  set y := 1 * (Real.pi * ((((0 : Fin 1) : ℕ) : ℝ) + 1) / (1 - 0)) ^ 2 * (τ - 0)
  set m := |Real.pi * ((((0 : Fin 1) : ℕ) : ℝ) + 1) / (1 - 0) * (x - 0)|
  have hA : Real.exp (((1 + (bin 52).u) ^ 14 - 1) * y) ≤ 1 / (1 - 1 / 2 ^ 45) := by
    have hE : ((1 + (bin 52).u) ^ 14 - 1) * y ≤ 1 / 2 ^ 45 := by
      calc ((1 + (bin 52).u) ^ 14 - 1) * y ≤ ((1 + (bin 52).u) ^ 14 - 1) * 16 := mul_le_mul_of_nonneg_left hy.1 (eps_nonneg _ _)
        _ ≤ 1 / 2 ^ 45 := by rw [bin_u.1]; norm_num
    exact (Real.exp_le_exp.2 hE).trans (Real.exp_bound_div_one_sub_of_interval (by norm_num) (by norm_num))
  have hB : (1 + (bin 52).u) ^ ([(3 : ℝ)].length - 1) * heatGam (bin 52) y - 1 ≤ 1 / 2 ^ 44 := by
    have : heatGam (bin 52) y ≤ (1 + (bin 52).v) * (1 + (bin 52).u) ^ 8 * ((1 + (bin 52).v) * (1 / (1 - 1 / 2 ^ 45))) * (1 + (bin 52).u) := by
      have h1 := (bin 52).u_nonneg
      have h2 := (bin 52).v_nonneg
      unfold heatGam
      gcongr
    rw [bin_u.1, bin_u.2] at this
    simp only [List.length_cons, List.length_nil, zero_add, Nat.sub_self, pow_zero, one_mul]
    norm_num at this ⊢
    linarith
  have hC : |[(3 : ℝ)].get (0 : Fin 1)| * m * Real.exp (-y) ≤ 3 * 4 * 1 := by
    have h3 : |[(3 : ℝ)].get (0 : Fin 1)| ≤ 3 := by simp
    exact mul_le_mul (mul_le_mul h3 hm (abs_nonneg _) (by norm_num)) (Real.exp_le_one_iff.2 (by linarith [hy.2])) (Real.exp_pos _).le (by norm_num)
  calc _ ≤ 1 / 2 ^ 44 * (3 * 4 * 1 : ℝ) := mul_le_mul hB hC (by positivity) (by norm_num)
    _ ≤ 1 / 10 ^ 12 := by norm_num

/-- Double precision: the initial values of the heat equation are those of the series. -/
example (x : ℝ) : heatFl (bin 52) (exactSn _) 5 0 1 [3] 2 (some (.leaf (0 : Fin 1))) 5 x = sineFl (bin 52) (exactSn _) 0 1 [3] (some (.leaf (0 : Fin 1))) x :=
  heatSol_initial (bin_idem 52) _ 2 5 0 1 [3] _ x

/-- Double precision: `sin` of the computed `π` is not zero. -/
example : sineFl (bin 52) (exactSn _) 0 1 [1] (some (.leaf (0 : Fin 1))) 1 ≠ 0 := (sine_right_violated 52 (exactSn _) zero_lt_one one_ne_zero).2

end LinPDE.Rounding
