import Verif.Rounding.PwIntModel
import Verif.Rounding.Piecewise
import Verif.Piecewise.IntegralProps
import Verif.Rounding.Wendland

/-!
# C99: integrals of polynomials and piecewise functions in floating point
-/

namespace LinPDE.Rounding.PwFl
open LinPDE.Piecewise Finset LinPDE.Polys

variable {F : Fmt}

/-! ## Error bounds -/

/-- Sizes of the terms that are added in the integral of a piece. -/
noncomputable def pieceMag (l r : ℝ) : Piece → ℝ
  | .poly p => ∑ i ∈ range (p.degree + 1), |p.coeffs.getD i 0| / (i + 1) * (|r| ^ (i + 1) + |l| ^ (i + 1))
  | .const c => |c| * |r - l|
  | .fn f => |∫ x in l..r, f x|

/-- Degree of a piece. -/
def pieceDeg : Piece → ℕ
  | .poly p => p.degree
  | _ => 0

/-- The pieces of a function that meet `[a, b]` and their intervals. -/
noncomputable def parts (f : PW) (a b : ℝ) : List (Piece × ℝ × ℝ) :=
  let i := searchsortedRight f.xs a - 1
  let j := searchsortedRight f.xs b - 1
  let xs := a :: slice f.xs (i + 1) j ++ [b]
  (slice f.fns i j).zip (xs.zip xs.tail)

lemma integrate_getD (g : ℕ → ℝ → ℝ) (hg : ∀ i, g i 0 = 0) (p : Poly ℝ) (i : ℕ) :
    (Poly.ofCoeffs (0 :: p.coeffs.mapIdx g)).coeffs.getD (i + 1) 0 = g i (p.coeffs.getD i 0) := by
  simp only [Poly.ofCoeffs, List.getD_eq_getElem?_getD, List.getElem?_cons_succ, List.getElem?_mapIdx]
  cases p.coeffs[i]? with
  | none => exact (hg i).symm
  | some c => rfl

lemma integrate_degree (g : ℕ → ℝ → ℝ) (p : Poly ℝ) : (Poly.ofCoeffs (0 :: p.coeffs.mapIdx g)).degree = p.degree + 1 := by
  have := List.length_pos_iff.mpr p.ne
  simp only [Poly.ofCoeffs, Poly.degree, List.length_cons, List.length_mapIdx]
  omega

lemma integrate_cn (F : Fmt) (p : Poly ℝ) (x : ℝ) :
    F.Cn (2 * p.degree + 3) (polyFl F (integrateFl F p) x) (p.integrate.eval x) (∑ i ∈ range (p.degree + 1), |p.coeffs.getD i 0| / (i + 1) * |x| ^ (i + 1)) := by
  obtain ⟨θ, h1, h2, h3⟩ := polyFl_eq F (integrateFl F p) x
  have d1 : (integrateFl F p).degree = p.degree + 1 := integrate_degree _ p
  have d2 : p.integrate.degree = p.degree + 1 := integrate_degree _ p
  rw [d1] at h1 h2 h3
  rw [h3, eval_sum, d2, sum_range_succ', sum_range_succ' (fun i => p.integrate.coeffs.getD i 0 * x ^ i)]
  have z1 : (integrateFl F p).coeffs.getD 0 0 = 0 := rfl
  have z2 : p.integrate.coeffs.getD 0 0 = 0 := rfl
  rw [z1, z2, mul_zero, zero_mul, add_zero, add_zero]
  refine Cl.sum _ (one_le_pow₀ F.le_add) fun i hi => ?_
  have hf : F.Fac (2 * (p.degree + 1)) (θ (i + 1)) := by
    rcases Nat.lt_succ_iff_lt_or_eq.mp (mem_range.mp hi) with hi | rfl
    · exact (h1 (i + 1) (by omega)).mono (by omega)
    · exact h2
  have e1 : (integrateFl F p).coeffs.getD (i + 1) 0 = F.rd (p.coeffs.getD i 0 / ((i + 1 : ℕ) : ℝ)) :=
    integrate_getD (fun i c => F.rd (c / ((i + 1 : ℕ) : ℝ))) (fun i => by rw [zero_div, rd_zero]) p i
  have e2 : p.integrate.coeffs.getD (i + 1) 0 = p.coeffs.getD i 0 / ((i + 1 : ℕ) : ℝ) :=
    integrate_getD (fun i c => c / ((i + 1 : ℕ) : ℝ)) (fun i => zero_div _) p i
  rw [e1, e2]
  have ht : F.Near (2 * (p.degree + 1)) (θ (i + 1)) 1 := ⟨_, hf, (mul_one _).symm⟩
  have h := (((ht.mul (rd_fac F (p.coeffs.getD i 0 / ((i + 1 : ℕ) : ℝ)))).mul (near_refl F 0 (x ^ (i + 1)))).cn).mono (l := 2 * p.degree + 3) (by omega)
  rw [one_mul, abs_mul, abs_div, abs_pow, Nat.abs_cast, Nat.cast_succ] at h
  exact_mod_cast h

lemma piece_cn (F : Fmt) (l r : ℝ) (q : Piece) : F.Cn (2 * pieceDeg q + 4) (pieceIntFl F l r q) (q.integral l r) (pieceMag l r q) := by
  cases q with
  | poly p =>
    have h := ((integrate_cn F p r).sub (integrate_cn F p l)).rd
    rw [max_self, ← sum_add_distrib] at h
    simp only [← mul_add] at h
    exact h
  | const c =>
    have h := (((near_refl F 0 c).mul (rd_fac F (r - l))).rd.cn).mono (l := 4) (by omega)
    rw [abs_mul] at h
    exact h
  | fn f => exact cn_refl F _ _

lemma fold_cn (F : Fmt) (N : ℕ) : ∀ (L : List (Piece × ℝ × ℝ)) (s s' m : ℝ) (j : ℕ), (∀ t ∈ L, pieceDeg t.1 ≤ N) → F.Cn (2 * N + 4 + j) s s' m →
    (∃ e, L.foldlM (fun s t => do let v ← integratePieceFl F t.2.1 t.2.2 t.1; .ok (F.rd (s + v))) s = Except.error e ∧
      L.foldlM (fun s t => do let v ← integratePiece t.2.1 t.2.2 t.1; .ok (s + v)) s' = Except.error e) ∨
    ∃ v v', L.foldlM (fun s t => do let v ← integratePieceFl F t.2.1 t.2.2 t.1; .ok (F.rd (s + v))) s = Except.ok v ∧
      L.foldlM (fun s t => do let v ← integratePiece t.2.1 t.2.2 t.1; .ok (s + v)) s' = Except.ok v' ∧
      F.Cn (2 * N + 4 + j + L.length) v v' (m + (L.map fun t => pieceMag t.2.1 t.2.2 t.1).sum)
  | [], s, s', m, j, _, h => Or.inr ⟨s, s', rfl, rfl, by simpa using h⟩
  | t :: L, s, s', m, j, hL, h => by
    simp only [List.foldlM_cons, integratePieceFl, integratePiece]
    cases LinPDE.Domains.asdomain (.scalars t.2.1 t.2.2) with
    | error e => exact Or.inl ⟨.valueError, rfl, rfl⟩
    | ok D =>
      have hp := (piece_cn F t.2.1 t.2.2 t.1).mono (l := 2 * N + 4 + j) (by have := hL t (by simp); omega)
      have hn := (h.add hp).rd
      rw [max_self] at hn
      have := fold_cn F N L _ _ _ (j + 1) (fun t ht => hL t (by simp [ht])) hn
      rw [List.map_cons, List.sum_cons, List.length_cons, ← add_assoc m, show 2 * N + 4 + j + (L.length + 1) = 2 * N + 4 + (j + 1) + L.length by omega]
      exact this

/-- C99: the computed integral of a polynomial over `[l, r]`. -/
theorem poly_integral_error (F : Fmt) (p : Poly ℝ) (l r : ℝ) :
    |pieceIntFl F l r (.poly p) - ∫ x in l..r, p.eval x| ≤
      ((1 + F.u) ^ (2 * p.degree + 4) - 1) * ∑ i ∈ range (p.degree + 1), |p.coeffs.getD i 0| / (i + 1) * (|r| ^ (i + 1) + |l| ^ (i + 1)) := by
  have h := (piece_cn F l r (.poly p)).err
  rwa [piece_integral] at h

/-- C99: computed integrals of piecewise functions raise exactly where exact ones do; otherwise the error is a number of roundings that grows with the degrees and the
number of pieces, relative to the sizes of the terms. -/
theorem pw_integral_error (F : Fmt) (f : PW) (a b : ℝ) {N : ℕ} (hN : ∀ q ∈ f.fns, pieceDeg q ≤ N) :
    (∃ e, pwIntFl F f a b = .error e ∧ f.integral a b = .error e) ∨ ∃ v v', pwIntFl F f a b = .ok v ∧ f.integral a b = .ok v' ∧
      |v - v'| ≤ ((1 + F.u) ^ (2 * N + 4 + (parts f a b).length) - 1) * ((parts f a b).map fun t => pieceMag t.2.1 t.2.2 t.1).sum := by
  simp only [pwIntFl, PW.integral]
  split_ifs with h0
  · exact Or.inl ⟨_, rfl, rfl⟩
  · have hL : ∀ t ∈ parts f a b, pieceDeg t.1 ≤ N := fun t ht =>
      hN t.1 (List.mem_of_mem_take (List.mem_of_mem_drop (List.of_mem_zip (show (t.1, t.2) ∈ _ from ht)).1))
    have h0' : F.Cn (2 * N + 4 + 0) 0 0 0 := by simpa using cn_refl F (2 * N + 4) 0
    rcases fold_cn F N (parts f a b) 0 0 0 0 hL h0' with ⟨e, h1, h2⟩ | ⟨v, v', h1, h2, h3⟩
    · exact Or.inl ⟨e, h1, h2⟩
    · refine Or.inr ⟨v, v', h1, h2, ?_⟩
      have := h3.err
      rwa [zero_add, add_zero] at this

/-- C99: over intervals that end at a breakpoint, the computed integral of a piecewise function is close to the integral of the function. -/
theorem pw_integral_close (F : Fmt) {f : PW} (h : f.Ok) (hint : f.Integrable) {G : ℝ → ℝ} (hG : ∀ x, f.evaluate x = .ok (G x)) {a : ℝ} {j N : ℕ}
    (hN : ∀ q ∈ f.fns, pieceDeg q ≤ N) (ha : f.X 0 ≤ a) (hj : j ≤ f.fns.length) (hb : a ≤ f.X j) : ∃ v, pwIntFl F f a (f.X j) = .ok v ∧
      |v - ∫ x in a..f.X j, G x| ≤
        ((1 + F.u) ^ (2 * N + 4 + (parts f a (f.X j)).length) - 1) * ((parts f a (f.X j)).map fun t => pieceMag t.2.1 t.2.2 t.1).sum := by
  have hi := integral_partial h hint hG ha hj hb
  rcases pw_integral_error F f a (f.X j) hN with ⟨e, _, h2⟩ | ⟨v, v', h1, h2, h3⟩
  · rw [hi] at h2
    cases h2
  · rw [hi] at h2
    cases h2
    exact ⟨v, h1, h3⟩

/-! ## Positivity -/

/-- C99, partial: the computed integral of a polynomial is positive where the exact one exceeds the error bound. Missing: all other intervals. -/
theorem poly_integral_pos_partial (F : Fmt) (p : Poly ℝ) (l r : ℝ)
    (h : ((1 + F.u) ^ (2 * p.degree + 4) - 1) * ∑ i ∈ range (p.degree + 1), |p.coeffs.getD i 0| / (i + 1) * (|r| ^ (i + 1) + |l| ^ (i + 1)) <
      ∫ x in l..r, p.eval x) : 0 < pieceIntFl F l r (.poly p) := by
  linarith [(abs_le.mp (poly_integral_error F p l r)).1]

lemma quad_fl (F : Fmt) (a b c x : ℝ) (h : [a, b, c] ≠ []) : polyFl F ⟨[a, b, c], h⟩ x = F.rd (F.rd (F.rd (F.rd (c * x) + b) * x) + a) := rfl

/-- C99, violated: the computed integral of a function that is positive inside the interval is zero, in every binary format with at least four digits. -/
theorem poly_integral_pos_violated (P : ℕ) (hP : 3 ≤ P) : ∃ M : ℝ, (bin P).rd M = M ∧ (bin P).rd (M + 1) = M + 1 ∧
    (∀ x, M < x → 0 < (Poly.ofCoeffs [-M, 1]).eval x) ∧ (∫ x in M..(M + 1), (Poly.ofCoeffs [-M, 1]).eval x) = 1 / 2 ∧
    pieceIntFl (bin P) M (M + 1) (.poly (.ofCoeffs [-M, 1])) = 0 := by
  obtain ⟨h, hh⟩ : ∃ h : ℝ, h = 1 / 2 ^ (P + 1) := ⟨_, rfl⟩
  obtain ⟨M, hM⟩ : ∃ M : ℝ, M = 2 ^ P := ⟨_, rfl⟩
  have h0 : 0 < h := by rw [hh]; positivity
  have hMh : 2 * M * h = 1 := by
    rw [hM, hh, pow_succ]
    field_simp
  have M8 : 8 ≤ M := by
    rw [hM]
    calc (8 : ℝ) = 2 ^ 3 := by norm_num
      _ ≤ 2 ^ P := pow_le_pow_right₀ one_le_two hP
  have zP : (2 : ℝ) ^ (P : ℤ) = M := by rw [hM, zpow_natCast]
  have z1 : ∀ k : ℤ, (2 : ℝ) ^ ((P : ℤ) + k) = M * 2 ^ k := fun k => by rw [zpow_add₀ two_ne_zero, zP]
  have z2 : ∀ k : ℤ, (2 : ℝ) ^ ((P : ℤ) + P + k) = M * M * 2 ^ k := fun k => by rw [zpow_add₀ two_ne_zero, zpow_add₀ two_ne_zero, zP]
  obtain ⟨N, hN⟩ : ∃ N : ℤ, (N : ℝ) = M := ⟨2 ^ P, by rw [hM]; push_cast; rfl⟩
  have rM : (bin P).rd M = M := bin_to hh ((P : ℤ) + 0) N (by rw [z1]; norm_num) (by rw [add_assoc, z1]; norm_num; linarith)
    (by rw [z1, hN]; norm_num; linear_combination (-M) * hMh) (by rw [sub_self, abs_zero]; positivity)
  have rM1 : (bin P).rd (M + 1) = M + 1 := bin_to hh ((P : ℤ) + 0) (N + 1) (by rw [z1]; norm_num) (by rw [add_assoc, z1]; norm_num; linarith)
    (by rw [z1]; push_cast; rw [hN]; norm_num; linear_combination (-(M + 1)) * hMh) (by rw [sub_self, abs_zero]; positivity)
  have half : (bin P).rd (1 / 2) = 1 / 2 := bin_to hh (-1) N (by norm_num) (by norm_num) (by rw [hN]; norm_num; linear_combination (-1 / 2) * hMh)
    (by rw [sub_self, abs_zero]; positivity)
  have rh : (bin P).rd (M / 2) = M / 2 := bin_to hh ((P : ℤ) + (-1)) N (by rw [z1]; norm_num; linarith) (by rw [add_assoc, z1]; norm_num; linarith)
    (by rw [z1, hN]; norm_num; linear_combination (-M / 2) * hMh) (by rw [sub_self, abs_zero]; positivity)
  have rh1 : (bin P).rd ((M + 1) / 2) = (M + 1) / 2 := bin_to hh ((P : ℤ) + (-1)) (N + 1) (by rw [z1]; norm_num; linarith)
    (by rw [add_assoc, z1]; norm_num; linarith) (by rw [z1]; push_cast; rw [hN]; norm_num; linear_combination (-(M + 1) / 2) * hMh)
    (by rw [sub_self, abs_zero]; positivity)
  have rd1 : (bin P).rd ((M - 1) / 2) = (M - 1) / 2 := bin_to hh ((P : ℤ) + (-2)) (2 * (N - 1)) (by rw [z1]; norm_num; linarith)
    (by rw [add_assoc, z1]; norm_num; linarith) (by rw [z1]; push_cast; rw [hN]; norm_num; linear_combination (-(M - 1) / 2) * hMh)
    (by rw [sub_self, abs_zero]; positivity)
  have rs : (bin P).rd (M * M / 2) = M * M / 2 := bin_to hh ((P : ℤ) + P + (-1)) N (by rw [z2]; norm_num; linarith) (by rw [add_assoc, z2]; norm_num; nlinarith)
    (by rw [z2, hN]; norm_num; linear_combination (-M * M / 2) * hMh) (by rw [sub_self, abs_zero]; positivity)
  have rt : (bin P).rd ((M - 1) / 2 * (M + 1)) = M * M / 2 := bin_to hh ((P : ℤ) + P + (-2)) (2 * N) (by rw [z2]; norm_num; nlinarith)
    (by rw [add_assoc, z2]; norm_num; nlinarith) (by rw [z2]; push_cast; rw [hN]; norm_num; linear_combination (-M * M / 2) * hMh)
    (by rw [z2, abs_lt]; constructor <;> norm_num <;> nlinarith)
  have hi : integrateFl (bin P) (.ofCoeffs [-M, 1]) = ⟨[0, -M, 1 / 2], by simp⟩ := by
    have e1 : (bin P).rd (-M / ((0 + 1 : ℕ) : ℝ)) = -M := by rw [zero_add, Nat.cast_one, div_one, (bin P).neg, rM]
    have e2 : (bin P).rd (1 / ((1 + 1 : ℕ) : ℝ)) = 1 / 2 := by
      rw [show ((1 + 1 : ℕ) : ℝ) = 2 by norm_num, half]
    simp only [integrateFl, Poly.ofCoeffs, List.mapIdx_cons, List.mapIdx_nil, e1, e2]
  refine ⟨M, rM, rM1, fun x hx => ?_, ?_, ?_⟩
  · rw [eval_sum]
    simp [Poly.ofCoeffs, Poly.degree, sum_range_succ]
    linarith
  · rw [show (∫ x in M..(M + 1), (Poly.ofCoeffs [-M, 1]).eval x) = _ from (piece_integral (.poly (.ofCoeffs [-M, 1])) M (M + 1)).symm, Piece.integral, eval_sum, eval_sum]
    simp [Poly.integrate, Poly.ofCoeffs, Poly.degree, sum_range_succ]
    ring
  · rw [pieceIntFl, hi, quad_fl, quad_fl]
    have a1 : (1 / 2 : ℝ) * (M + 1) = (M + 1) / 2 := by ring
    have a2 : (1 / 2 : ℝ) * M = M / 2 := by ring
    have a3 : (M + 1) / 2 + -M = -((M - 1) / 2) := by ring
    have a4 : M / 2 + -M = -(M / 2) := by ring
    have a5 : M / 2 * M = M * M / 2 := by ring
    rw [a1, a2, rh1, rh, a3, a4, (bin P).neg, (bin P).neg, rd1, rh, neg_mul, neg_mul, (bin P).neg, (bin P).neg, rt, a5, rs, add_zero, (bin P).neg, rs, sub_self, rd_zero]

/-! ## Examples -/

/-- Double precision: the polynomial `1 + 2 x` on `[0, 3]`. -/
example : |pieceIntFl (bin 52) 0 3 (.poly (.ofCoeffs [1, 2])) - 12| ≤ 1 / 2 ^ 46 ∧ 0 < pieceIntFl (bin 52) 0 3 (.poly (.ofCoeffs [1, 2])) := by
  have hu : (bin 52).u = 1 / 2 ^ 53 := by
    change (2 : ℝ) ^ (-(((52 : ℕ) : ℤ) + 1)) = _
    norm_num
  have h := poly_integral_error (bin 52) (.ofCoeffs [1, 2]) 0 3
  have e : ∫ x in (0 : ℝ)..3, (Poly.ofCoeffs [(1 : ℝ), 2]).eval x = 12 := by
    rw [show (∫ x in (0 : ℝ)..3, (Poly.ofCoeffs [(1 : ℝ), 2]).eval x) = _ from (piece_integral (.poly (.ofCoeffs [1, 2])) 0 3).symm, Piece.integral, eval_sum, eval_sum]
    norm_num [Poly.integrate, Poly.ofCoeffs, Poly.degree, sum_range_succ]
  rw [e, hu] at h
  have h' : |pieceIntFl (bin 52) 0 3 (.poly (.ofCoeffs [1, 2])) - 12| ≤ 1 / 2 ^ 46 := by
    refine h.trans ?_
    norm_num [Poly.ofCoeffs, Poly.degree, sum_range_succ]
  refine ⟨h', ?_⟩
  have := (abs_le.mp h').1
  norm_num at this
  linarith

/-- Double precision: a constant piece on `[0, 1]`. -/
example : ∃ v, pwIntFl (bin 52) ⟨.general, [0, 1], [.const 1]⟩ 0 1 = .ok v := by
  have h : PW.Ok ⟨.general, [0, 1], [.const 1]⟩ := ⟨rfl, by simp, by simp⟩
  have hF : ∀ x, PW.evaluate ⟨.general, [0, 1], [.const 1]⟩ x = .ok (open Classical in if 0 ≤ x ∧ x ≤ 1 then 1 else 0) := by
    intro x
    rw [evaluate_general (by simp) (by simp)]
    simp [npPiecewise, Piece.ev]
  obtain ⟨v, hv, _⟩ := pw_integral_close (bin 52) h (integrable_of_poly (by simp)) hF (a := 0) (j := 1) (N := 0) (by simp [pieceDeg]) le_rfl (by simp) (by simp [PW.X])
  exact ⟨v, by simpa [PW.X] using hv⟩

end LinPDE.Rounding.PwFl
