import Verif.Piecewise.Props
import Verif.Rounding.PiecewiseModel
import Verif.Rounding.Close
import Verif.Rounding.Wendland

/-!
# C97: linear interpolation in floating point
-/

namespace LinPDE.Rounding.PwFl
open LinPDE.Piecewise
open LinPDE.Polys (Poly)

variable {F : Fmt} {xs ys : List ℝ}

/-- The value computed by one piece. -/
noncomputable def lineFl (F : Fmt) (l r yl yr x : ℝ) : ℝ :=
  F.rd (F.rd (F.rd (F.rd (yr - yl) / F.rd (r - l)) * x) + F.rd (yl - F.rd (F.rd (F.rd (yr - yl) / F.rd (r - l)) * l)))

lemma poly_line (F : Fmt) (l r yl yr x : ℝ) : polyFl F (.ofCoeffs (coeffsFl F l r yl yr)) x = lineFl F l r yl yr x := by
  have e : ∀ o s : ℝ, polyFl F ⟨[o] ++ [s], by simp⟩ x = hornerFl F (fun i => ([o] : List ℝ).getD i 0) x 1 s := by
    intro o s
    rw [show (1 : ℕ) = ([o] : List ℝ).length from rfl, ← hornerFl_fold]
    simp [polyFl, Poly.eval]
  exact e _ _

lemma line_error (hu : F.u ≤ 1 / 2) (l r yl yr x : ℝ) :
    |lineFl F l r yl yr x - (yl + (yr - yl) / (r - l) * (x - l))| ≤
      ((1 + F.u) ^ 7 - 1) * (|yl| + |(yr - yl) / (r - l)| * (|l| + |x|)) := by
  set s := (yr - yl) / (r - l) with hs
  have n1 : F.Near 1 (F.rd (yr - yl)) (yr - yl) := rd_fac F _
  have n2 : F.Near 1 (F.rd (r - l)) (r - l) := rd_fac F _
  have n3 : F.Near 4 (F.rd (F.rd (yr - yl) / F.rd (r - l))) s := (n1.div hu n2).rd
  have n4 : F.Cn 5 (F.rd (F.rd (F.rd (yr - yl) / F.rd (r - l)) * l)) (s * l) |s * l| := ((n3.mul (near_refl F 0 l)).rd).cn
  have n5 : F.Cn 5 (F.rd (F.rd (F.rd (yr - yl) / F.rd (r - l)) * x)) (s * x) |s * x| := ((n3.mul (near_refl F 0 x)).rd).cn
  have n6 : F.Cn 6 (F.rd (yl - F.rd (F.rd (F.rd (yr - yl) / F.rd (r - l)) * l))) (yl - s * l) (|yl| + |s * l|) := ((cn_refl F 5 yl).sub n4).rd
  have n7 : F.Cn 7 (lineFl F l r yl yr x) (s * x + (yl - s * l)) (|s * x| + (|yl| + |s * l|)) := (n5.add n6).rd
  have e := n7.err
  rw [abs_mul, abs_mul] at e
  rw [show yl + s * (x - l) = s * x + (yl - s * l) by ring]
  refine e.trans (le_of_eq ?_)
  ring

lemma fl_spec (F : Fmt) (hlen : ys.length = xs.length) (h2 : 2 ≤ xs.length) (hs : xs.Pairwise (· < ·)) :
    ∃ f, fromPointsFl F xs ys = .ok f ∧ f.kind = .linear ∧ f.xs = xs ∧ PW.Ok ⟨f.kind, f.xs, f.fns.map (pieceFl F)⟩ ∧
      ∀ i (hi : i < (f.fns.map (pieceFl F)).length) (x : ℝ), (f.fns.map (pieceFl F))[i].ev x =
        lineFl F (xs.getD i 0) (xs.getD (i + 1) 0) (ys.getD i 0) (ys.getD (i + 1) 0) x := by
  have hl : (((xs.zip xs.tail).zip (ys.zip ys.tail)).map fun t => (Piece.poly (.ofCoeffs (coeffsFl F t.1.1 t.1.2 t.2.1 t.2.2)) : Piece)).length + 1 = xs.length := by
    simp; omega
  refine ⟨⟨.linear, xs, ((xs.zip xs.tail).zip (ys.zip ys.tail)).map fun t => (Piece.poly (.ofCoeffs (coeffsFl F t.1.1 t.1.2 t.2.1 t.2.2)))⟩,
    ?_, rfl, rfl, ⟨?_, ?_, hs⟩, ?_⟩
  · unfold fromPointsFl mkPW
    rw [if_neg (not_not.mpr hl)]
  · simpa using hl
  · simp; omega
  · intro i hi x
    have hi' : i + 1 < xs.length := by
      simp at hi
      omega
    simp only [List.getElem_map, List.getElem_zip, List.getElem_tail, pieceFl, Piece.ev, poly_line]
    simp only [List.getD_eq_getElem?_getD, hi', show i < xs.length by omega, show i < ys.length by omega,
      show i + 1 < ys.length by omega, List.getElem?_eq_getElem, Option.getD_some]

/-- The point `x` belongs to the cell `i` of the grid: closed for the first cell, left-open for the others. -/
def Cell (xs : List ℝ) (i : ℕ) (x : ℝ) : Prop := i + 1 < xs.length ∧ (if i = 0 then xs.getD 0 0 ≤ x else xs.getD i 0 < x) ∧ x ≤ xs.getD (i + 1) 0

lemma fl_value (F : Fmt) (hlen : ys.length = xs.length) (h2 : 2 ≤ xs.length) (hs : xs.Pairwise (· < ·)) {f : PW} (h : fromPointsFl F xs ys = .ok f) {i : ℕ} {x : ℝ}
    (hx : Cell xs i x) : evaluateFl F f x = .ok (lineFl F (xs.getD i 0) (xs.getD (i + 1) 0) (ys.getD i 0) (ys.getD (i + 1) 0) x) := by
  obtain ⟨g, hg, hk, hxs, ok, hev⟩ := fl_spec F hlen h2 hs
  obtain rfl : f = g := Except.ok.inj (h.symm.trans hg)
  have hl := ok.len
  dsimp only at hl
  rw [hxs] at hl
  have hi : i < (f.fns.map (pieceFl F)).length := by have := hx.1; omega
  rw [evaluateFl, piecewise_eval (by rw [hk]; simp) ok hi, hev i hi x]
  obtain ⟨_, h3, h4⟩ := hx
  refine ⟨?_, ?_⟩
  · simpa only [PW.X, hxs] using h3
  · simpa only [PW.X, hxs] using h4

/-- C97: the constructor raises for the same arguments as with exact arithmetic, and outside the grid the computed function is exactly zero. -/
theorem interp_raises (F : Fmt) (xs ys : List ℝ) : ((∃ e, fromPointsFl F xs ys = .error e) ↔ ∃ e, fromPoints xs ys = .error e) ∧
    (ys.length = xs.length → 2 ≤ xs.length → xs.Pairwise (· < ·) → ∀ f, fromPointsFl F xs ys = .ok f → ∀ x,
      x < xs.getD 0 0 ∨ xs.getD (xs.length - 1) 0 < x → evaluateFl F f x = .ok 0) := by
  constructor
  · unfold fromPointsFl fromPoints mkPW
    simp only [List.length_map]
    split_ifs <;> simp
  · intro hlen h2 hs f hf x hx
    obtain ⟨g, hg, hk, hxs, ok, _⟩ := fl_spec F hlen h2 hs
    obtain rfl : f = g := Except.ok.inj (hf.symm.trans hg)
    have hl := ok.len
    dsimp only at hl
    rw [hxs] at hl
    refine piecewise_eval_outside ok ?_
    simp only [PW.X, hxs]
    rwa [show (f.fns.map (pieceFl F)).length = xs.length - 1 by omega]

/-- C97: the error of the computed interpolant at every point of the grid's range. The pieces are computed as offset at zero plus slope times argument, so that the bound
grows with the distance of the cell from zero. -/
theorem interp_error (hu : F.u ≤ 1 / 2) (hlen : ys.length = xs.length) (h2 : 2 ≤ xs.length) (hs : xs.Pairwise (· < ·)) :
    ∃ f ff, fromPoints xs ys = .ok f ∧ fromPointsFl F xs ys = .ok ff ∧ ∀ i x, Cell xs i x → ∃ v w, f.evaluate x = .ok v ∧ evaluateFl F ff x = .ok w ∧
      |w - v| ≤ ((1 + F.u) ^ 7 - 1) *
        (|ys.getD i 0| + |(ys.getD (i + 1) 0 - ys.getD i 0) / (xs.getD (i + 1) 0 - xs.getD i 0)| * (|xs.getD i 0| + |x|)) := by
  obtain ⟨f, hf, hv⟩ := fromPoints_affine hlen h2 hs
  obtain ⟨g, hg, _⟩ := fl_spec F hlen h2 hs
  refine ⟨f, g, hf, hg, fun i x hx => ⟨_, _, hv i hx.1 x ?_ hx.2.2, fl_value F hlen h2 hs hg hx, line_error hu _ _ _ _ _⟩⟩
  obtain ⟨_, h3, _⟩ := hx
  split_ifs at h3 with h0
  · rwa [h0]
  · exact h3.le

/-- C97: the computed interpolant at the points themselves. (That it takes the given values exactly is false: `interp_nodes_violated`.) -/
theorem interp_nodes_partial (hu : F.u ≤ 1 / 2) (hlen : ys.length = xs.length) (h2 : 2 ≤ xs.length) (hs : xs.Pairwise (· < ·)) {f : PW}
    (hf : fromPointsFl F xs ys = .ok f) {i : ℕ} (hi : i + 1 < xs.length) : ∃ w, evaluateFl F f (xs.getD (i + 1) 0) = .ok w ∧
      |w - ys.getD (i + 1) 0| ≤ ((1 + F.u) ^ 7 - 1) *
        (|ys.getD i 0| + |(ys.getD (i + 1) 0 - ys.getD i 0) / (xs.getD (i + 1) 0 - xs.getD i 0)| * (|xs.getD i 0| + |xs.getD (i + 1) 0|)) := by
  have hlt := getD_lt hs (Nat.lt_succ_self i) hi
  have hc : Cell xs i (xs.getD (i + 1) 0) := by
    refine ⟨hi, ?_, le_rfl⟩
    split_ifs with h0
    · rw [h0] at hlt ⊢
      exact hlt.le
    · exact hlt
  refine ⟨_, fl_value F hlen h2 hs hf hc, ?_⟩
  have := line_error hu (xs.getD i 0) (xs.getD (i + 1) 0) (ys.getD i 0) (ys.getD (i + 1) 0) (xs.getD (i + 1) 0)
  rwa [div_mul_cancel₀ _ (sub_ne_zero.mpr hlt.ne'), add_sub_cancel] at this

/-- C97: cells with equal values at both ends are exact, and so is the value at the first point if that is zero. -/
theorem interp_exact (hlen : ys.length = xs.length) (h2 : 2 ≤ xs.length) (hs : xs.Pairwise (· < ·)) (hy : ∀ y ∈ ys, F.rd y = y) {f : PW}
    (hf : fromPointsFl F xs ys = .ok f) :
    (∀ i x, Cell xs i x → ys.getD i 0 = ys.getD (i + 1) 0 → evaluateFl F f x = .ok (ys.getD i 0)) ∧
      (xs.getD 0 0 = 0 → evaluateFl F f 0 = .ok (ys.getD 0 0)) := by
  have hr : ∀ i < xs.length, F.rd (ys.getD i 0) = ys.getD i 0 := by
    intro i hi
    apply hy
    rw [List.getD_eq_getElem?_getD, List.getElem?_eq_getElem (by omega), Option.getD_some]
    exact List.getElem_mem _
  constructor
  · intro i x hx he
    rw [fl_value F hlen h2 hs hf hx, ← he]
    have := hx.1
    rw [lineFl, sub_self, rd_zero, zero_div, rd_zero, zero_mul, zero_mul, rd_zero, sub_zero, zero_add, hr i (by omega), hr i (by omega)]
  · intro h0
    have h1 := getD_lt hs zero_lt_one (by omega : 1 < xs.length)
    rw [h0] at h1
    rw [fl_value F hlen h2 hs hf ⟨by omega, by rw [if_pos rfl, h0], h1.le⟩, h0]
    rw [lineFl, mul_zero, rd_zero, sub_zero, zero_add, hr 0 (by omega), hr 0 (by omega)]

/-- C97: piecewise constant functions are computed without error. -/
theorem constant_exact {f : PW} (hf : mkConstant xs ys = .ok f) (x : ℝ) : evaluateFl F f x = f.evaluate x := by
  unfold mkConstant mkPW at hf
  split_ifs at hf
  obtain rfl := Except.ok.inj hf
  rw [evaluateFl, List.map_map]
  rfl

/-- C97 (violation): in every binary format with at least three digits there are two points with floating-point coordinates and values such that the computed interpolant is zero at
the first one, where the value is one. -/
theorem interp_nodes_violated (p : ℕ) (hp : 3 ≤ p) : ∃ (xs ys : List ℝ) (f ff : PW), xs.Pairwise (· < ·) ∧ (∀ x ∈ xs ++ ys, (bin p).rd x = x) ∧
    fromPoints xs ys = .ok f ∧ fromPointsFl (bin p) xs ys = .ok ff ∧ f.evaluate (xs.getD 0 0) = .ok 1 ∧ evaluateFl (bin p) ff (xs.getD 0 0) = .ok 0 := by
  obtain ⟨h, hh⟩ : ∃ h : ℝ, h = 1 / 2 ^ (p + 1) := ⟨_, rfl⟩
  obtain ⟨a, ha⟩ : ∃ a : ℝ, a = 2 ^ p := ⟨_, rfl⟩
  have a8 : 8 ≤ a := by
    rw [ha]
    calc (8 : ℝ) = 2 ^ 3 := by norm_num
      _ ≤ 2 ^ p := pow_le_pow_right₀ one_le_two hp
  have h0 : 0 < h := by rw [hh]; positivity
  have hah : a * (2 * h) = 1 := by
    rw [ha, hh, pow_succ]
    field_simp
  have z1 : (2 : ℝ) ^ (p : ℤ) = a := by rw [zpow_natCast, ha]
  have z2 : (2 : ℝ) ^ (2 * (p : ℤ)) = a ^ 2 := by rw [mul_comm, zpow_mul, z1]; rfl
  have z3 : (2 : ℝ) ^ (2 * (p : ℤ) - 1) = a ^ 2 / 2 := by rw [zpow_sub₀ two_ne_zero, z2, zpow_one]
  have z1' : (2 : ℝ) ^ ((p : ℤ) + 1) = 2 * a := by rw [zpow_add₀ two_ne_zero, z1]; ring
  have z2' : (2 : ℝ) ^ (2 * (p : ℤ) + 1) = 2 * a ^ 2 := by rw [zpow_add₀ two_ne_zero, z2]; ring
  have ra : (bin p).rd a = a :=
    bin_to hh p (2 ^ p) (by rw [z1]) (by rw [z1']; linarith) (by rw [z1, hah]; push_cast; rw [ha, mul_one]) (by rw [sub_self, abs_zero]; positivity)
  have ra1 : (bin p).rd (a + 1) = a + 1 :=
    bin_to hh p (2 ^ p + 1) (by rw [z1]; linarith) (by rw [z1']; linarith) (by rw [z1, hah]; push_cast; rw [ha, mul_one])
      (by rw [sub_self, abs_zero]; positivity)
  have e2 : a ^ 2 * (2 * h) = a := by rw [sq, mul_assoc, hah, mul_one]
  have rl : (bin p).rd (a ^ 2) = a ^ 2 :=
    bin_to hh (2 * p) (2 ^ p) (by rw [z2]) (by rw [z2']; nlinarith) (by rw [z2, e2]; push_cast; rw [ha, sq]) (by rw [sub_self, abs_zero]; positivity)
  have rr : (bin p).rd (a ^ 2 + a) = a ^ 2 + a :=
    bin_to hh (2 * p) (2 ^ p + 1) (by rw [z2]; linarith) (by rw [z2']; nlinarith) (by rw [z2, e2]; push_cast; rw [ha]; ring)
      (by rw [sub_self, abs_zero]; positivity)
  have ro : (bin p).rd (1 - a ^ 2) = -a ^ 2 := by
    rw [show 1 - a ^ 2 = -(a ^ 2 - 1) by ring, (bin p).neg]
    congr 1
    refine bin_to hh (2 * p - 1) (2 * 2 ^ p) (by rw [z3]; nlinarith) (by rw [sub_add_cancel, z2]; linarith) ?_ ?_
    · rw [z3, show a ^ 2 / 2 * (2 * h) = a / 2 by rw [div_mul_eq_mul_div, e2]]
      push_cast
      rw [← ha]
      ring
    · rw [z3, show a ^ 2 - 1 - a ^ 2 = -1 by ring, abs_neg, abs_one]
      nlinarith
  have hs : ([a ^ 2, a ^ 2 + a] : List ℝ).Pairwise (· < ·) := by
    simp only [List.pairwise_cons, List.mem_cons, List.not_mem_nil, or_false, forall_eq]
    exact ⟨by linarith, by simp, List.Pairwise.nil⟩
  obtain ⟨f, hf, hv⟩ := fromPoints_interpolates (xs := [a ^ 2, a ^ 2 + a]) (ys := [1, a + 1]) rfl le_rfl hs
  obtain ⟨g, hg, _⟩ := fl_spec (bin p) (xs := [a ^ 2, a ^ 2 + a]) (ys := [1, a + 1]) rfl le_rfl hs
  refine ⟨_, _, f, g, hs, ?_, hf, hg, hv 0 (by simp), ?_⟩
  · intro x hx
    simp only [List.cons_append, List.nil_append, List.mem_cons, List.not_mem_nil, or_false] at hx
    rcases hx with rfl | rfl | rfl | rfl
    · exact rl
    · exact rr
    · exact (bin p).one
    · exact ra1
  · have hc : Cell [a ^ 2, a ^ 2 + a] 0 (a ^ 2) := ⟨by simp, by simp, by simp; linarith⟩
    have := fl_value (bin p) (xs := [a ^ 2, a ^ 2 + a]) (ys := [1, a + 1]) rfl le_rfl hs hg hc
    simp only [List.getD_cons_zero, List.getD_cons_succ, zero_add] at this ⊢
    rw [this, lineFl, show a + 1 - 1 = a by ring, show a ^ 2 + a - a ^ 2 = a by ring, ra, div_self (by linarith), (bin p).one, one_mul, rl, ro, add_neg_cancel, rd_zero]

/-! ## Double precision -/

lemma exPoints : ([0, 1, 3] : List ℝ).Pairwise (· < ·) := by
  simp only [List.pairwise_cons, List.mem_cons, List.not_mem_nil, or_false, forall_eq_or_imp, forall_eq]
  norm_num

/-- Three points: the value at `2` is computed up to `2 ^ (-47)`. -/
example : ∃ f ff v w, fromPoints [0, 1, 3] [1, 2, 0] = .ok f ∧ fromPointsFl (bin 52) [0, 1, 3] [1, 2, 0] = .ok ff ∧ f.evaluate 2 = .ok v ∧
    evaluateFl (bin 52) ff 2 = .ok w ∧ |w - v| ≤ 1 / 2 ^ 47 := by
  have hu : (bin 52).u = 1 / 2 ^ 53 := by
    change (2 : ℝ) ^ (-(52 + 1 : ℤ)) = _
    norm_num
  obtain ⟨f, ff, h1, h2, h3⟩ := interp_error (F := bin 52) (xs := [0, 1, 3]) (ys := [1, 2, 0]) (by rw [hu]; norm_num) rfl (by simp) exPoints
  obtain ⟨v, w, h4, h5, h6⟩ := h3 1 2 ⟨by simp, by simp, by simp; norm_num⟩
  refine ⟨f, ff, v, w, h1, h2, h4, h5, h6.trans ?_⟩
  rw [hu]
  simp
  norm_num

/-- A constant cell and a first point at zero. -/
example : ∃ ff, fromPointsFl (bin 52) [0, 1, 3] [1, 1, 0] = .ok ff ∧ evaluateFl (bin 52) ff (1 / 3) = .ok 1 ∧ evaluateFl (bin 52) ff 0 = .ok 1 ∧
    evaluateFl (bin 52) ff 4 = .ok 0 := by
  obtain ⟨ff, h, _⟩ := fl_spec (bin 52) (xs := [0, 1, 3]) (ys := [1, 1, 0]) rfl (by simp) exPoints
  have hy : ∀ y ∈ ([1, 1, 0] : List ℝ), (bin 52).rd y = y := by
    simp [(bin 52).one, rd_zero]
  have he := interp_exact (xs := [0, 1, 3]) (ys := [1, 1, 0]) rfl (by simp) exPoints hy h
  exact ⟨ff, h, he.1 0 (1 / 3) ⟨by simp, by simp, by simp; norm_num⟩ rfl, he.2 rfl,
    (interp_raises (bin 52) [0, 1, 3] [1, 1, 0]).2 rfl (by simp) exPoints ff h 4 (.inr (by simp; norm_num))⟩

/-- In double precision. -/
example : ∃ (xs ys : List ℝ) (ff : PW), fromPointsFl (bin 52) xs ys = .ok ff ∧ evaluateFl (bin 52) ff (xs.getD 0 0) = .ok 0 := by
  obtain ⟨xs, ys, _, ff, _, _, _, h, _, h'⟩ := interp_nodes_violated 52 (by omega)
  exact ⟨xs, ys, ff, h, h'⟩

end LinPDE.Rounding.PwFl
