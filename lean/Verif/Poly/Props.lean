import Verif.Poly.Lemmas
import Mathlib.Analysis.Calculus.Deriv.Polynomial

/-! # Properties C16–C19: polynomial arithmetic, calculus, division, evaluation -/

namespace LinPDE.Polys
open Polynomial

variable {K : Type}

/-! ## C19 evaluation -/

/-- C19: the Horner loop evaluates `∑ cᵢ xⁱ`. -/
theorem eval_eq_sum [CommSemiring K] (p : Poly K) (x : K) :
    p.eval x = ∑ i ∈ Finset.range p.coeffs.length, p.coeffs.getD i 0 * x ^ i := by
  have h : p.eval x = p.toPoly.eval x := by
    unfold Poly.eval
    rw [foldl_horner, List.dropLast_append_getLast, toPoly_eq]
  rw [h, Poly.toPoly, eval_finsetSum]
  simp

theorem eval_eq_toPoly_eval [CommSemiring K] (p : Poly K) (x : K) :
    p.eval x = p.toPoly.eval x := by
  unfold Poly.eval
  rw [foldl_horner, List.dropLast_append_getLast, toPoly_eq]

example : (Poly.ofCoeffs [1, 2, 3] : Poly ℚ).eval 2 = 17 := by decide +kernel

/-! ## C16 ring operations -/

theorem toPoly_add [Semiring K] (p q : Poly K) : (p.add q).toPoly = p.toPoly + q.toPoly := by
  ext n
  rw [Poly.add, coeff_ofCoeffs, zipLongest_getD _ (by simp), coeff_add, coeff_toPoly, coeff_toPoly]

theorem toPoly_sub [Ring K] (p q : Poly K) : (p.sub q).toPoly = p.toPoly - q.toPoly := by
  ext n
  rw [Poly.sub, coeff_ofCoeffs, zipLongest_getD _ (by simp), coeff_sub, coeff_toPoly, coeff_toPoly]

theorem toPoly_neg [Ring K] (p : Poly K) : p.neg.toPoly = -p.toPoly := by
  ext n
  rw [Poly.neg, coeff_ofCoeffs, getD_map0 _ _ (by simp), coeff_neg, coeff_toPoly]

theorem toPoly_smul [Semiring K] (a : K) (p : Poly K) : (p.smul a).toPoly = C a * p.toPoly := by
  ext n
  rw [Poly.smul, coeff_ofCoeffs, getD_map0 _ _ (by simp), coeff_C_mul, coeff_toPoly]

theorem toPoly_addConst [Semiring K] (p : Poly K) (v : K) :
    (p.addConst v).toPoly = p.toPoly + C v := by
  obtain ⟨cs, hcs⟩ := p
  cases cs with
  | nil => exact absurd rfl hcs
  | cons c cs =>
    rw [Poly.addConst, toPoly_ofCoeffs, toPoly_eq]
    simp only [List.head_cons, List.tail_cons, listPoly_cons, C_add]
    abel

theorem toPoly_mulMonomial [Semiring K] (p : Poly K) (n : ℕ) :
    (p.mulMonomial n).toPoly = p.toPoly * X ^ n := by
  rw [Poly.mulMonomial, toPoly_ofCoeffs, toPoly_eq]
  induction n with
  | zero => simp
  | succ n ih =>
    rw [List.replicate_succ, List.cons_append, listPoly_cons, ih, pow_succ, mul_assoc]
    simp

theorem toPoly_mul [Semiring K] (p q : Poly K) : (p.mul q).toPoly = p.toPoly * q.toPoly := by
  ext n
  rw [Poly.mul, coeff_ofCoeffs]
  by_cases hn : n < p.degree + q.degree + 1
  · rw [List.getD_eq_getElem?_getD]
    simp only [List.getElem?_map, List.getElem?_range hn, Option.map_some, Option.getD_some, mulRange]
    rw [coeff_mul, Finset.Nat.sum_antidiagonal_eq_sum_range_succ_mk]
    simp only [coeff_toPoly]
    have hsum : ∀ (a m : ℕ) (f : ℕ → K), ((List.range' a m).map f).sum = ∑ i ∈ Finset.Ico a (a + m), f i := by
      intro a m f
      induction m generalizing a with
      | zero => simp
      | succ m ih =>
        rw [List.range'_succ, List.map_cons, List.sum_cons, ih,
          Finset.sum_eq_sum_Ico_succ_bot (by omega : a < a + (m + 1))]
        congr 3; omega
    rw [hsum]
    apply Finset.sum_subset_zero_on_sdiff
    · intro i hi
      simp only [Finset.mem_Ico, Finset.mem_range] at *
      omega
    · intro i hi
      simp only [Finset.mem_sdiff, Finset.mem_Ico, Finset.mem_range, not_and, not_lt] at hi
      by_cases h1 : i ≤ p.degree
      · have : q.coeffs.length ≤ n - i := by rw [length_eq]; omega
        simp [List.getD_eq_getElem?_getD, this]
      · have : p.coeffs.length ≤ i := by rw [length_eq]; omega
        simp [List.getD_eq_getElem?_getD, this]
    · intro i _; rfl
  · have : (p.toPoly * q.toPoly).coeff n = 0 := by
      apply coeff_eq_zero_of_natDegree_lt
      have := natDegree_toPoly_le p
      have := natDegree_toPoly_le q
      have := natDegree_mul_le (p := p.toPoly) (q := q.toPoly)
      omega
    rw [this]
    have hl : p.degree + q.degree + 1 ≤ n := by omega
    have hr : (List.range (p.degree + q.degree + 1))[n]? = none := by
      rw [List.getElem?_eq_none_iff, List.length_range]; exact hl
    rw [List.getD_eq_getElem?_getD, List.getElem?_map, hr]
    rfl

/-- C16, pointwise form: the values computed by the code after each arithmetic operation are the
sum, difference, negative, multiple and product of the values computed before it. -/
theorem eval_arith [CommRing K] (p q : Poly K) (a x : K) (n : ℕ) :
    (p.add q).eval x = p.eval x + q.eval x ∧
    (p.sub q).eval x = p.eval x - q.eval x ∧
    p.neg.eval x = - p.eval x ∧
    (p.smul a).eval x = a * p.eval x ∧
    (p.addConst a).eval x = p.eval x + a ∧
    (p.mul q).eval x = p.eval x * q.eval x ∧
    (p.mulMonomial n).eval x = p.eval x * x ^ n := by
  simp only [eval_eq_toPoly_eval, toPoly_add, toPoly_sub, toPoly_neg, toPoly_smul, toPoly_addConst,
    toPoly_mul, toPoly_mulMonomial]
  simp

example : ((Poly.ofCoeffs [1, 2] : Poly ℚ).mul (.ofCoeffs [3, 0, 1])).coeffs = [3, 6, 1, 2] := by
  decide +kernel

/-- C16: the product reads only existing coefficients, and none by a negative index. -/
theorem mul_in_range [Semiring K] (p q : Poly K) {k i : ℕ} (hi : i ∈ mulRange p q k) :
    i ≤ k ∧ i < p.coeffs.length ∧ k - i < q.coeffs.length := by
  simp only [mulRange, List.mem_range'_1, length_eq] at *
  omega

/-- The second coefficient of a product of linear polynomials reads one pair. -/
example : mulRange (⟨[1, 2], by simp⟩ : Poly ℚ) ⟨[3, 4], by simp⟩ 2 = [1] := rfl

/-- The stored degree of a product, sum and difference: what the code's `degree` reports. -/
theorem degree_mul [Semiring K] (p q : Poly K) : (p.mul q).degree = p.degree + q.degree := by
  rw [Poly.mul, Poly.degree, coeffs_ofCoeffs_of_ne]
  · simp
  · intro h; simpa using congrArg List.length h

/-- C16: constructing a monomial succeeds exactly for nonnegative degrees. -/
theorem mkMonomial_ok_iff (d : ℤ) (n : ℕ) : mkMonomial d = .ok n ↔ d = (n : ℤ) := by
  unfold mkMonomial
  split
  · simp; omega
  · simp; omega

theorem mkMonomial_error_iff (d : ℤ) (e : Err) : mkMonomial d = .error e ↔ d < 0 ∧ e = .valueError := by
  unfold mkMonomial
  split <;> simp_all [eq_comm]

/-! ## C17 calculus -/

theorem toPoly_differentiate [Semiring K] (p : Poly K) :
    p.differentiate.toPoly = derivative p.toPoly := by
  ext n
  rw [Poly.differentiate, coeff_ofCoeffs, getD_mapIdx _ _ (by simp), coeff_derivative, coeff_toPoly]
  simp [List.getD_eq_getElem?_getD]

theorem toPoly_integrate [Field K] [CharZero K] (p : Poly K) :
    derivative p.integrate.toPoly = p.toPoly ∧ p.integrate.toPoly.eval 0 = 0 := by
  constructor
  · ext n
    rw [coeff_derivative, Poly.integrate, coeff_ofCoeffs, coeff_toPoly, List.getD_cons_succ,
      getD_mapIdx _ _ (by simp)]
    have : ((n : K) + 1) ≠ 0 := by exact_mod_cast Nat.succ_ne_zero n
    push_cast
    field_simp
  · rw [← coeff_zero_eq_eval_zero, Poly.integrate, coeff_ofCoeffs]
    simp

/-- C17: `differentiate` is the pointwise derivative of the function the code evaluates. -/
theorem hasDerivAt_eval (p : Poly ℝ) (x : ℝ) : HasDerivAt p.eval (p.differentiate.eval x) x := by
  have h : p.eval = fun x => p.toPoly.eval x := by funext x; exact eval_eq_toPoly_eval p x
  rw [h, eval_eq_toPoly_eval, toPoly_differentiate]
  exact p.toPoly.hasDerivAt x

/-- C17: `integrate` is an antiderivative of the function the code evaluates, vanishing at `0`. -/
theorem hasDerivAt_integrate (p : Poly ℝ) (x : ℝ) :
    HasDerivAt p.integrate.eval (p.eval x) x ∧ p.integrate.eval 0 = 0 := by
  constructor
  · have h := hasDerivAt_eval p.integrate x
    rwa [eval_eq_toPoly_eval, toPoly_differentiate, (toPoly_integrate p).1, ← eval_eq_toPoly_eval] at h
  · rw [eval_eq_toPoly_eval]; exact (toPoly_integrate p).2

/-- C17: differentiating after integrating returns the same coefficient tuple. -/
theorem differentiate_integrate [Field K] [CharZero K] (p : Poly K) :
    p.integrate.differentiate.coeffs = p.coeffs := by
  have hl : (p.integrate.differentiate).coeffs =
      (p.coeffs.mapIdx fun i c => c / ((i + 1 : ℕ) : K)).mapIdx fun k c => c * ((k + 1 : ℕ) : K) := by
    unfold Poly.differentiate Poly.integrate
    rw [coeffs_ofCoeffs_of_ne, coeffs_ofCoeffs_of_ne]
    · simp
    · simp
    · rw [coeffs_ofCoeffs_of_ne _ (by simp)]; simp [p.ne]
  rw [hl]
  apply List.ext_getElem
  · simp
  · intro i h1 h2
    have : ((i : K) + 1) ≠ 0 := by exact_mod_cast Nat.succ_ne_zero i
    simp
    field_simp

example : (Poly.ofCoeffs [1, 2, 3] : Poly ℚ).differentiate.coeffs = [2, 6] ∧
    (Poly.ofCoeffs [1, 2, 3] : Poly ℚ).integrate.coeffs = [0, 1, 1, 1] ∧
    (Poly.ofCoeffs [5] : Poly ℚ).differentiate.coeffs = [0] := by decide +kernel

/-! ## C18 division -/

theorem floordivMonomial_ok_iff [Semiring K] [DecidableEq K] (p q : Poly K) (n : ℕ) :
    p.floordivMonomial n = .ok q ↔
      n ≤ p.degree ∧ q.coeffs = p.coeffs.drop n ∧ (∀ i < n, p.toPoly.coeff i = 0) := by
  unfold Poly.floordivMonomial
  have hne : n ≤ p.degree → p.coeffs.drop n ≠ [] := by
    intro h h'
    have := congrArg List.length h'
    rw [List.length_drop, length_eq] at this
    simp at this; omega
  split
  · rename_i h; simp at h; constructor
    · intro h'; cases h'
    · intro h'; omega
  · rename_i h
    simp only [Nat.zero_le, true_and, not_not] at h
    have hz : ((p.coeffs.take n).any (fun c => c ≠ 0) = true) ↔ ¬ ∀ i < n, p.toPoly.coeff i = 0 := by
      simp only [List.any_eq_true, decide_eq_true_eq, not_forall, coeff_toPoly]
      constructor
      · rintro ⟨x, hx, hx0⟩
        obtain ⟨i, hi, rfl⟩ := List.mem_iff_getElem.mp hx
        simp at hi
        refine ⟨i, hi.1, ?_⟩
        simpa [List.getD_eq_getElem?_getD, hi.2] using hx0
      · rintro ⟨i, hi, hx⟩
        have hl : i < p.coeffs.length := by rw [length_eq]; omega
        refine ⟨p.coeffs[i], ?_, ?_⟩
        · rw [List.mem_take_iff_getElem]
          exact ⟨i, by omega, rfl⟩
        · simpa [List.getD_eq_getElem?_getD, hl] using hx
    split
    · rename_i h2
      rw [hz] at h2
      constructor
      · intro h'; cases h'
      · intro h'; exact absurd h'.2.2 h2
    · rename_i h2
      rw [hz, not_not] at h2
      constructor
      · intro h'
        injection h' with h'
        refine ⟨h, ?_, h2⟩
        rw [← h', coeffs_ofCoeffs_of_ne _ (hne h)]
      · rintro ⟨_, h', _⟩
        congr 1
        obtain ⟨qc, hq⟩ := q
        have := coeffs_ofCoeffs_of_ne _ (hne h)
        simp only at h'
        cases hh : Poly.ofCoeffs (p.coeffs.drop n) with
        | mk c hc => rw [hh] at this; simp only at this; subst this; subst h'; rfl

/-- C18: floor division by `Xⁿ` succeeds exactly if `Xⁿ` divides the polynomial and `n` does not
exceed the stored degree, it then returns the exact quotient, and otherwise raises `ValueError`. -/
theorem floordivMonomial_spec [CommRing K] [DecidableEq K] (p : Poly K) (n : ℕ) :
    (∀ q, p.floordivMonomial n = .ok q → q.toPoly * X ^ n = p.toPoly) ∧
    ((∃ q, p.floordivMonomial n = .ok q) ↔ (X ^ n ∣ p.toPoly ∧ n ≤ p.degree)) ∧
    (∀ e, p.floordivMonomial n = .error e → e = .valueError) := by
  refine ⟨?_, ?_, ?_⟩
  · intro q hq
    rw [floordivMonomial_ok_iff] at hq
    obtain ⟨h1, h2, h3⟩ := hq
    ext i
    rw [coeff_mul_X_pow']
    split
    · rw [coeff_toPoly, h2, coeff_toPoly]
      simp only [List.getD_eq_getElem?_getD, List.getElem?_drop]
      congr 3
      omega
    · rw [h3 i (by omega)]
  · constructor
    · rintro ⟨q, hq⟩
      rw [floordivMonomial_ok_iff] at hq
      exact ⟨X_pow_dvd_iff.mpr hq.2.2, hq.1⟩
    · rintro ⟨h1, h2⟩
      have hne : p.coeffs.drop n ≠ [] := by
        intro h'
        have := congrArg List.length h'
        rw [List.length_drop, length_eq] at this
        simp at this; omega
      exact ⟨⟨p.coeffs.drop n, hne⟩, (floordivMonomial_ok_iff _ _ _).mpr ⟨h2, rfl, X_pow_dvd_iff.mp h1⟩⟩
  · intro e h
    unfold Poly.floordivMonomial at h
    split at h
    · injection h with h; exact h.symm
    · split at h
      · injection h with h; exact h.symm
      · cases h

/-- The leading coefficient stored in the tuple is the coefficient at the stored degree. -/
lemma getLast_eq_coeff [Semiring K] (d : Poly K) : d.coeffs.getLast d.ne = d.toPoly.coeff d.degree := by
  rw [coeff_toPoly, List.getLast_eq_getElem, List.getD_eq_getElem?_getD]
  have := length_pos d
  have h : d.degree < d.coeffs.length := by rw [length_eq]; omega
  simp [h]
  rfl

lemma listPoly_concat [Semiring K] (l : List K) (c : K) :
    listPoly (l ++ [c]) = listPoly l + C c * X ^ l.length := by
  induction l with
  | nil => simp [listPoly_cons, listPoly_nil]
  | cons a l ih =>
    rw [List.cons_append, listPoly_cons, ih, listPoly_cons, List.length_cons, pow_succ]
    rw [add_mul, mul_assoc, add_assoc]

/-- Loop invariant of `__divmod__`. -/
lemma divmod_loop [Field K] [DecidableEq K] (d : Poly K) (hd : d.coeffs.getLast d.ne ≠ 0) (k : ℕ) :
    ∀ (quot : List K) (rem : Poly K), (∀ j, d.degree + k ≤ j → rem.toPoly.coeff j = 0) →
    ∃ ql rem', (List.range' d.degree k).reverse.foldl (divStep d) (.ok (quot, rem)) =
        .ok (quot ++ ql, rem') ∧ ql.length = k ∧
      rem.toPoly = listPoly ql.reverse * d.toPoly + rem'.toPoly ∧
      ∀ j, d.degree ≤ j → rem'.toPoly.coeff j = 0 := by
  induction k with
  | zero =>
    intro quot rem h
    exact ⟨[], rem, by simp, rfl, by simp [listPoly_nil], by simpa using h⟩
  | succ k ih =>
    intro quot rem h
    rw [List.range'_concat, List.reverse_append]
    simp only [List.reverse_cons, List.reverse_nil, List.nil_append, List.cons_append,
      List.foldl_cons, one_mul]
    set c := rem.coeffs.getD (d.degree + k) 0 / d.coeffs.getLast d.ne with hc
    have hstep : divStep d (.ok (quot, rem)) (d.degree + k) =
        .ok (quot ++ [c], rem.sub ((Poly.smul c d).mulMonomial k)) := by
      unfold divStep
      simp only [hd, if_false]
      rw [Nat.add_sub_cancel_left, hc]
    rw [hstep]
    set rem1 := rem.sub ((Poly.smul c d).mulMonomial k) with hrem1
    have h1 : rem1.toPoly = rem.toPoly - C c * d.toPoly * X ^ k := by
      rw [hrem1, toPoly_sub, toPoly_mulMonomial, toPoly_smul]
    have hz : ∀ j, d.degree + k ≤ j → rem1.toPoly.coeff j = 0 := by
      intro j hj
      rw [h1, coeff_sub, coeff_mul_X_pow', if_pos (by omega), coeff_C_mul]
      rcases Nat.eq_or_lt_of_le hj with hj | hj
      · rw [← hj, Nat.add_sub_cancel, ← getLast_eq_coeff, coeff_toPoly, hc]
        field_simp
        simp
      · rw [h j (by omega)]
        have : d.toPoly.coeff (j - k) = 0 := by
          apply coeff_eq_zero_of_natDegree_lt
          have := natDegree_toPoly_le d
          omega
        simp [this]
    obtain ⟨ql, rem', e1, e2, e3, e4⟩ := ih (quot ++ [c]) rem1 hz
    refine ⟨c :: ql, rem', ?_, by simp [e2], ?_, e4⟩
    · rw [e1]; simp
    · rw [List.reverse_cons, listPoly_concat, List.length_reverse, e2, add_mul]
      have : rem.toPoly = rem1.toPoly + C c * d.toPoly * X ^ k := by rw [h1]; ring
      rw [this, e3]; ring

/-- C18: `divmod` with a divisor whose leading stored coefficient is nonzero performs Euclidean
division: `p = q d + r` with `deg r < deg d`. -/
theorem divmod_spec [Field K] [DecidableEq K] (p d : Poly K) (hd : d.toPoly.coeff d.degree ≠ 0) :
    ∃ q r, p.divmod d = .ok (q, r) ∧ p.toPoly = q.toPoly * d.toPoly + r.toPoly ∧
      r.toPoly.degree < d.toPoly.degree := by
  have hd' : d.coeffs.getLast d.ne ≠ 0 := by rwa [getLast_eq_coeff]
  have hp : ∀ j, d.degree + (p.degree + 1 - d.degree) ≤ j → p.toPoly.coeff j = 0 := by
    intro j hj
    apply coeff_eq_zero_of_natDegree_lt
    have := natDegree_toPoly_le p
    omega
  obtain ⟨ql, r, e1, e2, e3, e4⟩ := divmod_loop d hd' _ [] p hp
  refine ⟨.ofCoeffs ql.reverse, r, ?_, ?_, ?_⟩
  · unfold Poly.divmod
    simp only [e1, List.nil_append]
  · rw [toPoly_ofCoeffs]; exact e3
  · have hdeg : d.toPoly.degree = d.degree := by
      apply le_antisymm
      · exact degree_le_of_natDegree_le (natDegree_toPoly_le d)
      · exact le_degree_of_ne_zero hd
    rw [hdeg, degree_lt_iff_coeff_zero]
    exact e4

/-- C18: with a zero leading coefficient the division raises exactly when the loop body runs. -/
theorem divmod_zero_lead [Field K] [DecidableEq K] (p d : Poly K) (hd : d.toPoly.coeff d.degree = 0) :
    p.divmod d = if d.degree ≤ p.degree then .error .zeroDivisionError else .ok (.ofCoeffs [], p) := by
  have hd' : d.coeffs.getLast d.ne = 0 := by rwa [getLast_eq_coeff]
  have herr : ∀ l : List ℕ, l.foldl (divStep d) (.error .zeroDivisionError) = .error .zeroDivisionError := by
    intro l
    induction l with
    | nil => rfl
    | cons a l ih => simpa [divStep] using ih
  unfold Poly.divmod
  split
  · rename_i h
    obtain ⟨k, hk⟩ : ∃ k, p.degree + 1 - d.degree = k + 1 := ⟨p.degree - d.degree, by omega⟩
    simp only [hk, List.range'_concat, List.reverse_append, List.reverse_cons, List.reverse_nil,
      List.nil_append, List.cons_append, List.foldl_cons]
    have : divStep d (.ok ([], p)) (d.degree + 1 * k) = .error .zeroDivisionError := by
      simp [divStep, hd']
    rw [this, herr]
  · rename_i h
    have : p.degree + 1 - d.degree = 0 := by omega
    simp [this]

/-- C18: the loop never indexes out of range: the stored length of the remainder stays that of the
dividend. -/
theorem divStep_length [Field K] [DecidableEq K] (d rem rem' : Poly K) (quot quot' : List K) (i : ℕ)
    (hi : d.degree ≤ i) (hlen : i < rem.coeffs.length)
    (h : divStep d (.ok (quot, rem)) i = .ok (quot', rem')) :
    rem'.coeffs.length = rem.coeffs.length := by
  unfold divStep at h
  dsimp only at h
  split at h
  · cases h
  · injection h with h
    injection h with _ h
    rw [← h, Poly.sub, coeffs_ofCoeffs_of_ne]
    · rw [zipLongest_length, Poly.mulMonomial, coeffs_ofCoeffs_of_ne, Poly.smul, coeffs_ofCoeffs_of_ne]
      · simp [length_eq d]; omega
      · simp [d.ne]
      · simp [Poly.ne]
    · intro h0
      have := congrArg List.length h0
      rw [zipLongest_length] at this
      simp at this
      have := length_pos rem
      simp_all

example : (Poly.ofCoeffs [-1, 0, 0, 1] : Poly ℚ).divmod (.ofCoeffs [-1, 1]) =
    .ok (.ofCoeffs [1, 1, 1], .ofCoeffs [0, 0, 0, 0]) := by decide +kernel
example : (Poly.ofCoeffs [-1, 1] : Poly ℚ).toPoly.coeff (Poly.ofCoeffs [-1, 1] : Poly ℚ).degree ≠ 0 := by
  rw [coeff_toPoly]; decide +kernel
example : (Poly.ofCoeffs [0, 0, 2, 5] : Poly ℚ).floordivMonomial 2 = .ok (.ofCoeffs [2, 5]) := by decide +kernel
example : (Poly.ofCoeffs [0, 1, 2, 5] : Poly ℚ).floordivMonomial 2 = .error .valueError := by decide +kernel

end LinPDE.Polys
