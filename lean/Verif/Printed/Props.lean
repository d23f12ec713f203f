import Verif.Printed.OpLemmas

/-!
# C85: printed forms

A printed form is faithful if different objects are printed differently.
-/

namespace LinPDE.Printed
open LinPDE.Polys LinPDE.Coeff LinPDE.Ops LinPDE.Nd

/-- C85: two polynomials with rational coefficients are printed alike if and only if they are the same function, whatever the zeros at the end
of their coefficients. -/
theorem rational_faithful (p q : Poly ℚ) : ratStr p = ratStr q ↔ ∀ x : ℚ, p.eval x = q.eval x := by
  have h0 : ∀ r : Poly ℚ, r.coeffs.all (· = 0) = true ↔ ((r.coeffs.zipIdx 0).filter fun t => t.1 ≠ 0) = [] := by
    intro r
    rw [List.filter_eq_nil_iff, List.all_eq_true]
    constructor
    · intro h t ht
      have := h t.1 (List.fst_mem_of_mem_zipIdx ht)
      simpa using this
    · intro h c hc
      obtain ⟨i, hi, rfl⟩ := List.mem_iff_getElem.mp hc
      have := h (r.coeffs[i], i) (by rw [List.mk_mem_zipIdx_iff_getElem?]; simp [hi])
      simpa using this
  have hT : ∀ r : Poly ℚ, ∀ t ∈ ((r.coeffs.zipIdx 0).filter fun t => t.1 ≠ 0), t.1 ≠ 0 := by
    intro r t ht
    simpa using (List.mem_filter.mp ht).2
  have hz : ∀ (r : Poly ℚ), ((r.coeffs.zipIdx 0).filter fun t => t.1 ≠ 0) ≠ [] →
      join [' '] (((r.coeffs.zipIdx 0).filter fun t => t.1 ≠ 0).map fun t => termStr t.2 t.1) ≠ ['0'] := by
    intro r hr h
    have h1 := congrArg (spl ' ') h
    rw [spl_terms hr, spl_of_notMem (l := ['0']) (by decide)] at h1
    cases hts : ((r.coeffs.zipIdx 0).filter fun t => t.1 ≠ 0) with
    | nil => exact hr hts
    | cons t ts =>
      have ht := hT r t (by rw [hts]; exact List.mem_cons_self)
      rw [hts, List.flatMap_cons] at h1
      have h2 : words t ++ ts.flatMap words = [fracStr 0] ++ [] := by rw [h1, fracStr_zero]; rfl
      rw [words] at h2
      split_ifs at h2 <;> simp only [List.cons_append, List.cons.injEq] at h2
      · exact ht (fracStr_inj h2.1)
      · exact (fracStr_ne_sign 0).1 h2.1.symm
      · exact (fracStr_ne_sign 0).1 h2.1.symm
      · exact (fracStr_ne_sign 0).2 h2.1.symm
      · exact (fracStr_ne_sign 0).2 h2.1.symm
  have key : ratStr p = ratStr q ↔ ((p.coeffs.zipIdx 0).filter fun t => t.1 ≠ 0) = ((q.coeffs.zipIdx 0).filter fun t => t.1 ≠ 0) := by
    have hp0 := h0 p
    have hq0 := h0 q
    have hpz := hz p
    have hqz := hz q
    have hpT := hT p
    have hqT := hT q
    rw [ratStr, ratStr]
    generalize ((p.coeffs.zipIdx 0).filter fun t => t.1 ≠ 0) = ts at *
    generalize ((q.coeffs.zipIdx 0).filter fun t => t.1 ≠ 0) = us at *
    by_cases hp : p.coeffs.all (· = 0) = true <;> by_cases hq : q.coeffs.all (· = 0) = true
    · rw [if_pos hp, if_pos hq, hp0.mp hp, hq0.mp hq]
      simp
    · rw [if_pos hp, if_neg hq, hp0.mp hp]
      have hu : us ≠ [] := fun h => hq (hq0.mpr h)
      exact ⟨fun h => absurd h.symm (hqz hu), fun h => absurd h.symm hu⟩
    · rw [if_neg hp, if_pos hq, hq0.mp hq]
      have hu : ts ≠ [] := fun h => hp (hp0.mpr h)
      exact ⟨fun h => absurd h (hpz hu), fun h => absurd h hu⟩
    · rw [if_neg hp, if_neg hq]
      have ht : ts ≠ [] := fun h => hp (hp0.mpr h)
      have hu : us ≠ [] := fun h => hq (hq0.mpr h)
      constructor
      · intro h
        have := congrArg (spl ' ') h
        rw [spl_terms ht, spl_terms hu] at this
        exact flatMap_words_inj hpT hqT this
      · intro h; rw [h]
  rw [key, terms_eq_iff]
  constructor
  · intro h x
    have : p.toPoly = q.toPoly := Polynomial.ext fun n => by rw [coeff_toPoly, coeff_toPoly, h n]
    rw [eval_eq_toPoly_eval, eval_eq_toPoly_eval, this]
  · intro h k
    have : p.toPoly = q.toPoly := Polynomial.funext fun x => by rw [← eval_eq_toPoly_eval, ← eval_eq_toPoly_eval, h x]
    rw [← coeff_toPoly, ← coeff_toPoly, this]

/-- C85: polynomials with floating point coefficients are printed alike if and only if they have the same tuples of coefficients. -/
theorem polynomial_faithful {K : Type} {fs : K → Str} (hf : Function.Injective fs) (hs : ∀ c, ' ' ∉ fs c) (p q : Poly K) :
    polyStr fs p = polyStr fs q ↔ p = q := by
  constructor
  · intro h
    have := poly_inj hf hs p.coeffs q.coeffs 0 p.ne q.ne h
    cases p
    cases q
    simpa using this
  · intro h; rw [h]

/-- C85: multi-indices with at least one entry are printed alike if and only if their shapes and entries agree; the same for partial
derivatives.  For arrays without entries see `multiindex_violated`. -/
theorem multiindex_partial (cls : Str) (a b : MI) (ha : a.data.length = a.shape.prod) (hb : b.data.length = b.shape.prod) (ha0 : a.data ≠ [])
    (hb0 : b.data ≠ []) : (miStr a = miStr b ↔ a = b) ∧ (pdStr cls a = pdStr cls b ↔ a = b) := by
  have key : ∀ {r s : Str}, Delim r → Delim s → (tolist a.shape fun p => a.data.getD p 0).str ++ r = (tolist b.shape fun p => b.data.getD p 0).str ++ s → a = b := by
    intro r s hr hs h
    have h1 := (str_inj _ _ hr hs h).1
    obtain ⟨h2, h3⟩ := tolist_inj (by rw [← ha]; simpa using ha0) (by rw [← hb]; simpa using hb0) h1
    have hl : a.data.length = b.data.length := by rw [ha, hb, h2]
    have hd : a.data = b.data := by
      refine List.ext_getElem hl fun i hi hj => ?_
      have := h3 i (by rwa [← ha])
      simpa [List.getD_eq_getElem?_getD, hi, hj] using this
    cases a
    cases b
    rw [MI.mk.injEq]
    exact ⟨h2, hd⟩
  have hdel : ∀ t : Str, Delim (')' :: t) := fun t c hc => by simp at hc; rw [← hc]; decide
  refine ⟨⟨fun h => ?_, fun h => by rw [h]⟩, ⟨fun h => ?_, fun h => by rw [h]⟩⟩
  · rw [miStr, miStr, List.append_assoc, List.append_assoc] at h
    exact key (hdel []) (hdel []) (List.append_cancel_left h)
  · rw [pdStr, pdStr] at h
    have h1 : miStr a = miStr b := List.append_cancel_left (List.append_cancel_right h)
    rw [miStr, miStr, List.append_assoc, List.append_assoc] at h1
    exact key (hdel []) (hdel []) (List.append_cancel_left h1)

/-- C85 (violation): multi-indices without entries of different shapes are printed alike. -/
theorem multiindex_violated : miStr ⟨[0], []⟩ = miStr ⟨[0, 3], []⟩ ∧ (⟨[0], []⟩ : MI) ≠ ⟨[0, 3], []⟩ := by
  refine ⟨?_, by decide⟩
  simp [miStr, tolist]

variable {X : Type}

/-- C85: operators whose sums are not inside of multiples and compositions are printed differently if they are different operators. -/
theorem operator_partial {F : Set ℝ} {A : Set (Op X)} {fs : ℝ → Str} {nm : Op X → Str} (H : Names F A fs nm) (L M : Op X) (hL : SumsOutside F A L)
    (hM : SumsOutside F A M) (h : opStr fs nm L = opStr fs nm M) : L.den = M.den := by
  rw [← outside_words H L hL, ← outside_words H M hM, h]

/-- C85 (violation): there are no parentheses: `2 * (A + B)` is printed like `2 * A + B` and `(A + B) @ C` like `A + B @ C`, whatever the
printed forms of numbers and operators. -/
theorem operator_violated (fs : ℝ → Str) (nm : Op X → Str) (s : Shapes) (S T U : Val X →ₗ[ℝ] Val X) (d : Bool) :
    (T ≠ 0 → ∃ L M, (OExpr.smul 2 (.add (.base s s S d) (.base s s T d))).build = .ok L ∧
      (OExpr.add (.smul 2 (.base s s S d)) (.base s s T d)).build = .ok M ∧ opStr fs nm L = opStr fs nm M ∧ L.den ≠ M.den) ∧
    (S * U ≠ S → ∃ L M, (OExpr.matmul (.add (.base s s S d) (.base s s T d)) (.base s s U d)).build = .ok L ∧
      (OExpr.add (.base s s S d) (.matmul (.base s s T d) (.base s s U d))).build = .ok M ∧ opStr fs nm L = opStr fs nm M ∧ L.den ≠ M.den) := by
  constructor
  · intro hT
    cases d with
    | true =>
      refine ⟨.scaled (.sum s s [.base s s S true, .base s s T true]) 2, .sum s s [.scaledDiff (.base s s S true) 2, .base s s T true], ?_, ?_, ?_, ?_⟩
      · simp [OExpr.build, Op.add, Op.mkSum, Op.smul, Op.inS, Op.outS, bind, Except.bind]
      · simp [OExpr.build, Op.add, Op.mkSum, Op.smul, Op.inS, Op.outS, bind, Except.bind]
      · simp [opStr, opStrs, join]
      · simp only [Op.den, denSum, add_zero]
        intro h
        rw [smul_add, add_right_inj] at h
        exact hT (by rw [two_smul] at h; simpa using h)
    | false =>
      refine ⟨.scaled (.sum s s [.base s s S false, .base s s T false]) 2, .sum s s [.scaled (.base s s S false) 2, .base s s T false], ?_, ?_, ?_, ?_⟩
      · simp [OExpr.build, Op.add, Op.mkSum, Op.smul, Op.inS, Op.outS, bind, Except.bind]
      · simp [OExpr.build, Op.add, Op.mkSum, Op.smul, Op.inS, Op.outS, bind, Except.bind]
      · simp [opStr, opStrs, join]
      · simp only [Op.den, denSum, add_zero]
        intro h
        rw [smul_add, add_right_inj] at h
        exact hT (by rw [two_smul] at h; simpa using h)
  · intro hS
    refine ⟨.comp s s [.sum s s [.base s s S d, .base s s T d], .base s s U d], .sum s s [.base s s S d, .comp s s [.base s s T d, .base s s U d]], ?_, ?_, ?_, ?_⟩
    · simp [OExpr.build, Op.add, Op.mkSum, Op.matmul, Op.mkComp, chainOK, Op.inS, Op.outS, bind, Except.bind]
    · simp [OExpr.build, Op.add, Op.mkSum, Op.matmul, Op.mkComp, chainOK, Op.inS, Op.outS, bind, Except.bind]
    · simp [opStr, opStrs, join]
    · simp only [Op.den, denSum, denProd, add_zero, mul_one]
      intro h
      rw [add_mul, add_left_inj] at h
      exact hS h

/-! ### Examples -/

/-- `1/2 + x^1 - 2/3 x^3`. -/
example : ratStr (.ofCoeffs [1 / 2, 1, 0, -2 / 3]) = ['1', '/', '2', ' ', '+', ' ', 'x', '^', '1', ' ', '-', ' ', '2', '/', '3', ' ', 'x', '^', '3'] := by
  decide +kernel

example : ratStr (.ofCoeffs []) = ['0'] ∧ ratStr (.ofCoeffs [0, 0, -1]) = ['-', ' ', 'x', '^', '2'] ∧ ratStr (.ofCoeffs [-12]) = ['-', '1', '2'] := by
  decide +kernel

example : ratStr (.ofCoeffs [1, 2]) = ratStr (.ofCoeffs [1, 2, 0, 0]) := by decide +kernel

/-- The hypotheses of `polynomial_faithful`, with rationals in place of floats. -/
example : polyStr fracStr (.ofCoeffs [1, -1 / 2]) = ['1', ' ', '*', ' ', 'x', '^', '0', ' ', '+', ' ', '-', '1', '/', '2', ' ', '*', ' ', 'x', '^', '1'] ∧
    (polyStr fracStr (.ofCoeffs [1, 2]) ≠ polyStr fracStr (.ofCoeffs [1, 2, 0])) :=
  ⟨by decide +kernel, fun h => absurd ((polynomial_faithful (fun _ _ => fracStr_inj) space_fracStr _ _).mp h) (by decide)⟩

example : miStr ⟨[2, 2], [1, 0, 12, 3]⟩ = ['M', 'u', 'l', 't', 'i', 'I', 'n', 'd', 'e', 'x', '(', '[', '[', '1', ',', ' ', '0', ']', ',', ' ', '[', '1', '2', ',', ' ',
    '3', ']', ']', ')'] ∧ miStr ⟨[2, 2], [1, 0, 12, 3]⟩ ≠ miStr ⟨[4], [1, 0, 12, 3]⟩ :=
  ⟨by decide +kernel, fun h => absurd ((multiindex_partial [] ⟨[2, 2], [1, 0, 12, 3]⟩ ⟨[4], [1, 0, 12, 3]⟩ rfl rfl (by decide) (by decide)).1.mp h) (by decide)⟩

example : String.ofList (pdStr "PartialDerivative".toList ⟨[2], [1, 0]⟩) = "PartialDerivative(multi_index=MultiIndex([1, 0]))" := by decide +kernel

/-- The contract on names can be met: two operators `A`, `B` and the numbers `0`, `2`. -/
lemma exists_names (s : Shapes) (S T : Val X →ₗ[ℝ] Val X) : ∃ (fs : ℝ → Str) (nm : Op X → Str),
    Names {0, 2} {.base s s S false, .base s s T false} fs nm := by
  classical
  refine ⟨fun c => if c = 0 then ['0', '.', '0'] else ['2', '.', '0'],
    fun L => if L.den = S then ['A', ' ', 'o', 'b', 'j', 'e', 'c', 't'] else ['B', ' ', 'o', 'b', 'j', 'e', 'c', 't'], ⟨?_, ?_, ?_, ?_⟩⟩
  · intro c hc d hd h
    simp only [Set.mem_insert_iff, Set.mem_singleton_iff] at hc hd
    rcases hc with rfl | rfl <;> rcases hd with rfl | rfl <;> simp at h ⊢
  · intro c _ w hw
    split_ifs at hw <;> revert w <;> decide
  · intro L hL M hM h
    simp only [Set.mem_insert_iff, Set.mem_singleton_iff] at hL hM
    split_ifs at h with h1 h2 h2
    · rw [h1, h2]
    · simp at h
    · simp at h
    · rcases hL with rfl | rfl
      · rw [Op.den] at h1; exact absurd rfl h1
      · rcases hM with rfl | rfl
        · rw [Op.den] at h2; exact absurd rfl h2
        · rfl
  · intro L _ w hw
    split_ifs at hw <;> revert w <;> decide

/-- `2 * A @ B + A` and `A + B`. -/
example (s : Shapes) (S T : Val X →ₗ[ℝ] Val X) (h : (2 : ℝ) • (S * T) + S ≠ S + T) : ∃ (fs : ℝ → Str) (nm : Op X → Str),
    opStr fs nm (.sum s s [.scaled (.comp s s [.base s s S false, .base s s T false]) 2, .base s s S false]) ≠
      opStr fs nm (.sum s s [.base s s S false, .base s s T false]) := by
  obtain ⟨fs, nm, H⟩ := exists_names s S T
  refine ⟨fs, nm, fun he => h ?_⟩
  have := operator_partial H _ _ (by simp [SumsOutside, allOutside, SumFree, allSumFree]) (by simp [SumsOutside, allOutside, SumFree]) he
  simpa [Op.den, denSum, denProd] using this

end LinPDE.Printed
