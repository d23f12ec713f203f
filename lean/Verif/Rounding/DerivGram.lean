import Verif.Rounding.Deriv
import Verif.Rounding.Post

/-!
# Gram matrices of derivative observations in floating point (C90)

The computed kernel of an operator applied to both arguments is exactly symmetric, the two cross-covariances with one operator are exact
mirror images, and Gram matrices of noisy derivative observations stay positive definite.
-/

namespace LinPDE.Rounding
open Finset LinPDE.Polys LinPDE.Matern
open LinPDE.ExpQuad (EK sf)

variable {F : Fmt} {d a : ℕ} {T : ℕ → Tree (Fin d)} {s : Fin d → ℝ}

/-! ## Exchanging the arguments -/

lemma Tree.fl_neg {ι : Type} (F : Fmt) (f : ι → ℝ) (t : Tree ι) : t.fl F (fun i => -f i) = -t.fl F f := by
  induction t with
  | leaf i => rfl
  | node l r h1 h2 => rw [Tree.fl, Tree.fl, h1, h2, ← neg_add, F.neg]

lemma diff_swap (x y : Fin d → ℝ) : diffFl F y x = fun i => -diffFl F x y i := by
  funext i
  rw [diffFl, diffFl, ← F.neg, neg_sub]

lemma sdiff_swap (s x y : Fin d → ℝ) : sdiffFl F s y x = fun i => -sdiffFl F s x y i := by
  funext i
  rw [sdiffFl, sdiffFl, ← F.neg, ← neg_mul, ← F.neg, neg_sub]

lemma dot_neg_right (t : Tree (Fin d)) (u v : Fin d → ℝ) : dotFl F t u (fun i => -v i) = -dotFl F t u v := by
  rw [dotFl, dotFl, ← Tree.fl_neg]
  congr 1
  funext i
  rw [mul_neg, F.neg]

lemma dot_neg_left (t : Tree (Fin d)) (u v : Fin d → ℝ) : dotFl F t (fun i => -u i) v = -dotFl F t u v := by
  rw [dotFl, dotFl, ← Tree.fl_neg]
  congr 1
  funext i
  rw [neg_mul, F.neg]

lemma gauss_even (t : Tree (Fin d)) (l v : Fin d → ℝ) : gaussFl F t l (fun i => -v i) = gaussFl F t l v := by
  rw [gaussFl, gaussFl]
  simp only [neg_div, F.neg, neg_sq]

lemma gaussScaled_even (t : Tree (Fin d)) (s v : Fin d → ℝ) : gaussScaledFl F t s (fun i => -v i) = gaussScaledFl F t s v := by
  rw [gaussScaledFl, gaussScaledFl]
  simp only [mul_neg, F.neg, neg_sq]

lemma idWL_even (s w v : Fin d → ℝ) : idWLFl F T s w (fun i => -v i) = idWLFl F T s w v := by
  rw [idWLFl, idWLFl, gaussScaled_even]
  simp only [mul_neg, F.neg, neg_mul, neg_neg]

lemma lap_even (t t' : Tree (Fin d)) (s w v : Fin d → ℝ) : lapFl F t t' s w (fun i => -v i) = lapFl F t t' s w v := by
  rw [lapFl, lapFl]
  simp only [neg_sq]

/-- The kernel with the roles of the arguments exchanged. -/
def ekSwap : EK d → EK d
  | .expquad l => .expquad l
  | .idDD l u r => .idDD l u (!r)
  | .ddDD l u0 u1 => .ddDD l u1 u0
  | .idWL l w r => .idWL l w (!r)
  | .wlWL l w0 w1 => .wlWL l w1 w0
  | .ddWL l u w r => .ddWL l u w (!r)

/-- If both arguments carry operators of one kind, they carry the same. -/
def EkSame : EK d → Prop
  | .ddDD _ u0 u1 => u0 = u1
  | .wlWL _ w0 w1 => w0 = w1
  | _ => True

/-- C90: exchanging the arguments exchanges the operators, without any rounding error. -/
theorem expquad_deriv_swap {k : EK d} (h : EkSame k) (x y : Fin d → ℝ) : ekFl F T s (ekSwap k) y x = ekFl F T s k x y := by
  cases k with
  | expquad l => exact (kernels_symmetric F (T 0) s 0 y x).1
  | idDD l u r =>
    simp only [ekSwap, ekFl, diff_swap x y, gauss_even, dot_neg_right]
    cases r
    · simp only [Bool.not_false, if_true, Bool.false_eq_true, if_false]
      rw [show (fun i => -rescFl F l u i) = fun i => -(rescFl F l u i) from rfl, dot_neg_left, neg_neg]
    · simp only [Bool.not_true, if_true, Bool.false_eq_true, if_false]
      rw [show (fun i => -rescFl F l u i) = fun i => -(rescFl F l u i) from rfl, dot_neg_left]
  | ddDD l u0 u1 =>
    obtain rfl : u0 = u1 := h
    simp only [ekSwap, ekFl, diff_swap x y, gauss_even, dot_neg_right, neg_mul_neg]
  | idWL l w r => simp only [ekSwap, ekFl, diff_swap x y, idWL_even]
  | wlWL l w0 w1 =>
    obtain rfl : w0 = w1 := h
    simp only [ekSwap, ekFl, diff_swap x y, lap_even, gaussScaled_even, neg_sq]
  | ddWL l u w r =>
    simp only [ekSwap, ekFl, diff_swap x y, idWL_even, dot_neg_right, (kernels_symmetric F (T 4) s 0 y x).1]
    have e : ∀ A B C D : ℝ, F.rd (F.rd (F.rd (2 * -A) * B) - F.rd (-C * D)) = -F.rd (F.rd (F.rd (2 * A) * B) - F.rd (C * D)) := by
      intro A B C D
      rw [mul_neg, F.neg, neg_mul, F.neg, neg_mul, F.neg, ← neg_sub', F.neg]
    cases r
    · simp only [Bool.not_false, if_true, Bool.false_eq_true, if_false]
      rw [e, neg_neg]
    · simp only [Bool.not_true, if_true, Bool.false_eq_true, if_false]
      rw [e]

/-- The Matérn kernel with the roles of the arguments exchanged. -/
def mkSwap : MK d → MK d
  | .matern m => .matern m
  | .idDD m u r q => .idDD m u (!r) q
  | .ddDD m u0 u1 q q' => .ddDD m u1 u0 q q'
  | .uniDDDD m u0 u1 q => .uniDDDD m u1 u0 q
  | .idWL m w r q => .idWL m w (!r) q
  | .wlWL m w0 w1 q => .wlWL m w1 w0 q
  | .ddWL m u w r q => .ddWL m u w (!r) q

/-- C90: for Matérn kernels the exchange is exact for all pairs of operators, up to the order of the two inner sums. -/
theorem matern_deriv_swap (k : MK d) (x y : Fin d → ℝ) :
    mkFl F (fun n => if n = 2 then T 3 else if n = 3 then T 2 else T n) s (mkSwap k) y x = mkFl F T s k x y := by
  have hr : dist F (T 0) s y x = dist F (T 0) s x y := by rw [dist, dist, sqDist_symm]
  cases k with
  | matern m => exact (kernels_symmetric F (T 0) s m.p y x).2.1
  | idDD m u r q =>
    simp only [mkSwap, mkFl, sdiff_swap s x y, dot_neg_right]
    simp only [show (0 : ℕ) ≠ 2 by decide, show (0 : ℕ) ≠ 3 by decide, show (1 : ℕ) ≠ 2 by decide, show (1 : ℕ) ≠ 3 by decide, if_false, hr]
    cases r
    · simp only [Bool.not_false, if_true, Bool.false_eq_true, if_false, mul_one, mul_neg, dot_neg_left]
    · simp only [Bool.not_true, if_true, Bool.false_eq_true, if_false, mul_one, mul_neg, dot_neg_left, neg_neg]
  | ddDD m u0 u1 q q' =>
    simp only [mkSwap, mkFl, sdiff_swap s x y, dot_neg_right, neg_mul_neg]
    simp only [show (0 : ℕ) ≠ 2 by decide, show (0 : ℕ) ≠ 3 by decide, show (1 : ℕ) ≠ 2 by decide, show (1 : ℕ) ≠ 3 by decide,
      show (3 : ℕ) ≠ 2 by decide, if_false, if_true, hr]
    have e : dotFl F (T 1) (fun i => F.rd (s i * u1 i)) (fun i => F.rd (s i * u0 i)) =
        dotFl F (T 1) (fun i => F.rd (s i * u0 i)) fun i => F.rd (s i * u1 i) := by
      rw [dotFl, dotFl]
      simp only [mul_comm (F.rd (s _ * u1 _))]
    rw [e, mul_comm (dotFl F (T 3) _ _)]
  | uniDDDD m u0 u1 q =>
    simp only [mkSwap, mkFl]
    simp only [show (0 : ℕ) ≠ 2 by decide, show (0 : ℕ) ≠ 3 by decide, show (1 : ℕ) ≠ 2 by decide, show (1 : ℕ) ≠ 3 by decide, if_false, hr,
      mul_comm (u1 _)]
  | idWL m w r q =>
    simp only [mkSwap, mkFl]
    simp only [show (0 : ℕ) ≠ 2 by decide, show (0 : ℕ) ≠ 3 by decide, show (1 : ℕ) ≠ 2 by decide, show (1 : ℕ) ≠ 3 by decide, if_false, hr]
  | wlWL m w0 w1 q =>
    simp only [mkSwap, mkFl]
    simp only [show (0 : ℕ) ≠ 2 by decide, show (0 : ℕ) ≠ 3 by decide, show (1 : ℕ) ≠ 2 by decide, show (1 : ℕ) ≠ 3 by decide, if_false, hr,
      mul_comm (w1 _)]
  | ddWL m u w r q =>
    simp only [mkSwap, mkFl, sdiff_swap s x y, dot_neg_right]
    simp only [show (0 : ℕ) ≠ 2 by decide, show (0 : ℕ) ≠ 3 by decide, show (1 : ℕ) ≠ 2 by decide, show (1 : ℕ) ≠ 3 by decide, if_false, hr]
    cases r
    · simp only [Bool.not_false, if_true, Bool.false_eq_true, if_false, mul_one, mul_neg, dot_neg_left, neg_neg]
    · simp only [Bool.not_true, if_true, Bool.false_eq_true, if_false, mul_one, mul_neg, dot_neg_left]

/-! ## Gram matrices -/

/-- A Gram matrix with rounded noise on the diagonal. -/
lemma gram_cl {α : Type} {k : α → α → ℝ} (hk : PosDef.PSD k) {kf : α → α → ℝ} (hs : ∀ x y, kf x y = kf y x) {n : ℕ} (x : Fin n → α)
    {g : Fin n → Fin n → ℝ} {m : Fin n → Fin n → ℝ} (h : ∀ i j, Cl (g i j) (kf (x i) (x j)) (k (x i) (x j)) (m i j)) {ε M τ : ℝ} (h0 : 0 ≤ τ)
    (hε : ∀ i j, (g i j - 1) * m i j ≤ ε) (hM : ∀ i j, m i j ≤ M) (hτ : n * (ε + F.u * (M + ε + τ)) < τ) :
    (Matrix.of fun i j => F.rd (kf (x i) (x j) + if i = j then τ else 0)).PosDef := by
  refine gram_posDef hk x hτ _ (fun i j => ?_) fun i j => ?_
  · simp only [Matrix.of_apply, hs (x i) (x j), eq_comm (a := i)]
  · simp only [Matrix.of_apply]
    have e1 := (h i j).err.trans (hε i j)
    have e2 := (h i j).mag.trans (hM i j)
    have e3 : |if i = j then τ else 0| ≤ τ := by
      split_ifs
      · rw [abs_of_nonneg h0]
      · simpa using h0
    have e4 : |kf (x i) (x j)| ≤ M + ε := by
      calc |kf (x i) (x j)| = |(kf (x i) (x j) - k (x i) (x j)) + k (x i) (x j)| := by ring_nf
        _ ≤ _ := (abs_add_le _ _).trans (by linarith)
    have e5 := F.err (kf (x i) (x j) + if i = j then τ else 0)
    have e6 : F.u * |kf (x i) (x j) + if i = j then τ else 0| ≤ F.u * (M + ε + τ) :=
      mul_le_mul_of_nonneg_left ((abs_add_le _ _).trans (by linarith)) F.u_nonneg
    calc _ = |(F.rd (kf (x i) (x j) + if i = j then τ else 0) - (kf (x i) (x j) + if i = j then τ else 0)) + (kf (x i) (x j) - k (x i) (x j))| := by
          ring_nf
      _ ≤ _ := (abs_add_le _ _).trans (by linarith)

lemma ek_apply_same {l : Fin d → ℝ} {L : DOp d} {k1 k2 : EK d} (h1 : ExpQuad.apply L false (.expquad l) = .ok k1)
    (h2 : ExpQuad.apply L true k1 = .ok k2) : EkSame k2 ∧ ekSwap k2 = k2 ∧ lens k2 = l := by
  have hdd : ∀ u k1 k2, ExpQuad.applyDD u false (.expquad l) = .ok k1 → ExpQuad.applyDD u true k1 = .ok k2 → k2 = .ddDD l u u := by
    intro u k1 k2 h1 h2
    simp [ExpQuad.applyDD] at h1
    subst h1
    simp [ExpQuad.applyDD] at h2
    exact h2.symm
  have hwl : ∀ w k1 k2, ExpQuad.applyWL w false (.expquad l) = .ok k1 → ExpQuad.applyWL w true k1 = .ok k2 → k2 = .wlWL l w w := by
    intro u k1 k2 h1 h2
    simp [ExpQuad.applyWL] at h1
    subst h1
    simp [ExpQuad.applyWL] at h2
    exact h2.symm
  cases L with
  | dd u => rw [hdd _ _ _ h1 h2]; exact ⟨rfl, rfl, rfl⟩
  | wl w => rw [hwl _ _ _ h1 h2]; exact ⟨rfl, rfl, rfl⟩
  | pd n =>
    have e1 : ExpQuad.applyPD n false (.expquad l) = .ok k1 := h1
    rcases Nat.lt_or_ge n 3 with hn | hn
    · interval_cases n
      · simp [ExpQuad.applyPD] at e1
        subst e1
        have e2 : ExpQuad.applyPD 0 true (.expquad l) = .ok k2 := h2
        simp [ExpQuad.applyPD] at e2
        subst e2
        exact ⟨trivial, rfl, rfl⟩
      · by_cases hd : d = 1
        · simp only [ExpQuad.applyPD, hd] at e1
          have e1' : ExpQuad.applyDD (fun _ => 1) false (.expquad l) = .ok k1 := e1
          have e3 := e1'
          simp [ExpQuad.applyDD] at e3
          subst e3
          have e2 : ExpQuad.applyPD 1 true (.idDD l (fun _ => 1) false) = .ok k2 := h2
          have e2' : ExpQuad.applyDD (fun _ => 1) true (.idDD l (fun _ => 1) false) = .ok k2 := by
            simpa [ExpQuad.applyPD, hd] using e2
          rw [hdd _ _ _ e1' e2']
          exact ⟨rfl, rfl, rfl⟩
        · simp [ExpQuad.applyPD, hd] at e1
      · by_cases hd : d = 1
        · simp only [ExpQuad.applyPD, hd] at e1
          have e1' : ExpQuad.applyWL (fun _ => 1) false (.expquad l) = .ok k1 := e1
          have e3 := e1'
          simp [ExpQuad.applyWL] at e3
          subst e3
          have e2 : ExpQuad.applyPD 2 true (.idWL l (fun _ => 1) false) = .ok k2 := h2
          have e2' : ExpQuad.applyWL (fun _ => 1) true (.idWL l (fun _ => 1) false) = .ok k2 := by
            simpa [ExpQuad.applyPD, hd] using e2
          rw [hwl _ _ _ e1' e2']
          exact ⟨rfl, rfl, rfl⟩
        · simp [ExpQuad.applyPD, hd] at e1
    · have : ExpQuad.applyPD n false (.expquad l) = .error .notImplemented := by
        simp [ExpQuad.applyPD, show n ≠ 0 by omega, show n ≠ 1 by omega, show n ≠ 2 by omega]
      rw [this] at e1
      cases e1

/-- C90: Gram matrices of noisy observations of a differential operator under a squared-exponential kernel are positive definite in floating
point if the noise exceeds the accumulated rounding errors. -/
theorem expquad_operator_gram (hu : F.u ≤ 1 / 2) (hT : ∀ n, (T n).Full) {l : Fin d → ℝ} {L : DOp d} {k1 k2 : EK d}
    (h1 : ExpQuad.apply L false (.expquad l) = .ok k1) (h2 : ExpQuad.apply L true k1 = .ok k2) (hs : ∀ i, F.Near a (s i) (sf l i))
    {n : ℕ} (x : Fin n → Fin d → ℝ) {ε M τ : ℝ} (h0 : 0 ≤ τ)
    (hε : ∀ i j, let q := ∑ r, (sf l r * (x i r - x j r)) ^ 2
      ((1 + F.u) ^ (2 * d + 8 * a + 24) * ((1 + F.v) * Real.exp (((1 + F.u) ^ (d + 2 * a + 5) - 1) * q)) - 1) * (ekMag k2 (x i) (x j) * Real.exp (-q)) ≤ ε)
    (hM : ∀ i j, ekMag k2 (x i) (x j) * Real.exp (-∑ r, (sf l r * (x i r - x j r)) ^ 2) ≤ M) (hτ : n * (ε + F.u * (M + ε + τ)) < τ) :
    (Matrix.of fun i j => F.rd (ekFl F T s k2 (x i) (x j) + if i = j then τ else 0)).PosDef := by
  obtain ⟨e1, e2, e3⟩ := ek_apply_same h1 h2
  refine gram_cl (PosDef.expquad_derivative_psd h1 h2) (fun x y => ?_) x (fun i j => ?_) h0 hε hM hτ
  · have := expquad_deriv_swap (F := F) (T := T) (s := s) e1 y x
    rwa [e2] at this
  · have := ek_cl hu hT k2 (by rw [e3]; exact hs) (x i) (x j)
    rwa [e3] at this

/-- For the same operator in both arguments the order of the two inner sums does not matter. -/
lemma mk_trees {k : MK d} (hk : mkSwap k = k) (x y : Fin d → ℝ) :
    mkFl F (fun n => if n = 2 then T 3 else if n = 3 then T 2 else T n) s k x y = mkFl F T s k x y := by
  cases k with
  | matern m => rfl
  | idDD m u r q => simp [mkSwap] at hk
  | ddDD m u0 u1 q q' =>
    simp only [mkSwap, MK.ddDD.injEq] at hk
    obtain ⟨-, rfl, -⟩ := hk
    simp only [mkFl]
    simp only [show (0 : ℕ) ≠ 2 by decide, show (0 : ℕ) ≠ 3 by decide, show (1 : ℕ) ≠ 2 by decide, show (1 : ℕ) ≠ 3 by decide,
      show (3 : ℕ) ≠ 2 by decide, if_false, if_true]
    rw [mul_comm (dotFl F (T 3) _ _)]
  | uniDDDD m u0 u1 q => rfl
  | idWL m w r q => simp [mkSwap] at hk
  | wlWL m w0 w1 q => rfl
  | ddWL m u w r q => simp [mkSwap] at hk

lemma mk_apply_same {m : Par d} {L : DOp d} {k1 k2 : MK d} (h1 : Matern.apply L false (.matern m) = .ok k1)
    (h2 : Matern.apply L true k1 = .ok k2) : mkSwap k2 = k2 ∧ parOf k2 = m := by
  have hdd : ∀ u k1 k2, Matern.applyDD u false (.matern m) = .ok k1 → Matern.applyDD u true k1 = .ok k2 → mkSwap k2 = k2 ∧ parOf k2 = m := by
    intro u k1 k2 h1 h2
    obtain ⟨q, rfl, -⟩ := Matern.mkIdDD_ok (show mkIdDD m u false = .ok k1 from h1)
    simp only [Matern.applyDD, Bool.false_eq_true, not_false_iff, and_self, if_true] at h2
    split_ifs at h2 with hd
    · simp only [mkUniDDDD, hd, ne_eq, not_true, if_false, Except.ok.injEq] at h2
      subst h2
      exact ⟨rfl, rfl⟩
    · rw [mkDDDD] at h2
      cases ha : divMono (derivPoly m.p 1).neg 1 with
      | error e => rw [ha] at h2; cases h2
      | ok p1 =>
        rw [ha] at h2
        cases hb : divMono ((derivPoly m.p 2).add p1) 2 with
        | error e => simp only [bind, Except.bind, hb] at h2; cases h2
        | ok p2 =>
          simp only [bind, Except.bind, hb, Except.ok.injEq] at h2
          subst h2
          exact ⟨rfl, rfl⟩
  have hwl : ∀ w k1 k2, Matern.applyWL w false (.matern m) = .ok k1 → Matern.applyWL w true k1 = .ok k2 → mkSwap k2 = k2 ∧ parOf k2 = m := by
    intro w k1 k2 h1 h2
    have hd := (Matern.applyWL_inv h1).1
    simp only [Matern.applyWL, mkIdWL, hd, if_true, ne_eq, not_true, if_false, Except.ok.injEq] at h1
    subst h1
    simp only [Matern.applyWL, mkWLWL, hd, if_true, ne_eq, not_true, if_false, Bool.false_eq_true, not_false_iff, and_self, Except.ok.injEq] at h2
    subst h2
    exact ⟨rfl, rfl⟩
  cases L with
  | dd u => exact hdd _ _ _ h1 h2
  | wl w => exact hwl _ _ _ h1 h2
  | pd n =>
    have h2 : Matern.applyPD n true k1 = .ok k2 := h2
    rcases Matern.applyPD_inv (show Matern.applyPD n false (.matern m) = .ok k1 from h1) with ⟨rfl, rfl⟩ | ⟨rfl, hd, e1⟩ | ⟨rfl, hd, e1⟩
    · rcases Matern.applyPD_inv h2 with ⟨-, rfl⟩ | ⟨h, -⟩ | ⟨h, -⟩
      · exact ⟨rfl, rfl⟩
      · cases h
      · cases h
    · rcases Matern.applyPD_inv h2 with ⟨h, -⟩ | ⟨-, -, e2⟩ | ⟨h, -⟩
      · cases h
      · exact hdd _ _ _ e1 e2
      · cases h
    · rcases Matern.applyPD_inv h2 with ⟨h, -⟩ | ⟨h, -⟩ | ⟨-, -, e2⟩
      · cases h
      · cases h
      · exact hwl _ _ _ e1 e2

/-- C90: the same for half-integer Matérn kernels with `ν` greater than the order of the operator. -/
theorem matern_operator_gram (hT : ∀ n, (T n).Full) {m : Par d} {L : DOp d} {k1 k2 : MK d} (hL : L.order ≤ m.p)
    (h1 : Matern.apply L false (.matern m) = .ok k1) (h2 : Matern.apply L true k1 = .ok k2) (hs : ∀ i, F.Near a (s i) (m.s i))
    {n : ℕ} (x : Fin n → Fin d → ℝ) {ε M τ : ℝ} (h0 : 0 ≤ τ)
    (hε : ∀ i j, let r := Matern.norm (sdiff m.s (x i) (x j))
      ((1 + F.u) ^ (4 * a + 2 * d + 10 + (2 * degOf k2 + 1 + degOf k2 * (d + a + 3))) * ((1 + F.v) * Real.exp (((1 + F.u) ^ (d + a + 3) - 1) * r)) - 1) *
        (mkMag k2 (x i) (x j) * Real.exp (-r)) ≤ ε)
    (hM : ∀ i j, mkMag k2 (x i) (x j) * Real.exp (-Matern.norm (sdiff m.s (x i) (x j))) ≤ M) (hτ : n * (ε + F.u * (M + ε + τ)) < τ) :
    (Matrix.of fun i j => F.rd (mkFl F T s k2 (x i) (x j) + if i = j then τ else 0)).PosDef := by
  obtain ⟨e1, e2⟩ := mk_apply_same h1 h2
  refine gram_cl (PosDef.matern_derivative_psd hL h1 h2) (fun x y => ?_) x (fun i j => ?_) h0 hε hM hτ
  · have := matern_deriv_swap (F := F) (T := T) (s := s) k2 y x
    rw [e1, mk_trees e1] at this
    exact this
  · have := mk_cl hT k2 (by rw [e2]; exact hs) (x i) (x j)
    rwa [e2] at this

/-! ## One dimension -/

/-- C90: in one dimension the first derivative of the squared exponential has a small relative error; if the error factor is below two its
sign is right. -/
theorem expquad_first_relative {T : ℕ → Tree (Fin 1)} (hu : F.u ≤ 1 / 2) (hT : ∀ n, (T n).Full) (l dir : Fin 1 → ℝ) (r : Bool) (s x y : Fin 1 → ℝ) :
    let E := (1 + F.u) ^ 26 * ((1 + F.v) * Real.exp (((1 + F.u) ^ 6 - 1) * ((x 0 - y 0) / l 0) ^ 2 / 2)) - 1
    let k : EK 1 := .idDD l dir r
    |ekFl F T s k x y - k.eval x y| ≤ E * |k.eval x y| ∧ (E < 1 → 0 < k.eval x y → 0 < ekFl F T s k x y) ∧ (E < 1 → k.eval x y < 0 → ekFl F T s k x y < 0) := by
  intro E k
  have h := (ek_cl (a := 0) hu hT k (s := fun i => sf l i) (fun i => near_refl F 0 _) x y).err
  have eq : ∑ i, (sf (lens k) i * (x i - y i)) ^ 2 = ((x 0 - y 0) / l 0) ^ 2 / 2 := by
    show ∑ i, (sf l i * (x i - y i)) ^ 2 = _
    rw [half_sq, Fin.sum_univ_one]
    ring
  have em : ekMag k x y * Real.exp (-∑ i, (sf (lens k) i * (x i - y i)) ^ 2) = |k.eval x y| := by
    have e : k.eval x y = dot (fun i => if r then -(dir i / l i ^ 2) else dir i / l i ^ 2) (fun i => x i - y i) *
        Real.exp (-∑ i, (sf l i * (x i - y i)) ^ 2) := by
      rw [half_sq, ← neg_mul]
      rfl
    rw [e, abs_mul, abs_of_pos (Real.exp_pos _)]
    congr 1
    show adot (fun i => dir i / l i ^ 2) (fun i => x i - y i) = _
    rw [adot, dot, Fin.sum_univ_one, Fin.sum_univ_one, abs_mul]
    cases r <;> simp
  have h1 : |ekFl F T s k x y - k.eval x y| ≤ E * |k.eval x y| := by
    rw [em] at h
    refine le_of_le_of_eq h ?_
    rw [eq, Fmt.gf, ← mul_div_assoc]
  refine ⟨h1, fun hE hk => ?_, fun hE hk => ?_⟩
  · rw [abs_of_pos hk, abs_le] at h1
    nlinarith [h1.1]
  · rw [abs_of_neg hk, abs_le] at h1
    nlinarith [h1.2]

end LinPDE.Rounding
