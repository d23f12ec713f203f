import Verif.Rounding.UpdateModel
import Verif.Rounding.Binary

/-!
# C86: repeated conditioning adds the errors of its steps
-/

namespace LinPDE.Rounding
open Finset Matrix LinPDE.GP LinPDE.Block

section
variable {F : Fmt} {α β : Type} [Fintype α] [Fintype β] [DecidableEq α]

lemma fl_dot {t : Tree β} (ht : t.Full) (b y : β → ℝ) :
    |t.fl F (fun j => F.rd (b j * y j)) - ∑ j, b j * y j| ≤ ((1 + F.u) ^ Fintype.card β - 1) * ∑ j, |b j| * |y j| := by
  have hpos : 0 < Fintype.card β := by rw [← ht.length]; exact t.leaves_pos
  obtain ⟨θ, h1, h2⟩ := ht.fl_eq F fun i => F.rd (b i * y i)
  choose η hη eη using fun i => rd_fac F (b i * y i)
  have e1 : t.fl F (fun j => F.rd (b j * y j)) - ∑ j, b j * y j = ∑ j, (θ j * η j - 1) * (b j * y j) := by
    rw [h2, ← sum_sub_distrib]
    exact sum_congr rfl fun j _ => by rw [eη]; ring
  rw [e1, mul_sum]
  refine (abs_sum_le_sum_abs _ _).trans (sum_le_sum fun i _ => ?_)
  rw [abs_mul, abs_mul]
  exact mul_le_mul_of_nonneg_right (fac_abs (((h1 i).mul (hη i)).mono (by omega))) (by positivity)

lemma sumFl_dot {t : Option (Tree β)} (ht : FullOpt t) (b y : β → ℝ) :
    |sumFl F (fun j => F.rd (b j * y j)) t - ∑ j, b j * y j| ≤ ((1 + F.u) ^ Fintype.card β - 1) * ∑ j, |b j| * |y j| := by
  cases t with
  | none =>
    have : IsEmpty β := ht
    simp [sumFl]
  | some t => exact fl_dot ht b y

lemma sumFl_sub {t : Option (Tree β)} (ht : FullOpt t) (v : ℝ) (b y : β → ℝ) :
    |F.rd (v - sumFl F (fun j => F.rd (b j * y j)) t) - (v - ∑ j, b j * y j)| ≤ ((1 + F.u) ^ (Fintype.card β + 1) - 1) * (|v| + ∑ j, |b j| * |y j|) := by
  cases t with
  | none =>
    have : IsEmpty β := ht
    simpa [sumFl] using F.err v
  | some t => exact postCov_num (F := F) ht v b y

lemma sum_mulVec_le {ι κ : Type} [Fintype ι] [Fintype κ] (M : Matrix ι κ ℝ) {x b : κ → ℝ} (h : ∀ j, |x j| ≤ b j) :
    ∑ i, |(M *ᵥ x) i| ≤ ∑ j, (∑ i, |M i j|) * b j := by
  have h1 : ∀ i, |(M *ᵥ x) i| ≤ ∑ j, |M i j| * b j := fun i => by
    refine (abs_sum_le_sum_abs _ _).trans (sum_le_sum fun j _ => ?_)
    rw [abs_mul]
    exact mul_le_mul_of_nonneg_left (h j) (abs_nonneg _)
  refine (sum_le_sum fun i _ => h1 i).trans (le_of_eq ?_)
  rw [sum_comm]
  exact sum_congr rfl fun j _ => (sum_mul _ _ _).symm

/-- C86: the residual of the weights returned by `schur_update` in floating point is at most the residual of the weights passed to it plus the
errors of this step.  The errors made before are not amplified. -/
theorem update_residual {tC : Option (Tree α)} {tB : Option (Tree β)} (hC : FullOpt tC) (hB : FullOpt tB) (A : Matrix α α ℝ) (hA : IsUnit A.det) (B : Matrix α β ℝ)
    (C : Matrix β α ℝ) (D : Matrix β β ℝ) (solveS : (β → ℝ) → β → ℝ) (solveA : (α → ℝ) → α → ℝ) (w u : α → ℝ) (v : β → ℝ) :
    ∑ i, |(fromBlocks A B C D *ᵥ updateFl F tC tB B C solveS solveA w v) i - Sum.elim u v i| ≤
      ∑ i, |(A *ᵥ w) i - u i| + stepErr F tC tB A B C D solveS solveA w v := by
  set r := updRhs F tC C w v with hr
  set y := solveS r with hy
  set t := updBy F tB B y with ht
  set z := solveA t with hz
  have hx : updateFl F tC tB B C solveS solveA w v = Sum.elim (fun i => F.rd (w i - z i)) y := rfl
  -- the three rounding errors
  obtain ⟨ε, hε⟩ : ∃ ε : α → ℝ, ∀ i, ε i = F.rd (w i - z i) - (w i - z i) := ⟨_, fun _ => rfl⟩
  have hεb : ∀ i, |ε i| ≤ F.u * |w i - z i| := fun i => by rw [hε]; exact F.err _
  obtain ⟨η, hη⟩ : ∃ η : β → ℝ, ∀ i, η i = r i - (v i - ∑ j, C i j * w j) := ⟨_, fun _ => rfl⟩
  have hηb : ∀ i, |η i| ≤ ((1 + F.u) ^ (Fintype.card α + 1) - 1) * (|v i| + ∑ j, |C i j| * |w j|) := fun i => by
    rw [hη]; exact sumFl_sub hC (v i) (fun j => C i j) w
  obtain ⟨θ, hθ⟩ : ∃ θ : α → ℝ, θ = A *ᵥ z - B *ᵥ y := ⟨_, rfl⟩
  have hθb : ∀ j, |θ j| ≤ |(A *ᵥ z) j - t j| + ((1 + F.u) ^ Fintype.card β - 1) * ∑ i, |B j i| * |y i| := fun j => by
    have e : θ j = ((A *ᵥ z) j - t j) + (t j - ∑ i, B j i * y i) := by
      rw [hθ]; simp only [Pi.sub_apply]; rw [show (B *ᵥ y) j = ∑ i, B j i * y i from rfl]; ring
    rw [e]
    exact (abs_add_le _ _).trans (add_le_add le_rfl (sumFl_dot hB _ _))
  have hxw : (fun i => F.rd (w i - z i)) = w - z + ε := by
    funext i
    simp only [Pi.add_apply, Pi.sub_apply, hε]
    ring
  have hzz : z = A⁻¹ *ᵥ (B *ᵥ y) + A⁻¹ *ᵥ θ := by
    rw [← mulVec_add, hθ, add_sub_cancel, mulVec_mulVec, nonsing_inv_mul A hA, one_mulVec]
  have r1 : ∀ i, (fromBlocks A B C D *ᵥ updateFl F tC tB B C solveS solveA w v) (Sum.inl i) - u i =
      ((A *ᵥ w) i - u i) + (-θ i + (A *ᵥ ε) i) := fun i => by
    rw [hx, fromBlocks_mulVec, Sum.elim_inl]
    simp only [Pi.add_apply]
    rw [show (Sum.elim (fun i => F.rd (w i - z i)) y ∘ Sum.inl) = w - z + ε from hxw, show (Sum.elim (fun i => F.rd (w i - z i)) y ∘ Sum.inr) = y from rfl,
      mulVec_add, mulVec_sub, hθ]
    simp only [Pi.add_apply, Pi.sub_apply]
    ring
  have r2 : ∀ i, (fromBlocks A B C D *ᵥ updateFl F tC tB B C solveS solveA w v) (Sum.inr i) - v i =
      (((D - C * A⁻¹ * B) *ᵥ y) i - r i) + η i + (-((C * A⁻¹) *ᵥ θ) i + (C *ᵥ ε) i) := fun i => by
    rw [hx, fromBlocks_mulVec, Sum.elim_inr]
    simp only [Pi.add_apply]
    rw [show (Sum.elim (fun i => F.rd (w i - z i)) y ∘ Sum.inl) = w - z + ε from hxw, show (Sum.elim (fun i => F.rd (w i - z i)) y ∘ Sum.inr) = y from rfl,
      mulVec_add, mulVec_sub, hzz, mulVec_add, mulVec_mulVec, mulVec_mulVec, mulVec_mulVec, sub_mulVec, hη, Matrix.mul_assoc]
    simp only [Pi.add_apply, Pi.sub_apply]
    rw [show (C *ᵥ w) i = ∑ j, C i j * w j from rfl]
    ring
  rw [Fintype.sum_sum_type]
  simp only [Sum.elim_inl, Sum.elim_inr, r1, r2]
  have b1 : ∑ i, |(A *ᵥ w) i - u i + (-θ i + (A *ᵥ ε) i)| ≤ ∑ i, |(A *ᵥ w) i - u i| + (∑ i, |θ i| + ∑ i, |(A *ᵥ ε) i|) := by
    rw [← sum_add_distrib, ← sum_add_distrib]
    refine sum_le_sum fun i _ => (abs_add_le _ _).trans (add_le_add le_rfl ((abs_add_le _ _).trans ?_))
    rw [abs_neg]
  have b2 : ∑ i, |((D - C * A⁻¹ * B) *ᵥ y) i - r i + η i + (-((C * A⁻¹) *ᵥ θ) i + (C *ᵥ ε) i)| ≤
      ∑ i, (|((D - C * A⁻¹ * B) *ᵥ y) i - r i| + |η i|) + (∑ i, |((C * A⁻¹) *ᵥ θ) i| + ∑ i, |(C *ᵥ ε) i|) := by
    rw [← sum_add_distrib, ← sum_add_distrib]
    refine sum_le_sum fun i _ => (abs_add_le _ _).trans (add_le_add (abs_add_le _ _) ((abs_add_le _ _).trans ?_))
    rw [abs_neg]
  have c1 := sum_mulVec_le A hεb
  have c2 := sum_mulVec_le C hεb
  have c3 := sum_mulVec_le (C * A⁻¹) hθb
  have c4 : ∑ i, |θ i| ≤ _ := sum_le_sum fun i _ => hθb i
  have c5 : ∑ i, (|((D - C * A⁻¹ * B) *ᵥ y) i - r i| + |η i|) ≤ _ := sum_le_sum fun i _ => add_le_add le_rfl (hηb i)
  have e : stepErr F tC tB A B C D solveS solveA w v =
      (∑ i, (|((D - C * A⁻¹ * B) *ᵥ y) i - r i| + ((1 + F.u) ^ (Fintype.card α + 1) - 1) * (|v i| + ∑ j, |C i j| * |w j|))) +
    (∑ j, (1 + ∑ i, |(C * A⁻¹) i j|) * (|(A *ᵥ z) j - t j| + ((1 + F.u) ^ Fintype.card β - 1) * ∑ i, |B j i| * |y i|)) +
    ∑ j, (∑ i, |A i j| + ∑ i, |C i j|) * (F.u * |w j - z j|) := rfl
  rw [e]
  simp only [add_mul (1 : ℝ), add_mul (∑ i, |A i _|), one_mul, sum_add_distrib (f := fun j => |(A *ᵥ z) j - t j| + _), sum_add_distrib (f := fun j => (∑ i, |A i j|) * _)]
  linarith

/-- The same for right-hand sides that have been rounded. -/
lemma update_residual_rd {tC : Option (Tree α)} {tB : Option (Tree β)} (hC : FullOpt tC) (hB : FullOpt tB) (A : Matrix α α ℝ) (hA : IsUnit A.det) (B : Matrix α β ℝ)
    (C : Matrix β α ℝ) (D : Matrix β β ℝ) (solveS : (β → ℝ) → β → ℝ) (solveA : (α → ℝ) → α → ℝ) (w u : α → ℝ) (v : β → ℝ) {r : ℝ}
    (hr : ∑ i, |(A *ᵥ w) i - u i| ≤ r) :
    ∑ i, |(fromBlocks A B C D *ᵥ updateFl F tC tB B C solveS solveA w fun i => F.rd (v i)) i - Sum.elim u v i| ≤
      r + (stepErr F tC tB A B C D solveS solveA w (fun i => F.rd (v i)) + ∑ i, F.u * |v i|) := by
  have key := update_residual (F := F) hC hB A hA B C D solveS solveA w u (fun i => F.rd (v i))
  have h2 : ∑ i, |(fromBlocks A B C D *ᵥ updateFl F tC tB B C solveS solveA w fun i => F.rd (v i)) i - Sum.elim u v i| ≤
      ∑ i, |(fromBlocks A B C D *ᵥ updateFl F tC tB B C solveS solveA w fun i => F.rd (v i)) i - Sum.elim u (fun i => F.rd (v i)) i| +
        ∑ i, F.u * |v i| := by
    rw [Fintype.sum_sum_type, Fintype.sum_sum_type, add_assoc, ← sum_add_distrib]
    refine add_le_add le_rfl (sum_le_sum fun i _ => ?_)
    simp only [Sum.elim_inr]
    refine (abs_sub_le _ (F.rd (v i)) _).trans (add_le_add le_rfl (F.err _))
  linarith

end

variable {X : Type} {P : Prior X}

/-- The residual of the computed weights. -/
noncomputable def FlCond.res (f : FlCond P) : ℝ := ∑ i, |(f.gram.toMat *ᵥ f.wf) i - (f.Ys i - (f.Ls i).1 P.m - f.bs i)|

lemma first_res (F : Fmt) (slv : Solver) (e : Env) (he : e.CholOK) (b : Batch P) (hG : (jG [b]).PosDef) :
    ∃ f, FlCond.fromObservations F slv e b = .ok f ∧ Cond.fromObservations e b = .ok f.toCond ∧ Nonempty (Inv f.toCond [b]) ∧ f.res ≤ f.err := by
  obtain ⟨c, h1, h2⟩ := fromObservations_inv e he b hG
  unfold Cond.fromObservations at h1
  unfold FlCond.fromObservations
  cases hs : b.gramOp.solve e (col fun i => b.Y i - b.predMean i) with
  | error x => rw [hs] at h1; simp [bind, Except.bind] at h1
  | ok w =>
    rw [hs] at h1
    obtain rfl := Except.ok.inj h1
    refine ⟨_, rfl, ?_, h2, ?_⟩
    · unfold Cond.fromObservations
      rw [hs]
      rfl
    · refine le_of_eq ?_
      unfold FlCond.res
      exact sum_congr rfl fun i _ => congrArg (fun t => |_ - t|) (predMean_eq b i).symm

lemma condition_res (F : Fmt) (slv : Solver) {tr : ∀ s : Shape, Option (Tree s.Idx)} (htr : ∀ s, FullOpt (tr s)) (e : Env) (he : e.CholOK) (hP : P.Regular)
    (f : FlCond P) (l : List (Batch P)) (I : Inv f.toCond l) (b : Batch P) (hG : (jG (l ++ [b])).PosDef) (hf : f.res ≤ f.err) :
    ∃ f', f.condition F slv tr e b = .ok f' ∧ f.toCond.condition e b = .ok f'.toCond ∧ Nonempty (Inv f'.toCond (l ++ [b])) ∧ f'.res ≤ f'.err := by
  obtain ⟨c, h1, h2⟩ := condition_inv e he hP f.toCond l I b hG
  have h1' := h1
  set lower : Matrix (Fin b.n) f.s.Idx ℝ := Matrix.of fun i j => (b.L i).1 (f.kLas j) with hlower
  have hmk : mk2x2 f.gram (some lowerᵀ) none b.gramOp true = .ok (.block .spd f.gram lowerᵀ lowerᵀᵀ b.gramOp) := by
    simp [mk2x2, I.flags.1, I.flags.2, gramOp_flags]
  unfold Cond.condition at h1
  simp only at h1
  rw [← hlower, hmk] at h1
  unfold FlCond.condition
  simp only
  rw [← hlower, hmk]
  cases hs : Op.schurUpdate e (Op.block .spd f.gram lowerᵀ lowerᵀᵀ b.gramOp) f.w (col fun i => b.Y i - b.predMean i) with
  | error x => simp [bind, Except.bind, hs] at h1
  | ok w =>
    simp only [bind, Except.bind, hs] at h1
    obtain rfl := Except.ok.inj h1
    refine ⟨_, by simp only [bind, Except.bind, hs]; rfl, h1', h2, ?_⟩
    have hA : IsUnit f.gram.toMat.det := (Matrix.isUnit_iff_isUnit_det _).1 I.spd.valid.isUnit
    obtain ⟨D, hD⟩ : ∃ D : Matrix (Fin b.n) (Fin b.n) ℝ, D = b.gramOp.toMat := ⟨_, rfl⟩
    have key := update_residual_rd (F := F) (htr f.s) (show FullOpt (α := Fin b.n) (tr (.leaf b.n)) from htr (.leaf b.n)) f.gram.toMat hA lowerᵀ lower D
      (slv (.leaf b.n) (D - lower * f.gram.toMat⁻¹ * lowerᵀ)) (slv f.s f.gram.toMat) f.wf
      (fun i => f.Ys i - (f.Ls i).1 P.m - f.bs i) (fun i => b.Y i - b.predMean i) hf
    subst hD
    refine le_trans (le_of_eq ?_) key
    refine sum_congr rfl fun i _ => ?_
    rcases i with i | i
    · rfl
    · exact congrArg (fun t => |_ - t|) (predMean_eq b i).symm

lemma foldlM_res (F : Fmt) (slv : Solver) {tr : ∀ s : Shape, Option (Tree s.Idx)} (htr : ∀ s, FullOpt (tr s)) (e : Env) (he : e.CholOK) (hP : P.Regular) :
    ∀ (l : List (Batch P)) (f : FlCond P) (l0 : List (Batch P)), Nonempty (Inv f.toCond l0) → (jG (l0 ++ l)).PosDef → f.res ≤ f.err →
      ∃ f', l.foldlM (fun c b => c.condition F slv tr e b) f = .ok f' ∧ l.foldlM (fun c b => c.condition e b) f.toCond = .ok f'.toCond ∧ f'.res ≤ f'.err
  | [], f, _, _, _, hf => ⟨f, rfl, rfl, hf⟩
  | b :: l, f, l0, ⟨I⟩, hG, hf => by
    rw [show l0 ++ b :: l = (l0 ++ [b]) ++ l by simp] at hG
    obtain ⟨f1, e1, e2, I1, h1⟩ := condition_res F slv htr e he hP f l0 I b (jG_prefix' hP _ l hG) hf
    obtain ⟨f2, e3, e4, h2⟩ := foldlM_res F slv htr e he hP l f1 (l0 ++ [b]) I1 hG h1
    exact ⟨f2, by rw [List.foldlM_cons, e1]; exact e3, by rw [List.foldlM_cons, e2]; exact e4, h2⟩

/-- C86: a history of any length in floating point succeeds together with the exact one, and the residual of its weights is at most the sum of the
errors of its steps. -/
theorem run_residual (F : Fmt) (slv : Solver) {tr : ∀ s : Shape, Option (Tree s.Idx)} (htr : ∀ s, FullOpt (tr s)) (e : Env) (he : e.CholOK) (hP : P.Regular)
    (b : Batch P) (l : List (Batch P)) (hG : (jG (b :: l)).PosDef) :
    ∃ f, flRun F slv tr e b l = .ok f ∧ run e b l = .ok f.toCond ∧ ∑ i, |(f.gram.toMat *ᵥ f.wf) i - (f.Ys i - (f.Ls i).1 P.m - f.bs i)| ≤ f.err := by
  obtain ⟨f, e1, e2, I, h⟩ := first_res F slv e he b (jG_prefix' hP [b] l hG)
  obtain ⟨f', e3, e4, h'⟩ := foldlM_res F slv htr e he hP l f [b] I hG h
  exact ⟨f', by unfold flRun; rw [e1]; exact e3, by unfold run; rw [e2]; exact e4, h'⟩

/-- C86: the posterior mean evaluated in floating point with the weights of such a history. -/
theorem run_mean (F : Fmt) (slv : Solver) {tr : ∀ s : Shape, Option (Tree s.Idx)} (htr : ∀ s, FullOpt (tr s)) (e : Env) (he : e.CholOK) (hP : P.Regular)
    (b : Batch P) (l : List (Batch P)) (hG : (jG (b :: l)).PosDef) {τ : ℝ} (hτ : 0 < τ) (hN : NoiseAtLeast τ (b :: l)) (f : FlCond P)
    (hf : flRun F slv tr e b l = .ok f) {t : Tree f.s.Idx} (ht : t.Full) (x : X) (m : ℝ) (k : f.s.Idx → ℝ) :
    ∃ v, f.toCond.covfunc e x x = .ok v ∧ v ≤ P.k x x ∧
      |postMean F t m k f.wf - f.toCond.mean x| ≤
        ((1 + F.u) ^ (Fintype.card f.s.Idx + 1) - 1) * (|m| + ∑ i, |k i| * |f.wf i|) + |m - P.m.1 x| + ∑ j, |k j - (f.kLas j).1 x| * |f.wf j| +
          √((P.k x x - v) / τ) * f.err := by
  obtain ⟨f', e1, e2, h⟩ := run_residual F slv htr e he hP b l hG
  obtain rfl : f = f' := by rw [hf] at e1; exact Except.ok.inj e1
  obtain ⟨v, h1, h2⟩ := posterior_mean_error F e he hP b l hG hτ hN f.toCond e2 ht x m k f.wf
  have hv : v ≤ P.k x x := by
    obtain ⟨c', h', -, h3, -⟩ := run_all e he hP b l hG
    obtain rfl : f.toCond = c' := by rw [e2] at h'; exact Except.ok.inj h'
    obtain rfl := Except.ok.inj (h1.symm.trans (h3 x x))
    exact (posterior_le_prior hP _ hG _).trans (le_of_eq (cov_ev hP x x))
  have herr : 0 ≤ f.err := le_trans (sum_nonneg fun i _ => abs_nonneg _) h
  refine ⟨v, h1, hv, h2.trans (add_le_add le_rfl ?_)⟩
  rw [← Real.sqrt_sq herr, ← Real.sqrt_mul (by have := sub_nonneg.2 hv; positivity)]
  refine Real.sqrt_le_sqrt ?_
  have hs : ∑ i, ((f.gram.toMat *ᵥ f.wf) i - (f.Ys i - (f.Ls i).1 P.m - f.bs i)) ^ 2 ≤ f.err ^ 2 := by
    refine le_trans ?_ (pow_le_pow_left₀ (sum_nonneg fun i _ => abs_nonneg _) h 2)
    simp only [← sq_abs (_ - _ : ℝ)]
    exact sum_sq_le_sq_sum_of_nonneg fun i _ => abs_nonneg _
  rw [mul_div_assoc', div_mul_eq_mul_div]
  exact div_le_div_of_nonneg_right (mul_le_mul_of_nonneg_left hs (sub_nonneg.2 hv)) hτ.le

/-! ### Exact arithmetic -/

/-- Linear systems are solved without error. -/
def Solver.Exact (slv : Solver) : Prop := ∀ s (M : Matrix s.Idx s.Idx ℝ) r, IsUnit M.det → M *ᵥ slv s M r = r

lemma stepErr_exact {F : Fmt} (hu : F.u = 0) {α β : Type} [Fintype α] [Fintype β] [DecidableEq α] (tC : Option (Tree α)) (tB : Option (Tree β)) (A : Matrix α α ℝ)
    (B : Matrix α β ℝ) (C : Matrix β α ℝ) (D : Matrix β β ℝ) {solveS : (β → ℝ) → β → ℝ} {solveA : (α → ℝ) → α → ℝ}
    (hS : ∀ r, (D - C * A⁻¹ * B) *ᵥ solveS r = r) (hA : ∀ r, A *ᵥ solveA r = r) (w : α → ℝ) (v : β → ℝ) :
    stepErr F tC tB A B C D solveS solveA w v = 0 := by
  simp [stepErr, hu, hS, hA]

lemma condition_exact {F : Fmt} (hu : F.u = 0) {slv : Solver} (hs : slv.Exact) (tr : ∀ s : Shape, Option (Tree s.Idx)) (e : Env)
    (f f' : FlCond P) (l : List (Batch P)) (I : Inv f.toCond l) (b : Batch P) (h : f.condition F slv tr e b = .ok f')
    (I' : Inv f'.toCond (l ++ [b])) (hf : f.err = 0) : f'.err = 0 := by
  set lower : Matrix (Fin b.n) f.s.Idx ℝ := Matrix.of fun i j => (b.L i).1 (f.kLas j) with hlower
  have hmk : mk2x2 f.gram (some lowerᵀ) none b.gramOp true = .ok (.block .spd f.gram lowerᵀ lowerᵀᵀ b.gramOp) := by
    simp [mk2x2, I.flags.1, I.flags.2, gramOp_flags]
  unfold FlCond.condition at h
  simp only at h
  rw [← hlower, hmk] at h
  cases hw : Op.schurUpdate e (Op.block .spd f.gram lowerᵀ lowerᵀᵀ b.gramOp) f.w (col fun i => b.Y i - b.predMean i) with
  | error x => simp [bind, Except.bind, hw] at h
  | ok w =>
    simp only [bind, Except.bind, hw] at h
    obtain rfl := Except.ok.inj h
    have hA : IsUnit f.gram.toMat.det := (Matrix.isUnit_iff_isUnit_det _).1 I.spd.valid.isUnit
    obtain ⟨D, hD⟩ : ∃ D : Matrix (Fin b.n) (Fin b.n) ℝ, D = b.gramOp.toMat := ⟨_, rfl⟩
    have hG : IsUnit (fromBlocks f.gram.toMat lowerᵀ lower D).det := by
      subst hD
      exact (Matrix.isUnit_iff_isUnit_det _).1 I'.spd.valid.isUnit
    have hS : IsUnit (D - lower * f.gram.toMat⁻¹ * lowerᵀ).det := by
      have := Matrix.invertibleOfIsUnitDet _ hA
      rw [det_fromBlocks₁₁, invOf_eq_nonsing_inv] at hG
      exact isUnit_of_mul_isUnit_right hG
    have h0 := stepErr_exact hu (tr f.s) (show Option (Tree (Fin b.n)) from tr (.leaf b.n)) f.gram.toMat lowerᵀ lower D (solveS := slv (.leaf b.n) (D - lower * f.gram.toMat⁻¹ * lowerᵀ)) (solveA := slv f.s f.gram.toMat)
      (fun r => hs (.leaf b.n) _ r hS) (fun r => hs f.s _ r hA) f.wf (fun i => F.rd (b.Y i - b.predMean i))
    subst hD
    show f.err + (_ + ∑ i, F.u * |b.Y i - b.predMean i|) = 0
    rw [hf, hu]
    simp only [zero_mul, sum_const_zero, add_zero, zero_add]
    exact h0

lemma foldlM_exact {F : Fmt} (hu : F.u = 0) {slv : Solver} (hs : slv.Exact) {tr : ∀ s : Shape, Option (Tree s.Idx)} (htr : ∀ s, FullOpt (tr s)) (e : Env)
    (he : e.CholOK) (hP : P.Regular) :
    ∀ (l : List (Batch P)) (f : FlCond P) (l0 : List (Batch P)), Nonempty (Inv f.toCond l0) → (jG (l0 ++ l)).PosDef → f.res ≤ f.err → f.err = 0 →
      ∀ f', l.foldlM (fun c b => c.condition F slv tr e b) f = .ok f' → f'.err = 0
  | [], f, _, _, _, _, h0, f', h => by
    obtain rfl := Except.ok.inj h
    exact h0
  | b :: l, f, l0, ⟨I⟩, hG, hf, h0, f', h => by
    rw [show l0 ++ b :: l = (l0 ++ [b]) ++ l by simp] at hG
    obtain ⟨f1, e1, e2, ⟨I1⟩, h1⟩ := condition_res F slv htr e he hP f l0 I b (jG_prefix' hP _ l hG) hf
    rw [List.foldlM_cons, e1] at h
    exact foldlM_exact hu hs htr e he hP l f1 (l0 ++ [b]) ⟨I1⟩ hG h1 (condition_exact hu hs tr e f f1 l0 I b e1 I1 h0) f' h

/-- C86: without rounding and with exact solves the bound is zero and the weights are those of the exact history. -/
theorem run_exact {F : Fmt} (hu : F.u = 0) {slv : Solver} (hs : slv.Exact) {tr : ∀ s : Shape, Option (Tree s.Idx)} (htr : ∀ s, FullOpt (tr s)) (e : Env)
    (he : e.CholOK) (hP : P.Regular) (b : Batch P) (l : List (Batch P)) (hG : (jG (b :: l)).PosDef) :
    ∃ f, flRun F slv tr e b l = .ok f ∧ run e b l = .ok f.toCond ∧ f.err = 0 ∧ ∀ i, f.wf i = f.w i () := by
  obtain ⟨f, e1, e2, I, h⟩ := first_res F slv e he b (jG_prefix' hP [b] l hG)
  have h0 : f.err = 0 := by
    unfold FlCond.fromObservations at e1
    cases hw : b.gramOp.solve e (col fun i => b.Y i - b.predMean i) with
    | error x => simp [bind, Except.bind, hw] at e1
    | ok w =>
      obtain ⟨I⟩ := I
      simp only [bind, Except.bind, hw] at e1
      obtain rfl := Except.ok.inj e1
      have hA := (Matrix.isUnit_iff_isUnit_det _).1 I.spd.valid.isUnit
      have := hs (.leaf b.n) b.gramOp.toMat (fun i : Fin b.n => F.rd (b.Y i - b.predMean i)) hA
      show (∑ i : Fin b.n, |(b.gramOp.toMat *ᵥ slv (.leaf b.n) b.gramOp.toMat fun i : Fin b.n => F.rd (b.Y i - b.predMean i)) i - (b.Y i - b.predMean i)| : ℝ) = 0
      refine Finset.sum_eq_zero fun i _ => ?_
      have h1 := F.err (b.Y i - b.predMean i)
      rw [hu, zero_mul] at h1
      exact le_antisymm ((le_of_eq (congrArg (fun t => |t - _|) (congrFun this i))).trans h1) (abs_nonneg _)
  obtain ⟨f', e3, e4, h'⟩ := foldlM_res F slv htr e he hP l f [b] I hG h
  have h0' := foldlM_exact hu hs htr e he hP l f [b] I hG h h0 f' e3
  have hr : run e b l = .ok f'.toCond := by unfold run; rw [e2]; exact e4
  refine ⟨f', by unfold flRun; rw [e1]; exact e3, hr, h0', ?_⟩
  obtain ⟨c, hc, ⟨I'⟩⟩ := run_inv e he hP b l hG
  obtain rfl : f'.toCond = c := by rw [hr] at hc; exact Except.ok.inj hc
  have hA := (Matrix.isUnit_iff_isUnit_det _).1 I'.spd.valid.isUnit
  unfold FlCond.res at h'
  rw [h0'] at h'
  have hs0 := fun i => (sum_eq_zero_iff_of_nonneg (s := univ) (f := fun i => |(f'.gram.toMat *ᵥ f'.wf) i - (f'.Ys i - (f'.Ls i).1 P.m - f'.bs i)|) fun i _ => abs_nonneg _).1
    (le_antisymm h' (sum_nonneg fun _ _ => abs_nonneg _)) i (mem_univ i)
  have hz : ∀ i, (f'.gram.toMat *ᵥ f'.wf) i = (f'.gram.toMat *ᵥ fun j => f'.w j ()) i := by
    intro i
    rw [sub_eq_zero.1 (abs_eq_zero.1 (hs0 i)), I'.r]
    exact (congrFun (congrFun I'.w i) ()).symm
  have hz' : f'.gram.toMat⁻¹ *ᵥ (f'.gram.toMat *ᵥ f'.wf) = f'.gram.toMat⁻¹ *ᵥ (f'.gram.toMat *ᵥ fun j => f'.w j ()) := congrArg _ (funext hz)
  simp only [mulVec_mulVec, nonsing_inv_mul _ hA, one_mulVec] at hz'
  exact fun i => congrFun hz' i

/-- Orders of summation exist. -/
lemma exists_order (ι : Type) [Fintype ι] : ∃ t : Option (Tree ι), FullOpt t := by
  rcases isEmpty_or_nonempty ι with h | h
  · exact ⟨none, h⟩
  have key : ∀ (l : List ι) (i : ι), ∃ t : Tree ι, t.leaves = i :: l := by
    intro l
    induction l with
    | nil => exact fun i => ⟨.leaf i, rfl⟩
    | cons j l ih =>
      intro i
      obtain ⟨t, ht⟩ := ih j
      exact ⟨.node (.leaf i) t, by simp [Tree.leaves, ht]⟩
  classical
  obtain ⟨i, l, hl⟩ : ∃ i l, (univ : Finset ι).toList = i :: l := by
    cases hh : (univ : Finset ι).toList with
    | nil => exact absurd (Finset.toList_eq_nil.1 hh) univ_nonempty.ne_empty
    | cons i l => exact ⟨i, l, rfl⟩
  obtain ⟨t, ht⟩ := key l i
  exact ⟨some t, by rw [ht, ← hl]; exact nodup_toList _, fun j => by rw [ht, ← hl]; simp⟩

/-- Two noisy values in double precision, with an arbitrary solver. -/
example (slv : Solver) : ∃ (e : Env) (tr : ∀ s : Shape, Option (Tree s.Idx)) (f : FlCond (white ℕ)), flRun (bin 52) slv tr e (noisy1 0 3) [noisy1 1 5] = .ok f ∧
    ∀ (t : Tree f.s.Idx), t.Full → ∀ (x : ℕ) (m : ℝ) (k : f.s.Idx → ℝ), ∃ v, f.toCond.covfunc e x x = .ok v ∧ v ≤ 1 ∧
      |postMean (bin 52) t m k f.wf - f.toCond.mean x| ≤ ((1 + (bin 52).u) ^ (Fintype.card f.s.Idx + 1) - 1) * (|m| + ∑ i, |k i| * |f.wf i|) +
        |m - (white ℕ).m.1 x| + ∑ j, |k j - (f.kLas j).1 x| * |f.wf j| + √((1 - v) / 1) * f.err := by
  obtain ⟨e, he, -⟩ := exists_env false false
  choose tr htr using fun s : Shape => exists_order s.Idx
  obtain ⟨f, h1, h2, h3⟩ := run_residual (bin 52) slv htr e he (white_regular ℕ) _ _ noisy_posDef
  refine ⟨e, tr, f, h1, fun t ht x m k => ?_⟩
  have := run_mean (bin 52) slv htr e he (white_regular ℕ) _ _ noisy_posDef one_pos noisy_atLeast f h1 ht x m k
  rwa [show (white ℕ).k x x = 1 from if_pos rfl] at this

/-- Exact solvers exist. -/
example : ∃ slv : Solver, slv.Exact :=
  ⟨fun _ M r => M⁻¹ *ᵥ r, fun _ M r h => by rw [mulVec_mulVec, mul_nonsing_inv _ h, one_mulVec]⟩

end LinPDE.Rounding
