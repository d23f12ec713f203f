import Verif.Rounding.SolveModel
import Verif.Rounding.Factor

/-!
# C91: the posterior mean of a whole history in floating point
-/

namespace LinPDE.Rounding
open Finset Matrix LinPDE.GP LinPDE.Block

/-! ## Matrices near a positive definite one -/

section
variable {ι : Type} [Fintype ι]

lemma quad_entries {A : Matrix ι ι ℝ} {ε : ℝ} (hε : 0 ≤ ε) (hA : ∀ i j, |A i j| ≤ ε) (a : ι → ℝ) :
    |a ⬝ᵥ (A *ᵥ a)| ≤ Fintype.card ι * ε * (a ⬝ᵥ a) := by
  have e1 : a ⬝ᵥ (A *ᵥ a) = ∑ i, ∑ j, a i * (A i j * a j) := sum_congr rfl fun i _ => Finset.mul_sum univ (fun j => A i j * a j) (a i)
  rw [e1]
  refine (abs_sum_le_sum_abs _ _).trans ((sum_le_sum fun i _ => abs_sum_le_sum_abs _ _).trans ?_)
  have h1 : ∀ i j, |a i * (A i j * a j)| ≤ ε * (|a i| * |a j|) := fun i j => by
    rw [abs_mul, abs_mul]
    nlinarith [mul_le_mul_of_nonneg_right (hA i j) (mul_nonneg (abs_nonneg (a i)) (abs_nonneg (a j)))]
  refine (sum_le_sum fun i _ => sum_le_sum fun j _ => h1 i j).trans ?_
  have e2 : ∑ i, ∑ j, ε * (|a i| * |a j|) = ε * (∑ i, |a i|) ^ 2 := by
    rw [sq, sum_mul_sum, mul_sum]
    exact sum_congr rfl fun i _ => (mul_sum _ _ _).symm
  have h2 : (∑ i, |a i|) ^ 2 ≤ Fintype.card ι * ∑ i, |a i| ^ 2 := by
    have := sq_sum_le_card_mul_sum_sq (s := (univ : Finset ι)) (f := fun i => |a i|)
    simpa using this
  have e3 : a ⬝ᵥ a = ∑ i, |a i| ^ 2 := sum_congr rfl fun i _ => by rw [sq_abs, sq]
  rw [e2, e3]
  nlinarith [mul_le_mul_of_nonneg_left h2 hε]

lemma posDef_near {G H : Matrix ι ι ℝ} {τ ε : ℝ} (hε : 0 ≤ ε) (hG : ∀ a, τ * (a ⬝ᵥ a) ≤ a ⬝ᵥ (G *ᵥ a)) (hH : ∀ i j, H i j = H j i)
    (h : ∀ i j, |H i j - G i j| ≤ ε) (hN : Fintype.card ι * ε < τ) : H.PosDef := by
  refine Matrix.PosDef.of_dotProduct_mulVec_pos (Matrix.IsHermitian.ext fun i j => by simp [hH i j]) fun {a} ha => ?_
  have h1 := hG a
  have h2 := quad_entries (A := H - G) hε h a
  have h3 : 0 < a ⬝ᵥ a := by
    obtain ⟨i, hi⟩ := Function.ne_iff.mp ha
    exact sum_pos' (fun i _ => mul_self_nonneg _) ⟨i, mem_univ _, mul_self_pos.mpr hi⟩
  rw [sub_mulVec, dotProduct_sub, abs_le] at h2
  rw [star_trivial]
  nlinarith [h2.1]

end

/-- Operators with the structure of Gram operators. -/
def Like : {s : Shape} → Op s → Prop
  | _, .dense M f => (∀ i j, M i j = M j i) ∧ f.lower = false ∧ f.upper = false
  | _, .block k A B C D => k = .spd ∧ C = Bᵀ ∧ (∀ i j, D.toMat i j = D.toMat j i) ∧ Like A

lemma Like.symm : ∀ {s : Shape} {op : Op s}, Like op → ∀ i j, op.toMat i j = op.toMat j i := by
  intro s op
  induction op with
  | dense M f => exact fun h => h.1
  | @block a b k A B C D ihA _ =>
    rintro ⟨rfl, rfl, hD, hA⟩ i j
    rcases i with i | i <;> rcases j with j | j
    · exact ihA hA i j
    · rfl
    · rfl
    · exact hD i j

lemma Like.spd : ∀ {s : Shape} {op : Op s}, Like op → op.toMat.PosDef → op.Spd := by
  intro s op
  induction op with
  | dense M f => exact fun h hp => ⟨hp, by simp [h.2.1], by simp [h.2.2]⟩
  | @block a b k A B C D ihA _ =>
    rintro ⟨rfl, rfl, hD, hA⟩ hp
    refine ⟨rfl, rfl, hp, ihA hA ?_⟩
    exact hp.submatrix (e := Sum.inl) Sum.inl_injective

/-! ## Both histories in lockstep -/

variable {X α : Type} {P : Prior X}

/-- The exact batch of a call; `L a` is the functional of an address. -/
def FlObs.batch (L : α → P.Λ) (o : FlObs α) : Batch P := ⟨o.n, fun i => L (o.at_ i), some (o.bm, o.bc), o.Y⟩

/-- A call with measurements in `S`, symmetric matrices and noise covariances bounded by `σ`. -/
structure Covered (K : FlKer X α) (S : Set α) (σ : ℝ) (o : FlObs α) : Prop where
  mem : ∀ i, o.at_ i ∈ S
  symm : ∀ i j, K.g (o.at_ i) (o.at_ j) = K.g (o.at_ j) (o.at_ i)
  bsymm : ∀ i j, o.bc i j = o.bc j i
  noise : ∀ i j, |o.bc i j| ≤ σ

/-- The exact and the computed state. -/
structure Both (P : Prior X) (α : Type) where
  c : Cond P
  at_ : c.s.Idx → α
  gram : Op c.s
  w : c.s.Idx → ℝ
  err : ℝ

/-- The computed part. -/
def Both.fl (B : Both P α) : FlSt α := ⟨B.c.s, B.at_, B.gram, B.w, B.c.Ys, B.c.bs, B.err⟩

/-- What holds of both states. -/
structure Both.Ok (F : Fmt) (K : FlKer X α) (L : α → P.Λ) (S : Set α) (δ : ℝ) (l : List (Batch P)) (B : Both P α) : Prop where
  inv : Nonempty (Inv B.c l)
  mem : ∀ i, B.at_ i ∈ S
  Ls : ∀ i, B.c.Ls i = L (B.at_ i)
  like : Like B.gram
  flags : B.gram.flags.symm = true ∧ B.gram.flags.pd = true
  gerr : ∀ i j, |B.gram.toMat i j - B.c.gram.toMat i j| ≤ δ
  res : ∑ i, |(B.gram.toMat *ᵥ B.w) i - rhsFl F (B.c.Ys i) (K.p (B.at_ i)) (B.c.bs i)| ≤ B.err

variable {F : Fmt} {K : FlKer X α} {L : α → P.Λ} {S : Set α} {ε M σ : ℝ}

lemma Both.Ok.posDef {δ τ : ℝ} {l : List (Batch P)} {B : Both P α} (h : B.Ok F K L S δ l) (hP : P.Regular) (hδ : 0 ≤ δ) (hN : NoiseAtLeast τ l)
    (hc : Fintype.card B.c.s.Idx * δ < τ) : B.gram.toMat.PosDef := by
  obtain ⟨I⟩ := h.inv
  refine posDef_near hδ (G := B.c.gram.toMat) ?_ h.like.symm h.gerr hc
  rw [I.gram]
  exact sub_ge I.e (jG_ge hP hN)

lemma gram_err (hg : ∀ a ∈ S, ∀ b ∈ S, |K.g a b - P.cov (L a) (L b)| ≤ ε) (hM : ∀ a ∈ S, ∀ b ∈ S, |P.cov (L a) (L b)| ≤ M) {o : FlObs α}
    (ho : Covered K S σ o) (i j : Fin o.n) :
    |F.rd (K.g (o.at_ i) (o.at_ j) + o.bc i j) - (P.cov (L (o.at_ i)) (L (o.at_ j)) + o.bc i j)| ≤ ε + F.u * (M + ε + σ) := by
  have h1 := hg _ (ho.mem i) _ (ho.mem j)
  have h2 := hM _ (ho.mem i) _ (ho.mem j)
  have h3 := ho.noise i j
  have h4 := F.err (K.g (o.at_ i) (o.at_ j) + o.bc i j)
  set g := K.g (o.at_ i) (o.at_ j)
  set q := P.cov (L (o.at_ i)) (L (o.at_ j))
  have h5 : |g + o.bc i j| ≤ M + ε + σ := by
    rw [abs_le] at h1 h2 h3 ⊢
    constructor <;> linarith [h1.1, h1.2, h2.1, h2.2, h3.1, h3.2]
  have h6 := h4.trans (mul_le_mul_of_nonneg_left h5 F.u_nonneg)
  rw [abs_le] at h1 h6 ⊢
  constructor <;> linarith [h1.1, h1.2, h6.1, h6.2]

/-- Both states after the first call. -/
noncomputable def startBoth (F : Fmt) (slv : Solver) (K : FlKer X α) (L : α → P.Λ) (o : FlObs α) (w : Matrix (Fin o.n) Unit ℝ) : Both P α where
  c := { s := .leaf o.n, kLas := fun i => P.cross ((o.batch L).L i), gram := (o.batch L).gramOp, w := w,
         Ls := (o.batch L).L, Ys := (o.batch L).Y, bs := (o.batch L).bMean }
  at_ := o.at_
  gram := o.gram F K
  w := (FlSt.start F slv K o).w
  err := (FlSt.start F slv K o).err

lemma start_ok (slv : Solver) (e : Env) (he : e.CholOK) (hg : ∀ a ∈ S, ∀ b ∈ S, |K.g a b - P.cov (L a) (L b)| ≤ ε)
    (hM : ∀ a ∈ S, ∀ b ∈ S, |P.cov (L a) (L b)| ≤ M) {o : FlObs α} (ho : Covered K S σ o) (hG : (jG [o.batch L]).PosDef) :
    ∃ B : Both P α, Cond.fromObservations e (o.batch L) = .ok B.c ∧ FlSt.start F slv K o = B.fl ∧ B.Ok F K L S (ε + F.u * (M + ε + σ)) [o.batch L] := by
  obtain ⟨c, h1, ⟨I⟩⟩ := fromObservations_inv e he (o.batch L) hG
  have h1' := h1
  unfold Cond.fromObservations at h1
  cases hs : (o.batch L).gramOp.solve e (col fun i => (o.batch L).Y i - (o.batch L).predMean i) with
  | error x => rw [hs] at h1; simp [bind, Except.bind] at h1
  | ok w =>
    rw [hs] at h1
    obtain rfl := Except.ok.inj h1
    refine ⟨startBoth F slv K L o w, h1', rfl, ⟨⟨I⟩, ho.mem, fun i => rfl, ⟨fun i j => ?_, rfl, rfl⟩, ⟨rfl, rfl⟩, fun i j => ?_, le_rfl⟩⟩
    · show F.rd _ = F.rd _
      rw [ho.symm i j, ho.bsymm i j]
    · exact gram_err hg hM ho i j

lemma step_ok (slv : Solver) {tr : ∀ s : Shape, Option (Tree s.Idx)} (htr : ∀ s, FullOpt (tr s)) (e : Env) (he : e.CholOK) (hP : P.Regular)
    (hg : ∀ a ∈ S, ∀ b ∈ S, |K.g a b - P.cov (L a) (L b)| ≤ ε) (hM : ∀ a ∈ S, ∀ b ∈ S, |P.cov (L a) (L b)| ≤ M) (hσ : 0 ≤ σ) {τ : ℝ}
    {l : List (Batch P)} {B : Both P α} (hB : B.Ok F K L S (ε + F.u * (M + ε + σ)) l) (hN : NoiseAtLeast τ l)
    (hδ : 0 ≤ ε + F.u * (M + ε + σ)) (hc : Fintype.card B.c.s.Idx * (ε + F.u * (M + ε + σ)) < τ)
    {o : FlObs α} (ho : Covered K S σ o) (hG : (jG (l ++ [o.batch L])).PosDef) :
    ∃ B' : Both P α, B.c.condition e (o.batch L) = .ok B'.c ∧ B.fl.step F slv tr K o = .ok B'.fl ∧ B'.Ok F K L S (ε + F.u * (M + ε + σ)) (l ++ [o.batch L]) ∧
      Fintype.card B'.c.s.Idx = Fintype.card B.c.s.Idx + o.n := by
  obtain ⟨I⟩ := hB.inv
  have hpd := hB.posDef hP hδ hN hc
  obtain ⟨c', h1, ⟨I'⟩⟩ := condition_inv e he hP B.c l I (o.batch L) hG
  have h1' := h1
  set low : Matrix (Fin o.n) B.c.s.Idx ℝ := Matrix.of fun i j => ((o.batch L).L i).1 (B.c.kLas j) with hlow
  have hmk : mk2x2 B.c.gram (some lowᵀ) none (o.batch L).gramOp true = .ok (.block .spd B.c.gram lowᵀ lowᵀᵀ (o.batch L).gramOp) := by
    simp [mk2x2, I.flags.1, I.flags.2, gramOp_flags]
  unfold Cond.condition at h1
  simp only at h1
  rw [show (Matrix.of fun i j => ((o.batch L).L i).1 (B.c.kLas j) : Matrix (Fin (o.batch L).n) B.c.s.Idx ℝ) = low from rfl, hmk] at h1
  cases hs : Op.schurUpdate e (Op.block .spd B.c.gram lowᵀ lowᵀᵀ (o.batch L).gramOp) B.c.w (col fun i => (o.batch L).Y i - (o.batch L).predMean i) with
  | error x => simp [bind, Except.bind, hs] at h1
  | ok w =>
    simp only [bind, Except.bind, hs] at h1
    obtain rfl := Except.ok.inj h1
    set lf : Matrix (Fin o.n) B.c.s.Idx ℝ := Matrix.of fun i j => K.g (o.at_ i) (B.at_ j) with hlf
    have hmkf : mk2x2 B.gram (some lfᵀ) none (o.gram F K) true = .ok (.block .spd B.gram lfᵀ lfᵀᵀ (o.gram F K)) := by
      have h1 : (o.gram F K).flags.symm = true := rfl
      have h2 : (o.gram F K).flags.pd = true := rfl
      simp [mk2x2, hB.flags.1, hB.flags.2, h1, h2]
    obtain ⟨D, hD⟩ : ∃ D : Matrix (Fin o.n) (Fin o.n) ℝ, D = (o.gram F K).toMat := ⟨_, rfl⟩
    set r : Fin o.n → ℝ := fun i => rhsFl F (o.Y i) (K.p (o.at_ i)) (o.bm i) with hr
    have hA : IsUnit B.gram.toMat.det := (Matrix.isUnit_iff_isUnit_det _).1 hpd.isUnit
    have key := update_residual (F := F) (htr B.c.s) (show FullOpt (α := Fin o.n) (tr (.leaf o.n)) from htr (.leaf o.n)) B.gram.toMat hA lfᵀ lf D
      (slv (.leaf o.n) (D - lf * B.gram.toMat⁻¹ * lfᵀ)) (slv B.c.s B.gram.toMat) B.w
      (fun i => rhsFl F (B.c.Ys i) (K.p (B.at_ i)) (B.c.bs i)) r
    have hlower : ∀ i j, |lf i j - low i j| ≤ ε := fun i j => by
      have e1 : low i j = P.cov (L (o.at_ i)) (L (B.at_ j)) := by
        show (L (o.at_ i)).1 (B.c.kLas j) = _
        rw [I.kLas, ← hB.Ls, I.Ls]
        rfl
      rw [e1]
      exact hg _ (ho.mem i) _ (hB.mem j)
    have hle : ∀ i j, |lf i j - low i j| ≤ ε + F.u * (M + ε + σ) := fun i j => by
      have h0 := (abs_nonneg _).trans (hlower i j)
      have h1 := (abs_nonneg _).trans (hM _ (ho.mem i) _ (hB.mem j))
      have := mul_nonneg F.u_nonneg (by linarith : 0 ≤ M + ε + σ)
      linarith [hlower i j]
    refine ⟨⟨{ s := .node B.c.s (.leaf o.n), kLas := Sum.elim B.c.kLas fun i => P.cross ((o.batch L).L i),
               gram := .block .spd B.c.gram lowᵀ lowᵀᵀ (o.batch L).gramOp, w := w, Ls := Sum.elim B.c.Ls (o.batch L).L,
               Ys := Sum.elim B.c.Ys (o.batch L).Y, bs := Sum.elim B.c.bs (o.batch L).bMean }, Sum.elim B.at_ o.at_, .block .spd B.gram lfᵀ lfᵀᵀ (o.gram F K),
      updateFl F (tr B.c.s) (show Option (Tree (Fin o.n)) from tr (.leaf o.n)) lfᵀ lf (slv (.leaf o.n) (D - lf * B.gram.toMat⁻¹ * lfᵀ)) (slv B.c.s B.gram.toMat) B.w r,
      B.err + stepErr F (tr B.c.s) (show Option (Tree (Fin o.n)) from tr (.leaf o.n)) B.gram.toMat lfᵀ lf D
        (slv (.leaf o.n) (D - lf * B.gram.toMat⁻¹ * lfᵀ)) (slv B.c.s B.gram.toMat) B.w r⟩, h1', ?_, ⟨⟨I'⟩, ?_, ?_, ?_, ⟨rfl, rfl⟩, ?_, ?_⟩, ?_⟩
    · unfold FlSt.step
      simp only
      subst hD
      rw [show (Matrix.of fun i j => K.g (o.at_ i) (B.fl.at_ j) : Matrix (Fin o.n) B.fl.s.Idx ℝ) = lf from rfl, show B.fl.gram = B.gram from rfl]
      erw [hmkf]
      rfl
    · rintro (i | i)
      · exact hB.mem i
      · exact ho.mem i
    · rintro (i | i)
      · exact hB.Ls i
      · rfl
    · refine ⟨rfl, rfl, fun i j => ?_, hB.like⟩
      show F.rd _ = F.rd _
      rw [ho.symm i j, ho.bsymm i j]
    · rintro (i | i) (j | j)
      · exact hB.gerr i j
      · exact hle j i
      · exact hle i j
      · exact gram_err hg hM ho i j
    · subst hD
      refine le_trans (le_of_eq ?_) (key.trans (add_le_add hB.res le_rfl))
      refine sum_congr rfl fun i _ => ?_
      rcases i with i | i <;> rfl
    · show Fintype.card (B.c.s.Idx ⊕ Fin o.n) = _
      rw [Fintype.card_sum, Fintype.card_fin]

lemma fold_ok (slv : Solver) {tr : ∀ s : Shape, Option (Tree s.Idx)} (htr : ∀ s, FullOpt (tr s)) (e : Env) (he : e.CholOK) (hP : P.Regular)
    (hg : ∀ a ∈ S, ∀ b ∈ S, |K.g a b - P.cov (L a) (L b)| ≤ ε) (hM : ∀ a ∈ S, ∀ b ∈ S, |P.cov (L a) (L b)| ≤ M) (hσ : 0 ≤ σ) {τ : ℝ}
    (hδ : 0 ≤ ε + F.u * (M + ε + σ)) :
    ∀ (os : List (FlObs α)) (B : Both P α) (l : List (Batch P)), B.Ok F K L S (ε + F.u * (M + ε + σ)) l → (∀ o ∈ os, Covered K S σ o) →
      NoiseAtLeast τ (l ++ os.map (FlObs.batch L)) → (jG (l ++ os.map (FlObs.batch L))).PosDef →
      ((Fintype.card B.c.s.Idx + (os.map FlObs.n).sum : ℕ) : ℝ) * (ε + F.u * (M + ε + σ)) < τ →
      ∃ B' : Both P α, (os.map (FlObs.batch L)).foldlM (fun c b => c.condition e b) B.c = .ok B'.c ∧
        os.foldlM (fun c o => c.step F slv tr K o) B.fl = .ok B'.fl ∧ B'.Ok F K L S (ε + F.u * (M + ε + σ)) (l ++ os.map (FlObs.batch L)) ∧
        Fintype.card B'.c.s.Idx = Fintype.card B.c.s.Idx + (os.map FlObs.n).sum
  | [], B, l, hB, _, _, _, _ => ⟨B, rfl, rfl, by simpa using hB, by simp⟩
  | o :: os, B, l, hB, hC, hN, hG, hc => by
    rw [List.map_cons, show l ++ o.batch L :: os.map (FlObs.batch L) = (l ++ [o.batch L]) ++ os.map (FlObs.batch L) by simp] at hG hN ⊢
    have hle : (Fintype.card B.c.s.Idx : ℝ) * (ε + F.u * (M + ε + σ)) < τ :=
      lt_of_le_of_lt (mul_le_mul_of_nonneg_right (by exact_mod_cast Nat.le_add_right _ _) hδ) hc
    obtain ⟨B1, e1, e2, h1, h2⟩ := step_ok slv htr e he hP hg hM hσ hB (fun b hb => hN b (by simp [hb])) hδ hle (hC o (by simp)) (jG_prefix' hP _ _ hG)
    obtain ⟨B2, e3, e4, h3, h4⟩ := fold_ok slv htr e he hP hg hM hσ hδ os B1 (l ++ [o.batch L]) h1 (fun o' h => hC o' (by simp [h])) hN hG
      (by rw [h2, add_assoc]; simpa [List.sum_cons] using hc)
    refine ⟨B2, by rw [List.foldlM_cons, e1]; exact e3, by rw [List.foldlM_cons, e2]; exact e4, h3, ?_⟩
    rw [h4, h2, List.map_cons, List.sum_cons, add_assoc]

/-! ## The right-hand sides and the mean -/

lemma rhsFl_err (F : Fmt) (y p b q : ℝ) : |rhsFl F y p b - (y - q - b)| ≤ gam F 2 * (|y| + |p| + |b|) + |p - q| := by
  have h1 := F.err (p + b)
  have h2 := F.err (y - F.rd (p + b))
  have h3 := abs_add_le p b
  have hu := F.u_nonneg
  set z := F.rd (p + b)
  have h4 : |z| ≤ (1 + F.u) * (|p| + |b|) := by
    have : |z| ≤ |z - (p + b)| + |p + b| := by simpa using abs_add_le (z - (p + b)) (p + b)
    nlinarith [mul_le_mul_of_nonneg_left h3 hu]
  have h5 : |y - z| ≤ |y| + (1 + F.u) * (|p| + |b|) := (abs_sub _ _).trans (add_le_add le_rfl h4)
  have e : rhsFl F y p b - (y - q - b) = (F.rd (y - z) - (y - z)) + (-(z - (p + b)) + (q - p)) := by unfold rhsFl; ring
  have e2 : gam F 2 = 2 * F.u + F.u ^ 2 := by unfold gam; ring
  rw [e]
  refine (abs_add_le _ _).trans ?_
  have h6 : |-(z - (p + b)) + (q - p)| ≤ F.u * (|p| + |b|) + |p - q| := by
    refine (abs_add_le _ _).trans ?_
    rw [abs_neg, abs_sub_comm q p]
    nlinarith [mul_le_mul_of_nonneg_left h3 hu]
  rw [e2]
  nlinarith [mul_le_mul_of_nonneg_left h5 hu, abs_nonneg y, abs_nonneg p, abs_nonneg b, mul_nonneg hu (abs_nonneg y), mul_nonneg (mul_nonneg hu hu) (abs_nonneg y)]

lemma card_le_sum {ι : Type} [Fintype ι] {A : Matrix ι ι ℝ} {δ : ℝ} (hA : ∀ i j, |A i j| ≤ δ) (w : ι → ℝ) :
    ∑ i, |(A *ᵥ w) i| ≤ Fintype.card ι * δ * ∑ j, |w j| := by
  have h : ∀ i, |(A *ᵥ w) i| ≤ δ * ∑ j, |w j| := fun i => by
    rw [mul_sum]
    exact (abs_sum_le_sum_abs _ _).trans (sum_le_sum fun j _ => by rw [abs_mul]; exact mul_le_mul_of_nonneg_right (hA i j) (abs_nonneg _))
  refine (sum_le_sum fun i _ => h i).trans (le_of_eq ?_)
  rw [sum_const, card_univ, nsmul_eq_mul]
  ring

/-- The exact joint covariance matrix. -/
lemma history_gram (hP : P.Regular) {L : α → P.Λ} {τ : ℝ} (hτ : 0 < τ) {o : FlObs α} {os : List (FlObs α)} (hb : ∀ o' ∈ o :: os, ∀ i j, o'.bc i j = o'.bc j i)
    (hN : NoiseAtLeast τ ((o :: os).map (FlObs.batch L))) : (jG (o.batch L :: os.map (FlObs.batch L))).PosDef := by
  have hH : ∀ i j, jG (o.batch L :: os.map (FlObs.batch L)) i j = jG (o.batch L :: os.map (FlObs.batch L)) j i := fun i j => by
    have h1 := blk_symm (fun b : Batch P => b.n) (fun b => b.noiseCov) (o.batch L :: os.map (FlObs.batch L)) (fun b hbm => by
      obtain ⟨o', ho', rfl⟩ : ∃ o' ∈ o :: os, o'.batch L = b := by simpa [eq_comm] using hbm
      exact Matrix.IsHermitian.ext fun i j => hb o' ho' j i)
    have h2 : jN (o.batch L :: os.map (FlObs.batch L)) i j = jN (o.batch L :: os.map (FlObs.batch L)) j i := h1.apply j i
    show P.cov _ _ + jN _ i j = P.cov _ _ + jN _ j i
    rw [hP.symm, h2]
  exact posDef_near le_rfl (jG_ge hP hN) hH (fun i j => by simp) (by simpa using hτ)

/-- C91: a history of any length on floats succeeds, its Gram matrix is positive definite, and its posterior mean is near the one of the exact history. -/
theorem history_mean (F : Fmt) (slv : Solver) {tr : ∀ s : Shape, Option (Tree s.Idx)} (htr : ∀ s, FullOpt (tr s)) (e : Env) (he : e.CholOK) (hP : P.Regular)
    (K : FlKer X α) (L : α → P.Λ) (S : Set α) {ε M σ τ : ℝ} (hε : 0 ≤ ε) (hM0 : 0 ≤ M) (hσ : 0 ≤ σ) (hτ : 0 < τ)
    (hg : ∀ a ∈ S, ∀ b ∈ S, |K.g a b - P.cov (L a) (L b)| ≤ ε) (hM : ∀ a ∈ S, ∀ b ∈ S, |P.cov (L a) (L b)| ≤ M)
    (o : FlObs α) (os : List (FlObs α)) (hC : ∀ o' ∈ o :: os, Covered K S σ o') (hN : NoiseAtLeast τ ((o :: os).map (FlObs.batch L)))
    (hc : (((o :: os).map FlObs.n).sum : ℝ) * (ε + F.u * (M + ε + σ)) < τ) :
    ∃ f c, FlSt.run F slv tr K o os = .ok f ∧ run e (o.batch L) (os.map (FlObs.batch L)) = .ok c ∧ f.gram.toMat.PosDef ∧
      (∀ i, f.at_ i ∈ S) ∧ Fintype.card f.s.Idx = ((o :: os).map FlObs.n).sum ∧ ∀ (t : Tree f.s.Idx), t.Full → ∀ x, ∃ v, c.covfunc e x x = .ok v ∧ v ≤ P.k x x ∧
        |f.mean F K t x - c.mean x| ≤
          gam F (Fintype.card f.s.Idx + 1) * (|K.m x| + ∑ j, |K.k x (f.at_ j)| * |f.w j|) + |K.m x - P.m.1 x| +
            ∑ j, |K.k x (f.at_ j) - (P.cross (L (f.at_ j))).1 x| * |f.w j| +
            √((P.k x x - v) / τ) * (f.err + Fintype.card f.s.Idx * (ε + F.u * (M + ε + σ)) * ∑ j, |f.w j| +
              ∑ i, (gam F 2 * (|f.Y i| + |K.p (f.at_ i)| + |f.b i|) + |K.p (f.at_ i) - (L (f.at_ i)).1 P.m|)) := by
  have hδ : 0 ≤ ε + F.u * (M + ε + σ) := by have := F.u_nonneg; positivity
  have hG : (jG (o.batch L :: os.map (FlObs.batch L))).PosDef := history_gram hP hτ (fun o' ho' => (hC o' ho').bsymm) hN
  obtain ⟨B0, e1, e2, h0⟩ := start_ok slv e he hg hM (hC o (by simp)) (jG_prefix' hP [o.batch L] _ hG)
  have hcard : Fintype.card B0.c.s.Idx = o.n := by
    have := congrArg (fun f : FlSt α => Fintype.card f.s.Idx) e2
    exact this.symm.trans (Fintype.card_fin _)
  obtain ⟨B, e3, e4, hB, h4⟩ := fold_ok slv htr e he hP hg hM hσ hδ os B0 [o.batch L] h0 (fun o' h => hC o' (by simp [h])) hN hG
    (by rw [hcard]; simpa [List.sum_cons] using hc)
  have hrun : run e (o.batch L) (os.map (FlObs.batch L)) = .ok B.c := by unfold run; rw [e1]; exact e3
  have hsum : Fintype.card B.c.s.Idx = ((o :: os).map FlObs.n).sum := by rw [h4, hcard]; simp
  obtain ⟨I⟩ := hB.inv
  refine ⟨B.fl, B.c, by unfold FlSt.run; rw [e2]; exact e4, hrun, hB.posDef hP hδ hN (by rw [hsum]; exact_mod_cast hc), hB.mem, hsum, fun t ht x => ?_⟩
  obtain ⟨v, h1, h2⟩ := posterior_mean_error F e he hP (o.batch L) (os.map (FlObs.batch L)) hG hτ hN B.c hrun ht x (K.m x) (fun j => K.k x (B.at_ j)) B.w
  have hv : v ≤ P.k x x := by
    obtain ⟨c', h', -, h3, -⟩ := run_all e he hP (o.batch L) (os.map (FlObs.batch L)) hG
    obtain rfl : B.c = c' := by rw [hrun] at h'; exact Except.ok.inj h'
    obtain rfl := Except.ok.inj (h1.symm.trans (h3 x x))
    exact (posterior_le_prior hP _ hG _).trans (le_of_eq (cov_ev hP x x))
  refine ⟨v, h1, hv, h2.trans (add_le_add (add_le_add le_rfl (le_of_eq ?_)) ?_)⟩
  · refine sum_congr rfl fun j _ => ?_
    have h3 : B.c.kLas j = P.cross (L (B.at_ j)) := by rw [← hB.Ls, I.Ls, I.kLas]
    rw [h3]
    rfl
  · set E := B.fl.err + Fintype.card B.fl.s.Idx * (ε + F.u * (M + ε + σ)) * ∑ j, |B.fl.w j| +
      ∑ i, (gam F 2 * (|B.fl.Y i| + |K.p (B.fl.at_ i)| + |B.fl.b i|) + |K.p (B.fl.at_ i) - (L (B.fl.at_ i)).1 P.m|) with hE
    have hres : ∑ i, |(B.c.gram.toMat *ᵥ B.w) i - (B.c.Ys i - (B.c.Ls i).1 P.m - B.c.bs i)| ≤ E := by
      have h5 : ∀ i, |(B.c.gram.toMat *ᵥ B.w) i - (B.c.Ys i - (B.c.Ls i).1 P.m - B.c.bs i)| ≤
          |(B.gram.toMat *ᵥ B.w) i - rhsFl F (B.c.Ys i) (K.p (B.at_ i)) (B.c.bs i)| + |((B.gram.toMat - B.c.gram.toMat) *ᵥ B.w) i| +
            (gam F 2 * (|B.c.Ys i| + |K.p (B.at_ i)| + |B.c.bs i|) + |K.p (B.at_ i) - (L (B.at_ i)).1 P.m|) := fun i => by
        rw [hB.Ls]
        have h6 := rhsFl_err F (B.c.Ys i) (K.p (B.at_ i)) (B.c.bs i) ((L (B.at_ i)).1 P.m)
        rw [sub_mulVec, Pi.sub_apply]
        set a := (B.gram.toMat *ᵥ B.w) i
        set a' := (B.c.gram.toMat *ᵥ B.w) i
        set r := rhsFl F (B.c.Ys i) (K.p (B.at_ i)) (B.c.bs i)
        have e5 : a' - (B.c.Ys i - (L (B.at_ i)).1 P.m - B.c.bs i) = (a - r) + -(a - a') + (r - (B.c.Ys i - (L (B.at_ i)).1 P.m - B.c.bs i)) := by ring
        rw [e5]
        refine (abs_add_three _ _ _).trans ?_
        rw [abs_neg]
        exact add_le_add le_rfl h6
      refine (sum_le_sum fun i _ => h5 i).trans ?_
      rw [sum_add_distrib, sum_add_distrib, hE]
      exact add_le_add (add_le_add hB.res (card_le_sum hB.gerr B.w)) le_rfl
    have hE0 : 0 ≤ E := (sum_nonneg fun i _ => abs_nonneg _).trans hres
    rw [← Real.sqrt_sq hE0, ← Real.sqrt_mul (by have := sub_nonneg.2 hv; positivity)]
    refine Real.sqrt_le_sqrt ?_
    have hs : ∑ i, ((B.c.gram.toMat *ᵥ B.w) i - (B.c.Ys i - (B.c.Ls i).1 P.m - B.c.bs i)) ^ 2 ≤ E ^ 2 := by
      refine le_trans ?_ (pow_le_pow_left₀ (sum_nonneg fun i _ => abs_nonneg _) hres 2)
      simp only [← sq_abs (_ - _ : ℝ)]
      exact sum_sq_le_sq_sum_of_nonneg fun i _ => abs_nonneg _
    rw [mul_div_assoc', div_mul_eq_mul_div]
    exact div_le_div_of_nonneg_right (mul_le_mul_of_nonneg_left hs (sub_nonneg.2 hv)) hτ.le

end LinPDE.Rounding
