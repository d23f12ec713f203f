import Verif.GP.JetProps

/-!
# C66: collocation with squared-exponential and Matérn kernels, and the closed forms of the code
-/

namespace LinPDE.GP
open Matrix LinPDE.Block LinPDE.PosDef Filter Topology
open LinPDE.Matern (DOp OpAt MK Par phi)
open LinPDE.ExpQuad (EK)

variable {d : ℕ} {I : Set (Ix d)} {K : Ix d → Pt d → Ix d → Pt d → ℝ}

/-! ## Operators of the code as combinations of derivatives -/

/-- The multi-indices occurring in an operator. -/
def orders : DOp d → Set (Ix d)
  | .dd _ => Set.range fun j => Pi.single j 1
  | .wl _ => Set.range fun j => Pi.single j 2
  | .pd n => {fun _ => n}

/-- Coefficients of an operator: `∑ u_j ∂_j`, `∑ w_j ∂_j²`, `∂^n`. -/
noncomputable def coefs : (L : DOp d) → orders L ⊆ I → I →₀ ℝ
  | .dd u, h => ∑ j, Finsupp.single ⟨Pi.single j 1, h ⟨j, rfl⟩⟩ (u j)
  | .wl w, h => ∑ j, Finsupp.single ⟨Pi.single j 2, h ⟨j, rfl⟩⟩ (w j)
  | .pd n, h => Finsupp.single ⟨fun _ => n, h rfl⟩ 1

/-- The result of an operator in terms of partial derivatives. -/
def opSum (L : DOp d) (J : Ix d → Pt d → ℝ) (x : Pt d) : ℝ :=
  match L with
  | .dd u => ∑ j, u j * J (Pi.single j 1) x
  | .wl w => ∑ j, w j * J (Pi.single j 2) x
  | .pd n => J (fun _ => n) x

lemma coefs_sum (L : DOp d) (h : orders L ⊆ I) (J : Ix d → Pt d → ℝ) (x : Pt d) :
    ((coefs L h).sum fun α c => c * J α x) = opSum L J x := by
  have e : ∀ a : I →₀ ℝ, (a.sum fun α c => c * J α x) = Finsupp.linearCombination ℝ (fun α : I => J α x) a := fun a => by
    rw [Finsupp.linearCombination_apply]
    rfl
  rw [e]
  cases L with
  | dd u => simp [coefs, opSum]
  | wl w => simp [coefs, opSum]
  | pd n => simp [coefs, opSum]

/-- The partial derivatives for which the code has closed forms. -/
def Univ : DOp d → Prop
  | .pd n => n = 0 ∨ d = 1 ∧ n ≤ 2
  | _ => True

/-- Whatever satisfies the specification of an operator is the combination of partial derivatives. -/
lemma opAt_eq (hI : IsLowerSet I) (L : DOp d) (h : orders L ⊆ I) (hd : Univ L)
    {f : Pt d → ℝ} {J : Ix d → Pt d → ℝ} (hJ : HasJet I f J) (x : Pt d) {y : ℝ} (hy : OpAt L f x y) : y = opSum L J x := by
  -- second derivatives along one axis
  have second : ∀ (j : Fin d) (D1 : ℝ → ℝ) (D2 : ℝ), (Pi.single j 2 : Ix d) ∈ I →
      (∀ᶠ t in 𝓝 (0 : ℝ), HasDerivAt (fun t : ℝ => f (x + t • Pi.single j 1)) (D1 t) t) → HasDerivAt D1 D2 0 →
      D2 = J (Pi.single j 2) x := by
    intro j D1 D2 hj h1 h2
    have hj1 : (0 : Ix d) + Pi.single j 1 ∈ I := hI (fun i => by
      by_cases hi : i = j
      · subst hi; simp
      · simp [hi]) hj
    have hj2 : (Pi.single j 1 : Ix d) + Pi.single j 1 ∈ I := by rw [← Pi.single_add]; exact hj
    have e1 : ∀ t : ℝ, HasDerivAt (fun t : ℝ => f (x + t • Pi.single j 1)) (J (Pi.single j 1) (x + t • Pi.single j 1)) t := by
      intro t
      have := hJ.partial hj1 (x + t • Pi.single j 1)
      rw [hJ.zero, zero_add] at this
      have h3 : HasDerivAt (fun s : ℝ => f (x + t • Pi.single j 1 + s • Pi.single j 1)) (J (Pi.single j 1) (x + t • Pi.single j 1)) (t - t) := by
        rwa [sub_self]
      have h4 := h3.comp_sub_const t t
      refine h4.congr_of_eventuallyEq (Eventually.of_forall fun s => ?_)
      dsimp only
      rw [add_assoc, ← add_smul]
      congr 3
      ring
    have e2 : D1 =ᶠ[𝓝 0] fun t => J (Pi.single j 1) (x + t • Pi.single j 1) := h1.mono fun t ht => ht.unique (e1 t)
    have h3 := hJ.partial hj2 x
    rw [← Pi.single_add] at h3
    exact (h2.congr_of_eventuallyEq e2.symm).unique h3
  have first : ∀ (u : Pt d), (∀ j, (Pi.single j 1 : Ix d) ∈ I) → HasDerivAt (fun t : ℝ => f (x + t • u)) y 0 →
      y = ∑ j, u j * J (Pi.single j 1) x := by
    intro u hu h1
    have h2 := hJ.step 0 u (fun j _ => by rw [zero_add]; exact hu j) x
    rw [hJ.zero] at h2
    simp only [zero_add] at h2
    exact h1.unique h2
  cases L with
  | dd u => exact first u (fun j => h ⟨j, rfl⟩) hy
  | wl w =>
    obtain ⟨D1, D2, h1, h2, rfl⟩ := hy
    exact Finset.sum_congr rfl fun j _ => by rw [second j (D1 j) (D2 j) (h ⟨j, rfl⟩) (h1 j) (h2 j)]
  | pd n =>
    rcases hd with rfl | ⟨rfl, hn⟩
    · have hy : y = f x := hy
      rw [hy, ← hJ.zero]
      rfl
    have e1 : (1 : Pt 1) = Pi.single 0 1 := by funext i; fin_cases i; rfl
    have e2 : ∀ n : ℕ, (fun _ => n : Ix 1) = Pi.single 0 n := fun n => by funext i; fin_cases i; rfl
    match n, hn with
    | 0, _ =>
      have hy : y = f x := hy
      rw [hy, ← hJ.zero]
      rfl
    | 1, _ =>
      have := first (1 : Pt 1) (fun j => by
        have := h (show (fun _ => 1 : Ix 1) ∈ orders (.pd 1) from rfl)
        rw [e2] at this
        fin_cases j
        exact this) hy
      rw [this]
      simp [opSum, e2]
    | 2, _ =>
      obtain ⟨D1, h1, h2⟩ := hy
      rw [e1] at h1
      have hm := h (show (fun _ => 2 : Ix 1) ∈ orders (.pd 2) from rfl)
      rw [e2] at hm
      rw [second 0 D1 y hm h1 h2]
      simp [opSum, e2]

/-- Derivatives satisfy the specification of the operators. -/
lemma opAt_of_jet (hI : IsLowerSet I) (L : DOp d) (h : orders L ⊆ I) (hd : Univ L)
    {f : Pt d → ℝ} {J : Ix d → Pt d → ℝ} (hJ : HasJet I f J) (x : Pt d) : OpAt L f x (opSum L J x) := by
  have line : ∀ (j : Fin d), (Pi.single j 2 : Ix d) ∈ I →
      (∀ t : ℝ, HasDerivAt (fun t : ℝ => f (x + t • Pi.single j 1)) (J (Pi.single j 1) (x + t • Pi.single j 1)) t) ∧
      HasDerivAt (fun t : ℝ => J (Pi.single j 1) (x + t • Pi.single j 1)) (J (Pi.single j 2) x) 0 := by
    intro j hj
    have hj1 : (0 : Ix d) + Pi.single j 1 ∈ I := hI (fun i => by
      by_cases hi : i = j
      · subst hi; simp
      · simp [hi]) hj
    have hj2 : (Pi.single j 1 : Ix d) + Pi.single j 1 ∈ I := by rw [← Pi.single_add]; exact hj
    refine ⟨fun t => ?_, by have := hJ.partial hj2 x; rwa [← Pi.single_add] at this⟩
    have := hJ.partial hj1 (x + t • Pi.single j 1)
    rw [hJ.zero, zero_add] at this
    have h3 : HasDerivAt (fun s : ℝ => f (x + t • Pi.single j 1 + s • Pi.single j 1)) (J (Pi.single j 1) (x + t • Pi.single j 1)) (t - t) := by
      rwa [sub_self]
    have h4 := h3.comp_sub_const t t
    refine h4.congr_of_eventuallyEq (Eventually.of_forall fun s => ?_)
    dsimp only
    rw [add_assoc, ← add_smul]
    congr 3
    ring
  cases L with
  | dd u =>
    have h2 := hJ.step 0 u (fun j _ => by rw [zero_add]; exact h ⟨j, rfl⟩) x
    rw [hJ.zero] at h2
    simp only [zero_add] at h2
    exact h2
  | wl w =>
    exact ⟨fun j t => J (Pi.single j 1) (x + t • Pi.single j 1), fun j => J (Pi.single j 2) x,
      fun j => Eventually.of_forall (line j (h ⟨j, rfl⟩)).1, fun j => (line j (h ⟨j, rfl⟩)).2, rfl⟩
  | pd n =>
    rcases hd with rfl | ⟨rfl, hn⟩
    · show J (fun _ => 0) x = f x
      rw [← hJ.zero]
      rfl
    have e1 : (1 : Pt 1) = Pi.single 0 1 := by funext i; fin_cases i; rfl
    have e2 : ∀ n : ℕ, (fun _ => n : Ix 1) = Pi.single 0 n := fun n => by funext i; fin_cases i; rfl
    match n, hn with
    | 0, _ =>
      show J (fun _ => 0) x = f x
      rw [← hJ.zero]
      rfl
    | 1, _ =>
      have hm := h (show (fun _ => 1 : Ix 1) ∈ orders (.pd 1) from rfl)
      rw [e2, ← zero_add (Pi.single 0 1)] at hm
      have := hJ.partial hm x
      rw [hJ.zero, zero_add] at this
      show HasDerivAt (fun t : ℝ => f (x + t • 1)) (J (fun _ => 1) x) 0
      rw [e1, e2]
      exact this
    | 2, _ =>
      have hm := h (show (fun _ => 2 : Ix 1) ∈ orders (.pd 2) from rfl)
      rw [e2] at hm
      obtain ⟨l1, l2⟩ := line 0 hm
      refine ⟨fun t => J (Pi.single 0 1) (x + t • Pi.single 0 1), ?_, ?_⟩
      · rw [e1]
        exact Eventually.of_forall l1
      · show HasDerivAt _ (J (fun _ => 2) x) 0
        rw [e2]
        exact l2

/-- Operators that are not zero. -/
def NonZero : DOp d → Prop
  | .dd u => u ≠ 0
  | .wl w => w ≠ 0
  | .pd _ => True

lemma coefs_ne_zero (L : DOp d) (h : orders L ⊆ I) (hL : NonZero L) : coefs L h ≠ 0 := by
  classical
  have key : ∀ (n : ℕ) (hn : n ≠ 0) (hm : ∀ j, (Pi.single j n : Ix d) ∈ I) (u : Pt d), u ≠ 0 →
      (∑ j, Finsupp.single (⟨Pi.single j n, hm j⟩ : I) (u j)) ≠ 0 := by
    intro n hn hm u hu h0
    obtain ⟨j, hj⟩ := Function.ne_iff.mp hu
    refine hj ?_
    have := DFunLike.congr_fun h0 ⟨Pi.single j n, hm j⟩
    rw [Finsupp.finsetSum_apply, Finset.sum_eq_single j] at this
    · simpa using this
    · intro i _ hi
      refine Finsupp.single_eq_of_ne fun h => hi ?_
      have := congrFun (congrArg Subtype.val h) j
      by_contra hij
      simp [hn, Ne.symm hij] at this
    · simp
  cases L with
  | dd u => exact key 1 one_ne_zero (fun j => h ⟨j, rfl⟩) u hL
  | wl w => exact key 2 two_ne_zero (fun j => h ⟨j, rfl⟩) w hL
  | pd n => exact Finsupp.single_ne_zero.mpr one_ne_zero

/-- The covariance of two operators of a process, from any values satisfying the specification of the operators, applied
to the second argument and then to the first. -/
lemma cov_of_opAt (h : JetKernel I K) (m : jetF I) {L0 L1 : DOp d} (h0 : orders L0 ⊆ I) (h1 : orders L1 ⊆ I)
    (hd0 : Univ L0) (hd1 : Univ L1)
    {k1 k01 : Pt d → Pt d → ℝ} (hk1 : ∀ x y, OpAt L1 (fun y => K 0 x 0 y) y (k1 x y))
    (hk01 : ∀ x y, OpAt L0 (fun x => k1 x y) x (k01 x y)) (x y : Pt d) :
    (h.prior m).cov (h.op m (coefs L0 h0) x) (h.op m (coefs L1 h1) y) = k01 x y := by
  have e1 : ((h.prior m).cross (h.op m (coefs L1 h1) y)).1 = fun x => k1 x y := by
    funext x
    show (h.op m (coefs L1 h1) y).1 ⟨fun y => K 0 x 0 y, h.right_mem x⟩ = _
    rw [op_apply, coefs_sum, opAt_eq h.lower L1 h1 hd1 (jet_spec ⟨fun y => K 0 x 0 y, h.right_mem x⟩) y (hk1 x y)]
  show (h.op m (coefs L0 h0) x).1 ((h.prior m).cross (h.op m (coefs L1 h1) y)) = _
  rw [op_apply, coefs_sum]
  have e2 := jet_spec ((h.prior m).cross (h.op m (coefs L1 h1) y))
  rw [e1] at e2
  exact (opAt_eq h.lower L0 h0 hd0 e2 x (hk01 x y)).symm

/-! ## Squared-exponential kernels -/

/-- Derivatives of the squared-exponential kernel. -/
noncomputable def expK (l : Fin d → ℝ) : Ix d → Pt d → Ix d → Pt d → ℝ := prodK fun j => gaussD (ExpQuad.sf l j ^ 2)

lemma expK_zero (l : Fin d → ℝ) (x y : Pt d) : expK l 0 x 0 y = (EK.expquad l).eval x y := by
  show _ = Real.exp (-ExpQuad.normSq _)
  simp only [expK, prodK, jetK, gaussD, herm, Pi.zero_apply, pow_zero, one_mul, Polynomial.eval_one, ExpQuad.normSq]
  rw [← Real.exp_sum, Finset.sum_neg_distrib]
  congr 2
  exact Finset.sum_congr rfl fun i _ => by ring

lemma sf_pos {l : Fin d → ℝ} (hl : ∀ i, l i ≠ 0) (j : Fin d) : 0 < ExpQuad.sf l j ^ 2 :=
  pow_two_pos_of_ne_zero (div_ne_zero (Real.sqrt_pos.mpr (by norm_num)).ne' (hl j))

lemma box_top : (Set.univ : Set (Ix d)) = box fun _ => ⊤ := by
  ext α
  simp [box]

/-- Squared-exponential kernels have derivatives of all orders, with positive semidefinite covariances. -/
theorem expquad_jet {l : Fin d → ℝ} (hl : ∀ i, l i ≠ 0) : JetKernel Set.univ (expK l) := by
  rw [box_top]
  exact prod_jetKernel (fun j => gauss_chain _) fun j => gauss_psd (sf_pos hl j)

/-- C66: all derivatives of a squared-exponential process at all points are linearly independent. -/
theorem expquad_strict {l : Fin d → ℝ} (hl : ∀ i, l i ≠ 0) : Strict Set.univ (expK l) := by
  rw [box_top]
  exact prod_strict fun j => gauss_jet_spd (sf_pos hl j)

lemma univ_of_apply {L : DOp d} {a : Bool} {k k' : EK d} (h : ExpQuad.apply L a k = .ok k') : Univ L := by
  cases L with
  | dd u => trivial
  | wl w => trivial
  | pd n =>
    rcases ExpQuad.applyPD_inv h with ⟨rfl, _⟩ | ⟨rfl, hd, _⟩ | ⟨rfl, hd, _⟩
    · exact Or.inl rfl
    · exact Or.inr ⟨hd, by omega⟩
    · exact Or.inr ⟨hd, le_rfl⟩

lemma orders_univ (L : DOp d) : orders L ⊆ (Set.univ : Set (Ix d)) := Set.subset_univ _

/-- C66: the kernels that the code computes by applying operators to the arguments of a squared-exponential kernel are the
covariances of the operators of the process. -/
theorem expquad_closed_form {l : Fin d → ℝ} (hl : ∀ i, l i ≠ 0) (m : jetF Set.univ) (L0 L1 : DOp d) {k : EK d}
    (hk : (ExpQuad.apply L1 false (.expquad l) >>= fun k => ExpQuad.apply L0 true k) = .ok k) (x y : Pt d) :
    ((expquad_jet hl).prior m).cov ((expquad_jet hl).op m (coefs L0 (orders_univ L0)) x)
      ((expquad_jet hl).op m (coefs L1 (orders_univ L1)) y) = k.eval x y := by
  obtain ⟨k1, h1, h0⟩ : ∃ k1, ExpQuad.apply L1 false (.expquad l) = .ok k1 ∧ ExpQuad.apply L0 true k1 = .ok k := by
    cases hb : ExpQuad.apply L1 false (.expquad l) with
    | error e => rw [hb] at hk; cases hk
    | ok k1 => rw [hb] at hk; exact ⟨k1, rfl, hk⟩
  refine cov_of_opAt (expquad_jet hl) m (orders_univ L0) (orders_univ L1) (univ_of_apply h0) (univ_of_apply h1)
    (k1 := k1.eval) (k01 := k.eval) (fun x y => ?_) (fun x y => ?_) x y
  · have := ExpQuad.expquad_derivative h1 x y
    simp only [expK_zero]
    exact this
  · exact ExpQuad.expquad_derivative h0 x y

/-- The Laplacian and a directional derivative in the plane. -/
example : ∃ k, (ExpQuad.apply (.dd ![1, 2]) false (.expquad ![(2 : ℝ), 3]) >>= fun k => ExpQuad.apply (.wl 1) true k) = .ok k :=
  ⟨_, rfl⟩

/-! ## Matérn kernels -/

/-- Derivatives of a product of one-dimensional Matérn kernels with smoothness `p j` and scale factors `s j`. -/
noncomputable def matK (p : Fin d → ℕ) (s : Fin d → ℝ) : Ix d → Pt d → Ix d → Pt d → ℝ :=
  prodK fun j i t => s j ^ i * phi (p j) i (s j * t)

lemma scaled_chain (p : ℕ) (s : ℝ) : Chain p fun i t => s ^ i * phi p i (s * t) := by
  refine ⟨fun i hi t => ?_, fun i hi => continuous_const.mul (((matern_chain p).cont i hi).comp (continuous_const.mul continuous_id))⟩
  have h1 : HasDerivAt (fun t : ℝ => s * t) s t := by simpa using (hasDerivAt_id t).const_mul s
  have := (((matern_chain p).deriv i hi (s * t)).comp t h1).const_mul (s ^ i)
  refine this.congr_deriv ?_
  rw [pow_succ]
  ring

lemma scaled_spd (p : ℕ) {s : ℝ} (hs : s ≠ 0) :
    SPD fun a b : Jet1 p => jetK (fun i t => s ^ i * phi p i (s * t)) a.1 a.2 b.1 b.2 := by
  have h1 := (matern_jet_spd p).comp (f := fun q : Jet1 p => ((q.1, s * q.2) : Jet1 p)) fun a b h => by
    have h1 := congrArg Prod.fst (show ((a.1, s * a.2) : Jet1 p) = (b.1, s * b.2) from h)
    have h2 := congrArg Prod.snd (show ((a.1, s * a.2) : Jet1 p) = (b.1, s * b.2) from h)
    exact Prod.ext h1 (mul_left_cancel₀ hs h2)
  refine (h1.weight (f := fun q => s ^ q.1.1) fun q => pow_ne_zero _ hs).congr fun a b => ?_
  simp only [jetK]
  rw [pow_add, mul_sub]
  ring

/-- Products of Matérn kernels have derivatives up to order `p j` in coordinate `j` in both arguments, with positive
semidefinite covariances. -/
theorem matern_jet (p : Fin d → ℕ) (s : Fin d → ℝ) : JetKernel (box fun j => (p j : ℕ∞)) (matK p s) :=
  prod_jetKernel (fun j => scaled_chain _ _) fun j =>
    ((phi0_psd (p j)).comp fun x => s j * x).congr fun x y => by rw [pow_zero, one_mul, mul_sub]

/-- C66: the derivatives up to order `p j` in coordinate `j` of a process whose kernel is a product of Matérn kernels are
linearly independent. -/
theorem matern_strict (p : Fin d → ℕ) {s : Fin d → ℝ} (hs : ∀ j, s j ≠ 0) : Strict (box fun j => (p j : ℕ∞)) (matK p s) :=
  prod_strict fun j => scaled_spd (p j) (hs j)

/-- The kernel is the product of the Matérn kernels of the code. -/
lemma matK_zero (p : Fin d → ℕ) (s : Fin d → ℝ) (x y : Pt d) :
    matK p s 0 x 0 y = ∏ j, (MK.matern (⟨p j, fun _ => s j⟩ : Par 1)).eval (fun _ => x j) fun _ => y j := by
  unfold matK prodK jetK
  refine Finset.prod_congr rfl fun j _ => ?_
  rw [Matern.eval_univariate (show (MK.matern _).Valid from trivial)]
  show (-1 : ℝ) ^ 0 * (s j ^ (0 + 0) * phi (p j) (0 + 0) _) = 1 * phi (p j) 0 (s j * (x j - y j))
  simp

lemma mat_orders {p : ℕ} {L : DOp 1} (h : L.order ≤ p) : orders L ⊆ box fun _ : Fin 1 => (p : ℕ∞) := by
  rintro α hα j
  have e : α j = L.order := by
    cases L with
    | dd u =>
      obtain ⟨i, rfl⟩ := hα
      rw [Subsingleton.elim i j]
      simp [Matern.DOp.order]
    | wl w =>
      obtain ⟨i, rfl⟩ := hα
      rw [Subsingleton.elim i j]
      simp [Matern.DOp.order]
    | pd n =>
      obtain rfl := hα
      rfl
  rw [e]
  show (L.order : ℕ∞) ≤ (p : ℕ∞)
  exact_mod_cast h

lemma univ_of_applyM {L : DOp d} {a : Bool} {k k' : MK d} (h : Matern.apply L a k = .ok k') : Univ L := by
  cases L with
  | dd u => trivial
  | wl w => trivial
  | pd n =>
    rcases Matern.applyPD_inv h with ⟨rfl, _⟩ | ⟨rfl, hd, _⟩ | ⟨rfl, hd, _⟩
    · exact Or.inl rfl
    · exact Or.inr ⟨hd, by omega⟩
    · exact Or.inr ⟨hd, le_rfl⟩

/-- C66: the kernels that the code computes by applying operators of order at most `p` to the arguments of a
one-dimensional Matérn kernel are the covariances of the operators of the process. -/
theorem matern_closed_form (p : ℕ) (s : ℝ) (m : jetF (box fun _ : Fin 1 => (p : ℕ∞))) (L0 L1 : DOp 1) (h0 : L0.order ≤ p)
    (h1 : L1.order ≤ p) {k : MK 1}
    (hk : (Matern.apply L1 false (.matern ⟨p, fun _ => s⟩) >>= fun k => Matern.apply L0 true k) = .ok k) (x y : Pt 1) :
    ((matern_jet (fun _ => p) fun _ => s).prior m).cov ((matern_jet (fun _ => p) fun _ => s).op m (coefs L0 (mat_orders h0)) x)
      ((matern_jet (fun _ => p) fun _ => s).op m (coefs L1 (mat_orders h1)) y) = k.eval x y := by
  obtain ⟨k1, e1, e0⟩ := Matern.bind_ok_inv hk
  refine cov_of_opAt (matern_jet _ _) m (mat_orders h0) (mat_orders h1) (univ_of_applyM e0) (univ_of_applyM e1)
    (k1 := k1.eval) (k01 := k.eval) (fun x y => ?_) (fun x y => ?_) x y
  · have := Matern.matern_derivative .base e1 x y (Or.inl (by show 0 + L1.order ≤ 2 * p; omega))
    have e : (fun y => matK (fun _ => p) (fun _ => s) 0 x 0 y) = fun y => (MK.matern (⟨p, fun _ => s⟩ : Par 1)).eval x y := by
      funext y
      rw [matK_zero, Fin.prod_univ_one]
      congr 1 <;> · funext i; rw [Subsingleton.elim i 0]
    rw [e]
    exact this
  · exact Matern.matern_derivative (.step L1 false .base e1) e0 x y (Or.inl (by show 0 + L1.order + L0.order ≤ 2 * p; omega))

example : ∃ k, (Matern.apply (.pd 2) false (.matern ⟨2, fun _ : Fin 1 => (3 : ℝ)⟩) >>= fun k => Matern.apply (.pd 2) true k) = .ok k :=
  ⟨_, rfl⟩

/-! ## Collocation -/

/-- Exact observations of the operators `L i` at the points `x i`. -/
noncomputable def pdeBatch (h : JetKernel I K) (m : jetF I) {n : ℕ} (L : Fin n → DOp d) (hL : ∀ i, orders (L i) ⊆ I) (x : Fin n → Pt d)
    (Y : Fin n → ℝ) : Batch (h.prior m) := ⟨n, fun i => h.op m (coefs (L i) (hL i)) (x i), none, Y⟩

/-- The observations of a single batch. -/
lemma idx_one {X : Type} {P : Prior X} (b : Batch P) : ∃ E : Idx [b] ≃ Fin b.n, ∀ i, E.symm i = ⟨0, i⟩ :=
  ⟨Equiv.uniqueSigma fun p : Fin 1 => Fin ([b].get p).n, fun _ => rfl⟩

lemma noise_one {X : Type} {P : Prior X} (b : Batch P) (hb : b.noise = none) : NoisePSD [b] := by
  intro b' hb'
  rw [List.mem_singleton.mp hb']
  unfold Batch.noiseCov
  rw [hb]
  exact Matrix.PosSemidef.zero

/-- `collocation` for one batch of exact observations. -/
lemma collocation_one (h : JetKernel I K) (hs : Strict I K) (m : jetF I) (e : Env) (he : e.CholOK) (b : Batch (h.prior m))
    (hb : b.noise = none) (a : Fin b.n → I →₀ ℝ) (x : Fin b.n → Pt d) (hL : ∀ i, b.L i = h.op m (a i) (x i)) (ha : ∀ i, a i ≠ 0)
    (hx : Function.Injective x) :
    ∃ c, run e b [] = .ok c ∧ ∃ J, HasJet I c.mean J ∧ ∀ i, ((a i).sum fun α t => t * J α (x i)) = b.Y i ∧
      c.functlCov e (fun _ : Fin 1 => h.op m (a i) (x i)) = .ok 0 := by
  obtain ⟨E, hE⟩ := idx_one b
  have hO : OpsAt h m [b] (fun i => a (E i)) (fun i => x (E i)) := by
    intro i
    obtain ⟨j, rfl⟩ := E.symm.surjective i
    simp only [E.apply_symm_apply]
    rw [hE]
    exact hL j
  have hD : Function.Injective fun i => x (E i) := hx.comp E.injective
  have hA : ∀ z, LinearIndependent ℝ fun i : {i // x (E i) = z} => a (E i) :=
    collocation_distinct (fun i => a (E i)) (fun i => x (E i)) (fun i => ha (E i)) hD
  have key := collocation h hs m e he b [] (fun i => a (E i)) (fun i => x (E i)) hO hA (noise_one b hb)
  obtain ⟨c, hc, -, -, J, hJ, hi⟩ := key
  refine ⟨c, hc, J, hJ, fun i => ?_⟩
  have h1 := hi (E.symm i) (by rw [hE]; exact hb)
  simp only [E.apply_symm_apply] at h1
  rw [hE] at h1
  exact h1

/-- C66: conditioning on exact observations of nonzero operators (with closed forms in the code) at distinct points
succeeds, the posterior mean solves the collocation equations, and nothing is left uncertain about them. -/
theorem pde_collocation (h : JetKernel I K) (hs : Strict I K) (m : jetF I) (e : Env) (he : e.CholOK) {n : ℕ}
    (L : Fin n → DOp d) (hL : ∀ i, orders (L i) ⊆ I) (hU : ∀ i, Univ (L i)) (hz : ∀ i, NonZero (L i)) (x : Fin n → Pt d)
    (hx : Function.Injective x) (Y : Fin n → ℝ) :
    ∃ c, run e (pdeBatch h m L hL x Y) [] = .ok c ∧ (∀ i, OpAt (L i) c.mean (x i) (Y i)) ∧
      ∀ i, c.functlCov e (fun _ : Fin 1 => h.op m (coefs (L i) (hL i)) (x i)) = .ok 0 := by
  obtain ⟨c, hc, J, hJ, hi⟩ := collocation_one h hs m e he (pdeBatch h m L hL x Y) rfl (fun i => coefs (L i) (hL i)) x
    (fun _ => rfl) (fun i => coefs_ne_zero _ _ (hz i)) hx
  refine ⟨c, hc, fun i => ?_, fun i => (hi i).2⟩
  have h1 := (hi i).1
  rw [coefs_sum] at h1
  rw [← show opSum (L i) J (x i) = Y i from h1]
  exact opAt_of_jet h.lower (L i) (hL i) (hU i) hJ (x i)

/-- A squared-exponential process in the plane with a Laplacian (twice, at different points), a normal derivative and a
boundary value. -/
example (m : jetF (Set.univ : Set (Ix 2))) (e : Env) (he : e.CholOK) (Y : Fin 4 → ℝ) :
    ∃ c, run e (pdeBatch (expquad_jet (l := fun _ : Fin 2 => 2) fun _ => two_ne_zero) m
        ![.wl 1, .wl 1, .dd ![1, 0], .pd 0] (fun _ => orders_univ _) ![![0, 1], ![1, 1], ![2, 0], ![0, 0]] Y) [] = .ok c ∧
      OpAt (.wl 1) c.mean ![0, 1] (Y 0) := by
  obtain ⟨c, hc, h, -⟩ := pde_collocation (expquad_jet (l := fun _ : Fin 2 => 2) fun _ => two_ne_zero)
    (expquad_strict fun _ => two_ne_zero) m e he ![.wl 1, .wl 1, .dd ![1, 0], .pd 0] (fun _ => orders_univ _)
    (fun i => by fin_cases i <;> simp [Univ]) (fun i => by fin_cases i <;> simp [NonZero])
    ![![0, 1], ![1, 1], ![2, 0], ![0, 0]] (fun i j hij => by
      have h0 := congrFun hij 0
      have h1 := congrFun hij 1
      fin_cases i <;> fin_cases j <;> simp at h0 h1 ⊢) Y
  exact ⟨c, hc, h 0⟩

/-- A Matérn-5/2 process on the line: the second derivative and the value at two points. -/
example (m : jetF (box fun _ : Fin 1 => ((2 : ℕ) : ℕ∞))) (e : Env) (he : e.CholOK) (Y : Fin 2 → ℝ) :
    ∃ c L hL, run e (pdeBatch (matern_jet (fun _ => 2) fun _ => 3) m L hL ![fun _ => 0, fun _ => 1] Y) [] = .ok c ∧
      L = ![.pd 2, .pd 0] ∧ OpAt (.pd 2) c.mean (fun _ => 0) (Y 0) ∧ OpAt (.pd 0) c.mean (fun _ => 1) (Y 1) := by
  obtain ⟨c, hc, h, -⟩ := pde_collocation (matern_jet (fun _ => 2) fun _ : Fin 1 => 3) (matern_strict _ fun _ => three_ne_zero) m e he
    ![.pd 2, .pd 0] (fun i => mat_orders (by fin_cases i <;> simp [Matern.DOp.order]))
    (fun i => by fin_cases i <;> simp [Univ]) (fun i => by fin_cases i <;> simp [NonZero])
    ![fun _ => 0, fun _ => 1] (fun i j hij => by
      have h0 := congrFun hij 0
      fin_cases i <;> fin_cases j <;> simp at h0 ⊢) Y
  exact ⟨c, _, _, hc, rfl, h 0, h 1⟩

end LinPDE.GP
