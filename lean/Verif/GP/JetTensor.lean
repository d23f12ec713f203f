import Verif.GP.JetKernels
import Verif.Tensor.DiffProps

/-!
# C67: collocation with tensor products of Matérn kernels

Differential operators given by coefficient tables, tensor products of Matérn kernels and the kernels that the code
computes for them (`diffops/_tensor_product.py`), and the heat equation.
-/

namespace LinPDE.GP
open Matrix LinPDE.Block LinPDE.PosDef LinPDE.Coeff
open LinPDE.Matern (OpAt MK Par phi)
open LinPDE.Tensor (Fac TP TPLL PDFac getFac facD keyAt ScalarOp RowOK mkTPLL applyTP applyTPLL pairs)

/-! ## Matérn factors -/

/-- A one-dimensional Matérn kernel, or a derivative, as a factor. -/
noncomputable def facM (k : MK 1) : Fac := ⟨[], [], [], fun s t _ => k.eval (fun _ => s) fun _ => t⟩

/-- Derivatives of a scaled one-dimensional Matérn kernel. -/
noncomputable def matφ (p : ℕ) (s : ℝ) (i : ℕ) (t : ℝ) : ℝ := s ^ i * phi p i (s * t)

/-- The closed forms exist for orders up to two, if the kernel is smooth enough. -/
lemma mat_exists {p a b : ℕ} (s : ℝ) (ha : a ≤ p) (hb : b ≤ p) (ha2 : a ≤ 2) (hb2 : b ≤ 2) : ∃ k1 k01 : MK 1,
    Matern.apply (.pd b) false (.matern ⟨p, fun _ => s⟩) = .ok k1 ∧ Matern.apply (.pd a) true k1 = .ok k01 := by
  have hq1 : 1 ≤ p → ∃ q, Matern.divMono (Matern.derivPoly p 1) 1 = .ok q := fun h => (Matern.div_one_ok_iff p).mpr h
  have hq3 : 2 ≤ p → ∃ q, Matern.divMono (Matern.derivPoly p 3) 1 = .ok q := fun h => (Matern.div_three_ok_iff p).mpr h
  have e1 : 1 ≤ p → ∃ q, ∀ arg, Matern.apply (.pd 1) arg (.matern ⟨p, fun _ : Fin 1 => s⟩) = .ok (.idDD ⟨p, fun _ => s⟩ (fun _ => 1) arg q) := by
    intro h
    obtain ⟨q, hq⟩ := hq1 h
    exact ⟨q, fun arg => by simp [Matern.apply, Matern.applyPD, Matern.applyDD, Matern.mkIdDD, hq, bind, Except.bind]⟩
  interval_cases b
  · interval_cases a
    · exact ⟨.matern ⟨p, fun _ => s⟩, _, rfl, rfl⟩
    · obtain ⟨q, hq⟩ := e1 ha
      exact ⟨_, _, rfl, hq true⟩
    · exact ⟨.matern ⟨p, fun _ => s⟩, _, rfl, rfl⟩
  · obtain ⟨q, hq⟩ := e1 hb
    interval_cases a
    · exact ⟨_, _, hq false, rfl⟩
    · exact ⟨_, .uniDDDD ⟨p, fun _ => s⟩ (fun _ => 1) (fun _ => 1) _, hq false, by
        simp [Matern.apply, Matern.applyPD, Matern.applyDD, Matern.mkUniDDDD]; rfl⟩
    · obtain ⟨r, hr⟩ := hq3 ha
      exact ⟨_, _, hq false, by
        simp [Matern.apply, Matern.applyPD, Matern.applyWL, Matern.mkDDWL, hr, bind, Except.bind]; rfl⟩
  · interval_cases a
    · exact ⟨.idWL ⟨p, fun _ => s⟩ (fun _ => 1) false _, _, by
        simp [Matern.apply, Matern.applyPD, Matern.applyWL, Matern.mkIdWL]; rfl, rfl⟩
    · obtain ⟨r, hr⟩ := hq3 hb
      exact ⟨.idWL ⟨p, fun _ => s⟩ (fun _ => 1) false _, _, by
        simp [Matern.apply, Matern.applyPD, Matern.applyWL, Matern.mkIdWL]; rfl, by
        simp [Matern.apply, Matern.applyPD, Matern.applyDD, Matern.mkDDWL, hr, bind, Except.bind]; rfl⟩
    · exact ⟨.idWL ⟨p, fun _ => s⟩ (fun _ => 1) false _, _, by
        simp [Matern.apply, Matern.applyPD, Matern.applyWL, Matern.mkIdWL]; rfl, by
        simp [Matern.apply, Matern.applyPD, Matern.applyWL, Matern.mkWLWL]; rfl⟩

/-- The closed forms are the derivatives. -/
lemma mat_value {p a b : ℕ} {s : ℝ} (ha : a ≤ p) (hb : b ≤ p) {k1 k01 : MK 1}
    (h1 : Matern.apply (.pd b) false (.matern ⟨p, fun _ => s⟩) = .ok k1) (h0 : Matern.apply (.pd a) true k1 = .ok k01) (x y : ℝ) :
    k01.eval (fun _ => x) (fun _ => y) = jetK (matφ p s) a x b y := by
  have := matern_closed_form p s 0 (.pd a) (.pd b) (show a ≤ p from ha) (show b ≤ p from hb) (k := k01)
    (by rw [h1]; exact h0) (fun _ => x) fun _ => y
  rw [← this, op_cov]
  simp only [coefs]
  rw [Finsupp.support_single _ one_ne_zero, Finsupp.support_single _ one_ne_zero, Finset.sum_singleton,
    Finset.sum_singleton, Finsupp.single_eq_same, Finsupp.single_eq_same]
  show 1 * 1 * ∏ j : Fin 1, _ = _
  rw [Fin.prod_univ_one, one_mul, one_mul]
  rfl

/-- The dispatch of partial derivatives on a Matérn factor follows `_registry.py:80-119`: in the second and then in the
first argument, up to the smoothness of the kernel. -/
def FollowsMatern (pd : PDFac) (p : ℕ) (s : ℝ) : Prop :=
  ∀ a b : ℕ, a ≤ p → b ≤ p → ∀ k1 k01 : MK 1, Matern.apply (.pd b) false (.matern ⟨p, fun _ => s⟩) = .ok k1 →
    Matern.apply (.pd a) true k1 = .ok k01 →
    Tensor.applyPD pd true b (facM (.matern ⟨p, fun _ => s⟩)) = .ok (facM k1) ∧ Tensor.applyPD pd false a (facM k1) = .ok (facM k01)

lemma iter_snd {p : ℕ} (s x : ℝ) {b : ℕ} (hb : b ≤ p) (y : ℝ) :
    iteratedDeriv b (fun y => jetK (matφ p s) 0 x 0 y) y = jetK (matφ p s) 0 x b y := by
  induction b generalizing y with
  | zero => simp
  | succ b ih =>
    rw [iteratedDeriv_succ]
    have e : iteratedDeriv b (fun y => jetK (matφ p s) 0 x 0 y) = fun y => jetK (matφ p s) 0 x b y := funext fun y => ih (by omega) y
    rw [e]
    have h1 := (scaled_chain p s).deriv b (by exact_mod_cast (by omega : b + 1 ≤ p + p)) (x - y)
    have h2 : HasDerivAt (fun y => x - y) (-1) y := by simpa using (hasDerivAt_id y).const_sub x
    have h3 := (h1.comp y h2).const_mul ((-1) ^ b)
    have h4 : HasDerivAt (fun y => jetK (matφ p s) 0 x b y) (jetK (matφ p s) 0 x (b + 1) y) y := by
      unfold jetK
      rw [Nat.zero_add, Nat.zero_add]
      refine h3.congr_deriv ?_
      show _ = (-1) ^ (b + 1) * (s ^ (b + 1) * phi p (b + 1) (s * (x - y)))
      rw [pow_succ]
      ring
    exact h4.deriv

lemma iter_fst {p : ℕ} (s y : ℝ) {a b : ℕ} (ha : a ≤ p) (hb : b ≤ p) (x : ℝ) :
    iteratedDeriv a (fun x => jetK (matφ p s) 0 x b y) x = jetK (matφ p s) a x b y := by
  induction a generalizing x with
  | zero => simp
  | succ a ih =>
    rw [iteratedDeriv_succ]
    have e : iteratedDeriv a (fun x => jetK (matφ p s) 0 x b y) = fun x => jetK (matφ p s) a x b y := funext fun x => ih (by omega) x
    rw [e]
    exact (jetK_deriv (scaled_chain p s) (by exact_mod_cast ha) (by exact_mod_cast hb) x y).deriv

/-- Exact differentiation follows the closed forms of all Matérn kernels. -/
lemma exact_follows : ∃ pd : PDFac, ∀ p s, FollowsMatern pd p s := by
  refine ⟨fun arg n f => .ok ⟨[], [], [], fun s t o =>
    if arg then iteratedDeriv n (fun t => f.ev s t o) t else iteratedDeriv n (fun s => f.ev s t o) s⟩, fun p s a b ha hb k1 k01 h1 h0 => ?_⟩
  have hk1 : Matern.apply (.pd 0) true k1 = .ok k1 := by
    rcases Matern.applyPD_inv (show Matern.applyPD b false (.matern ⟨p, fun _ => s⟩) = .ok k1 from h1) with ⟨rfl, rfl⟩ | ⟨rfl, -, h⟩ | ⟨rfl, -, h⟩
    · rfl
    · obtain ⟨q, rfl, -⟩ := Matern.mkIdDD_ok h
      rfl
    · obtain rfl := Except.ok.inj h
      rfl
  have e0 : ∀ x y, (MK.matern (⟨p, fun _ => s⟩ : Par 1)).eval (fun _ => x) (fun _ => y) = jetK (matφ p s) 0 x 0 y :=
    mat_value (Nat.zero_le p) (Nat.zero_le p) rfl rfl
  have e1 := mat_value (Nat.zero_le p) hb h1 hk1
  have e01 := mat_value ha hb h1 h0
  constructor
  · unfold Tensor.applyPD
    split_ifs with hb0
    · subst hb0
      obtain rfl : MK.matern ⟨p, fun _ => s⟩ = k1 := Except.ok.inj h1
      rfl
    · refine congrArg Except.ok ?_
      unfold facM
      refine congrArg (Fac.mk [] [] []) ?_
      funext x y o
      simp only [↓reduceIte, e0, e1]
      exact iter_snd s x hb y
  · unfold Tensor.applyPD
    split_ifs with ha0
    · subst ha0
      obtain rfl : k1 = k01 := Except.ok.inj (hk1.symm.trans h0)
      rfl
    · refine congrArg Except.ok ?_
      unfold facM
      refine congrArg (Fac.mk [] [] []) ?_
      funext x y o
      simp only [Bool.false_eq_true, ↓reduceIte, e1, e01]
      exact iter_fst s y ha hb x

/-- A tensor product of Matérn kernels. -/
def MaternTP {d : ℕ} (k : TP) (p : Fin d → ℕ) (s : Fin d → ℝ) : Prop :=
  k.factors = List.ofFn fun i => facM (.matern ⟨p i, fun _ => s i⟩)

lemma MaternTP.length {d : ℕ} {k : TP} {p : Fin d → ℕ} {s : Fin d → ℝ} (h : MaternTP k p s) : k.factors.length = d := by
  rw [h, List.length_ofFn]

/-! ## Construction and values of transformed tensor products -/

/-- The differentiated factors needed by a pair of rows exist and are scalar. -/
def Avail (pd : PDFac) (fs : List Fac) (a b : MI) : Prop := ∀ i < fs.length, ∃ g, getFac pd fs i (keyAt a b i) = .ok g ∧
  g.inS = [] ∧ g.out0 = [] ∧ g.out1 = []

lemma inner_ok {pd : PDFac} {fs : List Fac} {a b : MI} (h : Avail pd fs a b) :
    ∀ (is : List ℕ) (c : Tensor.Cache Fac), (∀ i ∈ is, i < fs.length) → ∃ r, Tensor.innerLoop pd fs a b is c = .ok r
  | [], c, _ => ⟨_, rfl⟩
  | i :: is, c, hl => by
    have hi : i < fs.length := hl i (by simp)
    obtain ⟨g, hg, -⟩ := h i hi
    simp only [getFac, List.getElem?_eq_getElem hi, keyAt] at hg
    rcases h1 : Tensor.applyPD pd true (b.data.getD i 0) fs[i] with e | g1
    · rw [h1] at hg
      cases hg
    · rw [h1] at hg
      have hg : Tensor.applyPD pd false (a.data.getD i 0) g1 = .ok g := hg
      unfold Tensor.innerLoop
      obtain ⟨r, hr⟩ := inner_ok h is (c.put i (a.data.getD i 0, b.data.getD i 0) g) fun j hj => hl j (by simp [hj])
      exact ⟨(g :: r.1, r.2), by simp only [List.getElem?_eq_getElem hi, h1, hg, hr, bind, Except.bind]⟩

lemma facD_avail {pd : PDFac} {fs : List Fac} {a b : MI} {i : ℕ} {g : Fac} (h : getFac pd fs i (keyAt a b i) = .ok g) :
    facD pd fs i (keyAt a b i) = g := by simp only [facD, h]

lemma outer_ok {pd : PDFac} {fs : List Fac} (hne : fs ≠ []) :
    ∀ (ps : List ((MI × ℝ) × (MI × ℝ))) (c : Tensor.Cache Fac), Tensor.InvF pd fs c → c.length = fs.length →
    (∀ p ∈ ps, p.1.1.data.length = fs.length) → (∀ p ∈ ps, Avail pd fs p.1.1 p.2.1) → ∃ r, Tensor.outerLoop pd fs ps c = .ok r
  | [], c, _, _, _, _ => ⟨_, rfl⟩
  | ((a, ca), (b, cb)) :: ps, c, hI, hc, hr, hA => by
    have ha : a.data.length = fs.length := hr ((a, ca), (b, cb)) (by simp)
    have hab : Avail pd fs a b := hA ((a, ca), (b, cb)) (by simp)
    obtain ⟨⟨ks, c1⟩, h1⟩ := inner_ok hab (List.range fs.length) c fun i hi => List.mem_range.mp hi
    obtain ⟨e1, -, e3, e4, -, -⟩ := Tensor.innerLoop_spec pd fs a b _ c ks c1 h1 hI (by intro i hi; rw [hc]; exact List.mem_range.mp hi)
    have hsm : ∀ f ∈ ks, f.inS = [] ∧ f.out0 = [] ∧ f.out1 = [] := by
      rw [e1]
      intro f hf
      obtain ⟨i, hi, rfl⟩ := List.mem_map.mp hf
      obtain ⟨g, hg, hs⟩ := hab i (List.mem_range.mp hi)
      rw [facD_avail hg]
      exact hs
    have hkl : ks.length = fs.length := by rw [e1]; simp
    obtain ⟨f0, fs0, hks⟩ : ∃ f0 fs0, ks = f0 :: fs0 := List.exists_cons_of_ne_nil (by
      intro h; rw [h] at hkl; exact hne (List.length_eq_zero_iff.mp hkl.symm))
    have h2 : Tensor.mkTP ks = .ok ⟨f0, fs0⟩ := by
      rw [Tensor.mkTP_ok_iff]
      refine ⟨hks.symm, fun k hk => (hsm k hk).1, fun k hk => ?_⟩
      have h0 := hsm f0 (by rw [hks]; simp)
      exact ⟨by rw [(hsm k hk).2.1]; exact h0.2.1.symm, by rw [(hsm k hk).2.2]; exact h0.2.2.symm⟩
    obtain ⟨⟨ss, c2⟩, h3⟩ := outer_ok hne ps c1 e3 (by rw [e4, hc]) (fun p hp => hr p (by simp [hp])) fun p hp => hA p (by simp [hp])
    refine ⟨((ca * cb, ⟨f0, fs0⟩) :: ss, c2), ?_⟩
    unfold Tensor.outerLoop
    rw [ha]
    simp only [h1, h2, h3, bind, Except.bind]

lemma row_ok {d : ℕ} {L : Tensor.DOp} {r : Row} (hL : ScalarOp d L r) : ∀ r', Tensor.coeffRow L = .ok r' → RowOK d r' := by
  intro r' hr'
  rw [Tensor.coeffRow_scalar hL] at hr'
  cases hr'
  exact hL.2.2.2.2

/-- If the needed derivatives of the factors exist, the transformed tensor product is the sum over the terms of the
operators of products of derivatives. -/
lemma make_value {pd : PDFac} {k : TP} {d : ℕ} (hd : k.factors.length = d) {L0 L1 : Tensor.DOp} {r0 r1 : Row} (h0 : ScalarOp d L0 r0)
    (h1 : ScalarOp d L1 r1) (V : Fin d → ℕ → ℕ → ℝ → ℝ → ℝ)
    (hV : ∀ a ∈ r0, ∀ b ∈ r1, ∀ i : Fin d, ∃ g, getFac pd k.factors i (keyAt a.1 b.1 i) = .ok g ∧
      (g.inS = [] ∧ g.out0 = [] ∧ g.out1 = []) ∧ ∀ x y, g.ev x y [] = V i (a.1.data.getD i 0) (b.1.data.getD i 0) x y) :
    ∃ K, mkTPLL pd k L0 L1 = .ok K ∧ K.k = k ∧ K.L0 = L0 ∧ K.L1 = L1 ∧ K.outs = ([], []) ∧
      ∀ x y : Fin d → ℝ, K.evaluate (List.ofFn x) (some (List.ofFn y)) [] = .ok (r0.map fun a =>
        a.2 * (r1.map fun b => b.2 * ∏ i, V i (a.1.data.getD i 0) (b.1.data.getD i 0) (x i) (y i)).sum).sum := by
  subst hd
  have hA : ∀ p ∈ pairs r0 r1, Avail pd k.factors p.1.1 p.2.1 := fun p hp i hi => by
    obtain ⟨g, h1, h2, -⟩ := hV p.1 (Tensor.mem_pairs.mp hp).1 p.2 (Tensor.mem_pairs.mp hp).2 ⟨i, hi⟩
    exact ⟨g, h1, h2⟩
  have hinv : Tensor.InvF pd k.factors (List.replicate k.factors.length []) := by
    intro i key v hv
    rw [Tensor.look_replicate] at hv
    cases hv
  have hlen : ∀ p ∈ pairs r0 r1, p.1.1.data.length = k.factors.length := fun p hp => h0.2.2.2.2 _ (Tensor.mem_pairs.mp hp).1
  obtain ⟨⟨ss, c⟩, h⟩ := outer_ok (by simp [TP.factors]) (pairs r0 r1) (List.replicate k.factors.length []) hinv (by simp) hlen hA
  have hl := (Tensor.outerLoop_spec pd k.factors _ _ ss c h hinv (by simp) hlen).1
  have hne : ss.isEmpty = false := by
    obtain ⟨a, ha⟩ := List.exists_mem_of_ne_nil _ h0.2.2.2.1
    obtain ⟨b, hb⟩ := List.exists_mem_of_ne_nil _ h1.2.2.2.1
    have hp : (a, b) ∈ pairs r0 r1 := Tensor.mem_pairs.mpr ⟨ha, hb⟩
    have : 0 < ss.length := by rw [hl]; exact List.length_pos_of_mem hp
    cases ss with
    | nil => simp at this
    | cons => rfl
  have hK : mkTPLL pd k L0 L1 = .ok ⟨k, L0, L1, ss, c⟩ := by
    unfold mkTPLL
    simp only [Tensor.coeffRow_scalar h0, Tensor.coeffRow_scalar h1, h, bind, Except.bind, hne, Bool.false_eq_true, ↓reduceIte]
  refine ⟨⟨k, L0, L1, ss, c⟩, hK, rfl, rfl, rfl, ?_, fun x y => ?_⟩
  · obtain ⟨r0', r1', hB⟩ := Tensor.mkTPLL_built hK (row_ok h0)
    have e0 := hB.row0
    have e1 := hB.row1
    rw [Tensor.coeffRow_scalar h0] at e0
    rw [Tensor.coeffRow_scalar h1] at e1
    cases e0
    cases e1
    unfold TPLL.outs
    rcases hss : ss with _ | ⟨s, ss'⟩
    · rfl
    · have hn : 0 < (pairs r0 r1).length := by rw [← hB.len]; simp [hss]
      obtain ⟨t, ht, hm⟩ := hB.summ 0 _ (List.getElem?_eq_getElem hn)
      simp only [hss, List.getElem?_cons_zero, Option.some.injEq] at ht
      subst ht
      have hf := ((Tensor.mkTP_ok_iff _ t).mp hm).1
      have hmem : t.head ∈ (List.range k.factors.length).map fun i => facD pd k.factors i (keyAt (pairs r0 r1)[0].1.1 (pairs r0 r1)[0].2.1 i) := by
        rw [← hf]; simp [TP.factors]
      obtain ⟨i, hi, he⟩ := List.mem_map.mp hmem
      obtain ⟨g, hg, hs⟩ := hA _ (List.getElem_mem hn) i (List.mem_range.mp hi)
      rw [facD_avail hg] at he
      simp only [← he, hs.2.1, hs.2.2]
  · obtain ⟨r0', r1', e0, e1, -, he⟩ := Tensor.tpll_evaluate pd k L0 L1 _ hK (row_ok h0)
    rw [Tensor.coeffRow_scalar h0] at e0
    rw [Tensor.coeffRow_scalar h1] at e1
    cases e0
    cases e1
    rw [he, Tensor.sum_pairs]
    congr 2
    refine List.map_congr_left fun a ha => ?_
    rw [← List.sum_map_mul_left]
    congr 1
    refine List.map_congr_left fun b hb => ?_
    rw [mul_assoc]
    congr 2
    refine Finset.prod_congr rfl fun i _ => ?_
    obtain ⟨g, hg, -, hv⟩ := hV a ha b hb i
    dsimp only
    rw [facD_avail hg, ← hv]
    simp

/-! ## Operators given by coefficient tables -/

/-- A multi-index as a function. -/
def miIx (d : ℕ) (m : MI) : Ix d := fun i => m.data.getD i 0

variable {d : ℕ} {I : Set (Ix d)} {K : Ix d → Pt d → Ix d → Pt d → ℝ}

/-- The orders of the terms of an operator lie in `I`. -/
def RowIn (I : Set (Ix d)) (r : Row) : Prop := ∀ mc ∈ r, miIx d mc.1 ∈ I

/-- Coefficients of an operator. -/
noncomputable def rowCoefs (r : Row) (h : RowIn I r) : I →₀ ℝ :=
  ∑ i : Fin r.length, Finsupp.single ⟨miIx d (r.get i).1, h _ (List.get_mem r i)⟩ (r.get i).2

lemma rowCoefs_sum (r : Row) (h : RowIn I r) (G : Ix d → ℝ) :
    ((rowCoefs r h).sum fun α t => t * G α) = (r.map fun mc => mc.2 * G (miIx d mc.1)).sum := by
  have e : ∀ a : I →₀ ℝ, (a.sum fun α c => c * G α) = Finsupp.linearCombination ℝ (fun α : I => G α) a := fun a => by
    rw [Finsupp.linearCombination_apply]
    rfl
  rw [e]
  unfold rowCoefs
  rw [map_sum]
  simp only [Finsupp.linearCombination_single, smul_eq_mul]
  rw [← Fin.sum_univ_fun_getElem]
  rfl

lemma op_cov_sum (h : JetKernel I K) (m : jetF I) (a b : I →₀ ℝ) (x y : Pt d) :
    (h.prior m).cov (h.op m a x) (h.op m b y) = a.sum fun α s => s * b.sum fun β t => t * K α x β y := by
  rw [op_cov]
  unfold Finsupp.sum
  simp only [Finset.mul_sum]
  exact Finset.sum_congr rfl fun α _ => Finset.sum_congr rfl fun β _ => by ring

/-- Covariances of operators given by tables. -/
lemma row_cov (h : JetKernel I K) (m : jetF I) {r0 r1 : Row} (h0 : RowIn I r0) (h1 : RowIn I r1) (x y : Pt d) :
    (h.prior m).cov (h.op m (rowCoefs r0 h0) x) (h.op m (rowCoefs r1 h1) y) =
      (r0.map fun a => a.2 * (r1.map fun b => b.2 * K (miIx d a.1) x (miIx d b.1) y).sum).sum := by
  rw [op_cov_sum]
  have e : (fun (α : I) (s : ℝ) => s * (rowCoefs r1 h1).sum fun β t => t * K α x β y) =
      fun (α : I) (s : ℝ) => s * (r1.map fun b => b.2 * K α x (miIx d b.1) y).sum := funext₂ fun α s => by
    rw [rowCoefs_sum r1 h1 fun β => K α x β y]
  rw [e]
  exact rowCoefs_sum r0 h0 fun α => (r1.map fun b => b.2 * K α x (miIx d b.1) y).sum

/-! ## Tensor products of Matérn kernels -/

/-- No term differentiates more than twice in one coordinate. -/
def Second (r : Row) : Prop := ∀ mc ∈ r, ∀ i, mc.1.data.getD i 0 ≤ 2

lemma box_le {p : Fin d → ℕ} {α : Ix d} (h : α ∈ box fun j => (p j : ℕ∞)) (j : Fin d) : α j ≤ p j :=
  Nat.cast_le.mp (show ((α j : ℕ∞)) ≤ (p j : ℕ∞) from h j)

lemma matern_getFac {pd : PDFac} {k : TP} {p : Fin d → ℕ} {s : Fin d → ℝ} (hk : MaternTP k p s)
    (hpd : ∀ i, FollowsMatern pd (p i) (s i)) (i : Fin d) {a b : ℕ} (ha : a ≤ p i) (hb : b ≤ p i) (ha2 : a ≤ 2) (hb2 : b ≤ 2) :
    ∃ g, getFac pd k.factors i (a, b) = .ok g ∧ (g.inS = [] ∧ g.out0 = [] ∧ g.out1 = []) ∧
      ∀ x y, g.ev x y [] = jetK (matφ (p i) (s i)) a x b y := by
  obtain ⟨k1, k01, h1, h0⟩ := mat_exists (s i) ha hb ha2 hb2
  obtain ⟨e1, e0⟩ := hpd i a b ha hb k1 k01 h1 h0
  refine ⟨facM k01, ?_, ⟨rfl, rfl, rfl⟩, fun x y => mat_value ha hb h1 h0 x y⟩
  have hf : k.factors[i.1]? = some (facM (.matern ⟨p i, fun _ => s i⟩)) := by
    rw [hk]
    simp
  simp only [getFac, hf, e1, e0, bind, Except.bind]

lemma rowIn_zero (p : Fin d → ℕ) : RowIn (box fun j => (p j : ℕ∞)) [((⟨[d], List.replicate d 0⟩ : MI), (1 : ℝ))] := by
  intro mc hmc j
  rw [List.mem_singleton.mp hmc]
  simp [miIx]

lemma second_zero (d : ℕ) : Second [((⟨[d], List.replicate d 0⟩ : MI), (1 : ℝ))] := by
  intro mc hmc j
  rw [List.mem_singleton.mp hmc]
  simp [List.getD_eq_getElem?_getD, List.getElem?_replicate]
  split_ifs <;> simp

lemma matern_head {k : TP} {p : Fin d → ℕ} {s : Fin d → ℝ} (hk : MaternTP k p s) : k.head.out0 = [] ∧ k.head.out1 = [] := by
  have : k.head ∈ k.factors := by simp [TP.factors]
  rw [hk] at this
  obtain ⟨i, hi⟩ := List.mem_ofFn.mp this
  rw [← hi]
  exact ⟨rfl, rfl⟩

lemma matern_make {pd : PDFac} {k : TP} {p : Fin d → ℕ} {s : Fin d → ℝ} (hk : MaternTP k p s)
    (hpd : ∀ i, FollowsMatern pd (p i) (s i)) {L0 L1 : Tensor.DOp} {r0 r1 : Row} (h0 : ScalarOp d L0 r0) (h1 : ScalarOp d L1 r1)
    (i0 : RowIn (box fun j => (p j : ℕ∞)) r0) (i1 : RowIn (box fun j => (p j : ℕ∞)) r1) (t0 : Second r0) (t1 : Second r1) :
    ∃ K, mkTPLL pd k L0 L1 = .ok K ∧ K.k = k ∧ K.L0 = L0 ∧ K.L1 = L1 ∧ K.outs = ([], []) ∧
      ∀ x y : Fin d → ℝ, K.evaluate (List.ofFn x) (some (List.ofFn y)) [] = .ok (r0.map fun a =>
        a.2 * (r1.map fun b => b.2 * matK p s (miIx d a.1) x (miIx d b.1) y).sum).sum :=
  make_value hk.length h0 h1 (fun i a b x y => jetK (matφ (p i) (s i)) a x b y)
    fun a ha b hb i => matern_getFac hk hpd i (box_le (i0 a ha) i) (box_le (i1 b hb) i) (t0 a ha i) (t1 b hb i)

/-- C67: applying two differential operators to the arguments of a tensor product of Matérn kernels succeeds, in either
order, as long as the kernels are differentiable often enough and no coordinate is differentiated more than twice; the
result is the covariance of the operators of the process. -/
theorem tensor_closed_form {pd : PDFac} {k : TP} {p : Fin d → ℕ} {s : Fin d → ℝ} (hk : MaternTP k p s)
    (hpd : ∀ i, FollowsMatern pd (p i) (s i)) {L0 L1 : Tensor.DOp} {r0 r1 : Row} (h0 : ScalarOp d L0 r0)
    (h1 : ScalarOp d L1 r1) (i0 : RowIn (box fun j => (p j : ℕ∞)) r0) (i1 : RowIn (box fun j => (p j : ℕ∞)) r1)
    (t0 : Second r0) (t1 : Second r1) (m : jetF (box fun j => (p j : ℕ∞))) :
    ∃ K0 K1 K, applyTP pd L0 k 0 = .ok K0 ∧ applyTP pd L1 k 1 = .ok K1 ∧ applyTPLL pd L1 K0 1 = .ok K ∧ applyTPLL pd L0 K1 0 = .ok K ∧
      ∀ x y, K.evaluate (List.ofFn x) (some (List.ofFn y)) [] = .ok (((matern_jet p s).prior m).cov
        ((matern_jet p s).op m (rowCoefs r0 i0) x) ((matern_jet p s).op m (rowCoefs r1 i1) y)) := by
  have hz := Tensor.scalarOp_zero d
  have hl := hk.length
  obtain ⟨K0, hK0, a1, a2, a3, a4, -⟩ := matern_make hk hpd h0 hz i0 (rowIn_zero p) t0 (second_zero d)
  obtain ⟨K1, hK1, b1, b2, b3, b4, -⟩ := matern_make hk hpd hz h1 (rowIn_zero p) i1 (second_zero d) t1
  obtain ⟨K, hK, -, -, -, -, c5⟩ := matern_make hk hpd h0 h1 i0 i1 t0 t1
  have hh := matern_head hk
  refine ⟨K0, K1, K, ?_, ?_, ?_, ?_, fun x y => ?_⟩
  · unfold applyTP
    rw [hl, Tensor.validate_ok (Or.inl rfl) h0.2.1 (by simp [hh.1, h0.2.2.1])]
    simpa [bind, Except.bind] using hK0
  · unfold applyTP
    rw [hl, Tensor.validate_ok (Or.inr rfl) h1.2.1 (by simp [hh.2, h1.2.2.1])]
    simpa [bind, Except.bind] using hK1
  · unfold applyTPLL
    rw [a4, a1, hl, Tensor.validate_ok (Or.inr rfl) h1.2.1 (by simp [h1.2.2.1])]
    simp only [bind, Except.bind, one_ne_zero, ↓reduceIte, a2, a3, Tensor.zeroOrder]
    exact hK
  · unfold applyTPLL
    rw [b4, b1, hl, Tensor.validate_ok (Or.inl rfl) h0.2.1 (by simp [h0.2.2.1])]
    simp only [bind, Except.bind, ↓reduceIte, b2, b3, Tensor.zeroOrder]
    exact hK
  · rw [c5, row_cov]

lemma sum_swap (r0 r1 : Row) (G : MI → MI → ℝ) : (r0.map fun a => a.2 * (r1.map fun b => b.2 * G a.1 b.1).sum).sum =
    (r1.map fun b => b.2 * (r0.map fun a => a.2 * G a.1 b.1).sum).sum := by
  simp only [← Fin.sum_univ_fun_getElem, Finset.mul_sum]
  rw [Finset.sum_comm]
  exact Finset.sum_congr rfl fun i _ => Finset.sum_congr rfl fun j _ => by ring

/-- C67: the same if the kernel obtained from the first operator has been expanded into its scaled tensor products
(sums of sums) before the second one is applied to each of them. -/
theorem tensor_expanded_form {pd : PDFac} {k : TP} {p : Fin d → ℕ} {s : Fin d → ℝ} (hk : MaternTP k p s)
    (hpd : ∀ i, FollowsMatern pd (p i) (s i)) {L0 L1 : Tensor.DOp} {r0 r1 : Row} (h0 : ScalarOp d L0 r0)
    (h1 : ScalarOp d L1 r1) (i0 : RowIn (box fun j => (p j : ℕ∞)) r0) (i1 : RowIn (box fun j => (p j : ℕ∞)) r1)
    (t0 : Second r0) (t1 : Second r1) (m : jetF (box fun j => (p j : ℕ∞))) {K1 : TPLL} (hK1 : applyTP pd L1 k 1 = .ok K1) :
    ∃ v : Fin K1.summands.length → Pt d → Pt d → ℝ,
      (∀ n, ∃ K, applyTP pd L0 (K1.summands.get n).2 0 = .ok K ∧ ∀ x y, K.evaluate (List.ofFn x) (some (List.ofFn y)) [] = .ok (v n x y)) ∧
      ∀ x y, ∑ n, (K1.summands.get n).1 * v n x y = ((matern_jet p s).prior m).cov
        ((matern_jet p s).op m (rowCoefs r0 i0) x) ((matern_jet p s).op m (rowCoefs r1 i1) y) := by
  have hz := Tensor.scalarOp_zero d
  have hl := hk.length
  have hh := matern_head hk
  have hK1 : mkTPLL pd k (Tensor.zeroOrder [d]) L1 = .ok K1 := by
    unfold applyTP at hK1
    rw [hl, Tensor.validate_ok (Or.inr rfl) h1.2.1 (by simp [hh.2, h1.2.2.1])] at hK1
    simpa [bind, Except.bind] using hK1
  obtain ⟨r0', r1', hB⟩ := Tensor.mkTPLL_built hK1 (by rw [hl]; exact row_ok hz)
  have e0 := hB.row0
  have e1 := hB.row1
  rw [Tensor.coeffRow_scalar hz] at e0
  rw [Tensor.coeffRow_scalar h1] at e1
  cases e0
  cases e1
  have hp : pairs [((⟨[d], List.replicate d 0⟩ : MI), (1 : ℝ))] r1 = r1.map fun b => ((⟨[d], List.replicate d 0⟩, 1), b) := by
    simp [pairs]
  have hlen : K1.summands.length = r1.length := by rw [hB.len, hp, List.length_map]
  have hsum : ∀ n : Fin K1.summands.length, (K1.summands.get n).1 = (r1.get (n.cast hlen)).2 ∧
      (K1.summands.get n).2.factors = (List.range d).map fun i => facD pd k.factors i (0, (r1.get (n.cast hlen)).1.data.getD i 0) := by
    intro n
    obtain ⟨t, ht, hm⟩ := hB.summ n ((⟨[d], List.replicate d 0⟩, 1), r1.get (n.cast hlen)) (by
      rw [hp, List.getElem?_map, List.getElem?_eq_getElem (by rw [← hlen]; exact n.2)]
      rfl)
    have hg : K1.summands.get n = (1 * (r1.get (n.cast hlen)).2, t) := by
      rw [List.getElem?_eq_getElem n.2, Option.some.injEq] at ht
      exact ht
    rw [hg, ((Tensor.mkTP_ok_iff _ t).mp hm).1, hl]
    refine ⟨one_mul _, List.map_congr_left fun i hi => ?_⟩
    simp [keyAt, List.getD_eq_getElem?_getD, List.mem_range.mp hi]
  have hkey : ∀ n : Fin K1.summands.length, ∃ K, applyTP pd L0 (K1.summands.get n).2 0 = .ok K ∧
      ∀ x y : Pt d, K.evaluate (List.ofFn x) (some (List.ofFn y)) [] = .ok (r0.map fun a =>
        a.2 * matK p s (miIx d a.1) x (miIx d (r1.get (n.cast hlen)).1) y).sum := by
    intro n
    set b := r1.get (n.cast hlen) with hb
    have hbm : b ∈ r1 := List.get_mem _ _
    set t := (K1.summands.get n).2 with ht
    have hf := (hsum n).2
    have htl : t.factors.length = d := by rw [hf]; simp
    -- the factors of the summand
    have hfac : ∀ i : Fin d, ∀ a ≤ p i, a ≤ 2 → ∃ g, getFac pd t.factors i (a, 0) = .ok g ∧ (g.inS = [] ∧ g.out0 = [] ∧ g.out1 = []) ∧
        ∀ x y, g.ev x y [] = jetK (matφ (p i) (s i)) a x (b.1.data.getD i 0) y := by
      intro i a ha ha2
      have hbi := box_le (i1 b hbm) i
      obtain ⟨k1, k01, q1, q0⟩ := mat_exists (s i) ha hbi ha2 (t1 b hbm i)
      obtain ⟨u1, u0⟩ := hpd i a _ ha hbi k1 k01 q1 q0
      have hki : k.factors[i.1]? = some (facM (.matern ⟨p i, fun _ => s i⟩)) := by
        rw [hk]
        simp
      have hD : facD pd k.factors i (0, b.1.data.getD i 0) = facM k1 := by
        have : getFac pd k.factors i (0, b.1.data.getD i 0) = .ok (facM k1) := by
          have u1 : Tensor.applyPD pd true (b.1.data.getD i 0) (facM (.matern ⟨p i, fun _ => s i⟩)) = .ok (facM k1) := u1
          simp only [getFac, hki, u1, bind, Except.bind]
          rfl
        simp only [facD, this]
      have hti : t.factors[i.1]? = some (facM k1) := by
        rw [hf, List.getElem?_map, List.getElem?_range i.2, ← hD]
        rfl
      refine ⟨facM k01, ?_, ⟨rfl, rfl, rfl⟩, fun x y => mat_value ha hbi q1 q0 x y⟩
      simp only [getFac, hti, bind, Except.bind]
      rw [show Tensor.applyPD pd true 0 (facM k1) = .ok (facM k1) from rfl]
      exact u0
    obtain ⟨K, hK, -, -, -, -, hv⟩ := make_value (pd := pd) htl h0 hz
      (fun i a b' x y => jetK (matφ (p i) (s i)) a x (b.1.data.getD i 0) y) fun a ha z hz' i => by
        rw [List.mem_singleton.mp hz']
        have hk0 : keyAt a.1 (⟨[d], List.replicate d 0⟩ : MI) i = (a.1.data.getD i 0, 0) := by
          simp [keyAt, List.getD_eq_getElem?_getD]
        rw [hk0]
        exact hfac i _ (box_le (i0 a ha) i) (t0 a ha i)
    refine ⟨K, ?_, fun x y => ?_⟩
    · have hth : t.head.out0 = [] := by
        have : t.head = facD pd k.factors 0 (0, b.1.data.getD 0 0) := by
          have h2 : t.factors[0]? = some t.head := by simp [TP.factors]
          have hd0 : 0 < d := by rw [← htl]; simp [TP.factors]
          rw [hf, List.getElem?_map, List.getElem?_range hd0] at h2
          exact (Option.some.inj h2).symm
        rw [this]
        have hd0 : 0 < d := by rw [← htl]; simp [TP.factors]
        obtain ⟨g, hg, hgs, -⟩ := matern_getFac hk hpd ⟨0, hd0⟩ (Nat.zero_le _) (box_le (i1 b hbm) ⟨0, hd0⟩) (Nat.zero_le 2) (t1 b hbm 0)
        rw [show facD pd k.factors 0 (0, b.1.data.getD 0 0) = g by
          unfold facD
          rw [show getFac pd k.factors 0 (0, b.1.data.getD 0 0) = .ok g from hg]]
        exact hgs.2.1
      unfold applyTP
      rw [htl, Tensor.validate_ok (Or.inl rfl) h0.2.1 (by simp [hth, h0.2.2.1])]
      simpa [bind, Except.bind] using hK
    · rw [hv]
      simp only [List.map_cons, List.map_nil, List.sum_cons, List.sum_nil, add_zero, one_mul]
      rfl
  refine ⟨fun n x y => (r0.map fun a => a.2 * matK p s (miIx d a.1) x (miIx d (r1.get (n.cast hlen)).1) y).sum, hkey, fun x y => ?_⟩
  rw [row_cov, sum_swap r0 r1 fun a b => matK p s (miIx d a) x (miIx d b) y, ← Fin.sum_univ_fun_getElem, ← Fin.sum_congr' _ hlen]
  exact Finset.sum_congr rfl fun n _ => by rw [(hsum n).1]; rfl

/-- The Laplacian in the plane and the mixed derivative `∂_1 ∂_2` for Matérn-5/2 times Matérn-3/2: rows, smoothness and
exact differentiation. -/
example : ∃ (pd : PDFac) (k : TP) (L0 L1 : Tensor.DOp) (r0 r1 : Row), MaternTP k ![2, 1] ![3, 4] ∧
    (∀ i, FollowsMatern pd ((![2, 1] : Fin 2 → ℕ) i) ((![3, 4] : Fin 2 → ℝ) i)) ∧ ScalarOp 2 L0 r0 ∧ ScalarOp 2 L1 r1 ∧
    RowIn (box fun j => (((![2, 1] : Fin 2 → ℕ) j : ℕ) : ℕ∞)) r0 ∧ RowIn (box fun j => (((![2, 1] : Fin 2 → ℕ) j : ℕ) : ℕ∞)) r1 ∧
    Second r0 ∧ Second r1 ∧ r0.length = 2 := by
  obtain ⟨pd, hpd⟩ := exact_follows
  have key : ∀ (a b : ℕ), a ≤ 2 → b ≤ 1 → miIx 2 ⟨[2], [a, b]⟩ ∈ box fun j => (((![2, 1] : Fin 2 → ℕ) j : ℕ) : ℕ∞) := by
    intro a b ha hb j
    fin_cases j
    · show ((a : ℕ) : ℕ∞) ≤ ((2 : ℕ) : ℕ∞)
      exact_mod_cast ha
    · show ((b : ℕ) : ℕ∞) ≤ ((1 : ℕ) : ℕ∞)
      exact_mod_cast hb
  refine ⟨pd, ⟨_, [_]⟩, ⟨⟨⟨[([], [(⟨[2], [2, 0]⟩, 5), (⟨[2], [0, 1]⟩, 7)])], [2], []⟩, [2], []⟩, none⟩,
    ⟨⟨⟨[([], [(⟨[2], [1, 1]⟩, 1)])], [2], []⟩, [2], []⟩, none⟩, _, _, rfl, fun i => hpd _ _, ⟨rfl, rfl, rfl, by simp, ?_⟩,
    ⟨rfl, rfl, rfl, by simp, ?_⟩, ?_, ?_, ?_, ?_, rfl⟩
  · intro mc hmc
    simp only [List.mem_cons, List.not_mem_nil, or_false] at hmc
    rcases hmc with rfl | rfl <;> rfl
  · intro mc hmc
    rw [List.mem_singleton.mp hmc]
    rfl
  · intro mc hmc
    simp only [List.mem_cons, List.not_mem_nil, or_false] at hmc
    rcases hmc with rfl | rfl
    · exact key 2 0 le_rfl (by simp)
    · exact key 0 1 (by simp) le_rfl
  · intro mc hmc
    rw [List.mem_singleton.mp hmc]
    exact key 1 1 (by simp) le_rfl
  · intro mc hmc i
    simp only [List.mem_cons, List.not_mem_nil, or_false] at hmc
    rcases hmc with rfl | rfl <;> rcases i with _ | _ | i <;> simp
  · intro mc hmc i
    rw [List.mem_singleton.mp hmc]
    rcases i with _ | _ | i <;> simp

/-! ## The heat equation -/

/-- `∂_t f - α ∑ ∂_j² f = y` at `x`, where coordinate 0 is time. -/
def HeatAt {n : ℕ} (alpha : ℝ) (f : Pt (n + 2) → ℝ) (x : Pt (n + 2)) (y : ℝ) : Prop :=
  ∃ (Dt : ℝ) (D1 : Fin (n + 1) → ℝ → ℝ) (D2 : Fin (n + 1) → ℝ),
    HasDerivAt (fun t : ℝ => f (x + t • Pi.single 0 1)) Dt 0 ∧
    (∀ j, (∀ t, HasDerivAt (fun t : ℝ => f (x + t • Pi.single j.succ 1)) (D1 j t) t) ∧ HasDerivAt (D1 j) (D2 j) 0) ∧
    Dt - alpha * ∑ j, D2 j = y

/-- Row of the time derivative. -/
def rowT (n : ℕ) : Row := [(MI.fromPos 0 [n + 2] 1, 1)]

/-- Row of the scaled spatial Laplacian. -/
noncomputable def rowL (n : ℕ) (alpha : ℝ) : Row := weightRow [n + 2] 2 (List.ofFn (Fin.cons 0 fun _ => -alpha : Fin (n + 2) → ℝ))

lemma miIx_fromPos (j : Fin d) (o : ℕ) : miIx d (MI.fromPos j [d] o) = Pi.single j o := by
  funext i
  simp only [miIx, MI.fromPos, List.prod_cons, List.prod_nil, mul_one, List.getD_eq_getElem?_getD]
  by_cases h : i = j
  · subst h
    rw [List.getElem?_set_self (by simp)]
    simp
  · rw [List.getElem?_set_ne (fun h' => h (Fin.ext h'.symm)), Pi.single_eq_of_ne h]
    simp

lemma rowT_sum (n : ℕ) (G : Ix (n + 2) → ℝ) : ((rowT n).map fun mc => mc.2 * G (miIx (n + 2) mc.1)).sum = G (Pi.single 0 1) := by
  have := miIx_fromPos (0 : Fin (n + 2)) 1
  simp only [rowT, List.map_cons, List.map_nil, List.sum_cons, List.sum_nil, add_zero, one_mul]
  rw [← this]
  rfl

lemma rowL_sum (n : ℕ) (alpha : ℝ) (G : Ix (n + 2) → ℝ) :
    ((rowL n alpha).map fun mc => mc.2 * G (miIx (n + 2) mc.1)).sum = -alpha * ∑ j : Fin (n + 1), G (Pi.single j.succ 2) := by
  have h := weightRow_apply (fun m => G (miIx (n + 2) m)) [n + 2] 2 (List.ofFn (Fin.cons 0 fun _ => -alpha : Fin (n + 2) → ℝ))
  unfold rowApply at h
  simp only [smul_eq_mul] at h
  unfold rowL
  rw [h, ← Fin.sum_congr' _ (List.length_ofFn (f := (Fin.cons 0 fun _ => -alpha : Fin (n + 2) → ℝ))).symm, Fin.sum_univ_succ]
  simp only [Fin.val_cast, Finset.mul_sum]
  rw [show (List.ofFn (Fin.cons 0 fun _ => -alpha : Fin (n + 2) → ℝ)).getD (0 : Fin (n + 2)).1 0 = 0 by simp, zero_mul, zero_add]
  refine Finset.sum_congr rfl fun j _ => ?_
  rw [miIx_fromPos]
  congr 1
  rw [List.getD_eq_getElem?_getD, List.getElem?_eq_getElem (by rw [List.length_ofFn]; exact j.succ.2), List.getElem_ofFn]
  rfl

/-- The summands of the heat operator. -/
lemma heat_rows (n : ℕ) {alpha : ℝ} (ha : alpha ≠ 0) {T L : DiffOp} (h : heatOperator [n + 2] alpha = .ok (T, L)) (o : Option ℕ) :
    ScalarOp (n + 2) ⟨T, o⟩ (rowT n) ∧ ScalarOp (n + 2) ⟨L, o⟩ (rowL n alpha) := by
  have e : (⟨[1 + (n + 2 - 1)], 1 :: List.replicate (n + 2 - 1) 0⟩ : MI) = MI.fromPos 0 [n + 2] 1 := by
    unfold MI.fromPos
    rw [show 1 + (n + 2 - 1) = n + 2 by omega]
    simp [List.replicate_succ]
  have e1 : timeDerivative [n + 2] = .ok ⟨⟨[([], rowT n)], [n + 2], []⟩, [n + 2], []⟩ := by
    unfold timeDerivative
    simp only
    rw [e, partialDerivative_ok]
    rfl
  have e2 : ((List.range (n + 2)).map fun i => if i = 0 then 0 else -alpha) =
      List.ofFn (Fin.cons 0 fun _ => -alpha : Fin (n + 2) → ℝ) := by
    rw [List.range_succ_eq_map, List.ofFn_succ]
    simp [Function.comp_def, List.replicate_succ]
  unfold heatOperator at h
  simp only at h
  rw [e1, e2, weightedLaplacian_ok] at h
  simp only [bind, Except.bind, and_self, ↓reduceIte] at h
  obtain ⟨rfl, rfl⟩ := Prod.mk.inj (Except.ok.inj h)
  refine ⟨⟨rfl, rfl, rfl, by simp [rowT], ?_⟩, ⟨rfl, rfl, rfl, ?_, ?_⟩⟩
  · intro mc hmc
    rw [List.mem_singleton.mp hmc]
    simp [MI.fromPos]
  · intro h0
    have h1 := rowL_sum n alpha fun _ => 1
    rw [h0] at h1
    simp only [List.map_nil, List.sum_nil, Finset.sum_const, Finset.card_univ, Fintype.card_fin, nsmul_eq_mul, mul_one] at h1
    rcases mul_eq_zero.mp h1.symm with h2 | h2
    · exact ha (by linarith)
    · have : ((n + 1 : ℕ) : ℝ) ≠ 0 := Nat.cast_ne_zero.mpr (by omega)
      exact this h2
  · intro mc hmc
    obtain ⟨q, -, rfl⟩ := List.mem_map.mp hmc
    simp [MI.fromPos]

/-- Smoothness needed for the heat operator: once in time, twice in space. -/
def HeatSmooth {n : ℕ} (p : Fin (n + 2) → ℕ) : Prop := 1 ≤ p 0 ∧ ∀ j : Fin (n + 1), 2 ≤ p j.succ

lemma single_box {p : Fin d → ℕ} {j : Fin d} {o : ℕ} (h : o ≤ p j) : (Pi.single j o : Ix d) ∈ box fun j => (p j : ℕ∞) := by
  intro i
  by_cases hi : i = j
  · subst hi
    rw [Pi.single_eq_same]
    exact Nat.cast_le.mpr h
  · rw [Pi.single_eq_of_ne hi]
    simp

lemma rowT_in {n : ℕ} {p : Fin (n + 2) → ℕ} (hp : HeatSmooth p) : RowIn (box fun j => (p j : ℕ∞)) (rowT n) := by
  intro mc hmc
  rw [List.mem_singleton.mp hmc]
  have := miIx_fromPos (0 : Fin (n + 2)) 1
  rw [show miIx (n + 2) (MI.fromPos 0 [n + 2] 1, (1 : ℝ)).1 = Pi.single 0 1 from this]
  exact single_box hp.1

lemma rowL_mem {n : ℕ} {alpha : ℝ} {mc : MI × ℝ} (h : mc ∈ rowL n alpha) : ∃ j : Fin (n + 1), mc.1 = MI.fromPos j.succ [n + 2] 2 := by
  obtain ⟨q, hq, rfl⟩ := List.mem_map.mp h
  obtain ⟨h1, h2⟩ := List.mem_filter.mp hq
  rw [List.mem_range, List.length_ofFn] at h1
  rcases q with _ | q
  · simp at h2
  · exact ⟨⟨q, by omega⟩, rfl⟩

lemma rowL_in {n : ℕ} {p : Fin (n + 2) → ℕ} (hp : HeatSmooth p) (alpha : ℝ) : RowIn (box fun j => (p j : ℕ∞)) (rowL n alpha) := by
  intro mc hmc
  obtain ⟨j, hj⟩ := rowL_mem hmc
  rw [hj, miIx_fromPos]
  exact single_box (hp.2 j)

lemma fromPos_le (q : ℕ) (sh : Nd.Shp) {o : ℕ} (ho : o ≤ 2) (i : ℕ) : (MI.fromPos q sh o).data.getD i 0 ≤ 2 := by
  simp only [MI.fromPos, List.getD_eq_getElem?_getD, List.getElem?_set, List.getElem?_replicate]
  split_ifs <;> simp_all

lemma rowT_second (n : ℕ) : Second (rowT n) := by
  intro mc hmc
  rw [List.mem_singleton.mp hmc]
  exact fromPos_le _ _ (by norm_num)

lemma rowL_second (n : ℕ) (alpha : ℝ) : Second (rowL n alpha) := by
  intro mc hmc
  obtain ⟨j, hj⟩ := rowL_mem hmc
  rw [hj]
  exact fromPos_le _ _ le_rfl

/-- Coefficients of the heat operator. -/
noncomputable def heatCoefs {n : ℕ} {p : Fin (n + 2) → ℕ} (hp : HeatSmooth p) (alpha : ℝ) : (box fun j => (p j : ℕ∞)) →₀ ℝ :=
  rowCoefs (rowT n) (rowT_in hp) + rowCoefs (rowL n alpha) (rowL_in hp alpha)

lemma op_add (h : JetKernel I K) (m : jetF I) (a b : I →₀ ℝ) (x : Pt d) : h.op m (a + b) x = h.op m a x + h.op m b x := by
  unfold JetKernel.op
  rw [Finsupp.mapDomain_add, map_add]

lemma heatCoefs_sum {n : ℕ} {p : Fin (n + 2) → ℕ} (hp : HeatSmooth p) (alpha : ℝ) (G : Ix (n + 2) → ℝ) :
    ((heatCoefs hp alpha).sum fun α t => t * G α) = G (Pi.single 0 1) - alpha * ∑ j : Fin (n + 1), G (Pi.single j.succ 2) := by
  unfold heatCoefs
  rw [Finsupp.sum_add_index' (by simp) (by intros; ring), rowCoefs_sum, rowCoefs_sum, rowT_sum, rowL_sum]
  ring

/-- C67: the four kernels computed for the two summands of the heat operator, applied to both arguments of a tensor
product of Matérn kernels, add up to the covariance of the heat operator of the process. -/
theorem heat_closed_form {n : ℕ} {pd : PDFac} {k : TP} {p : Fin (n + 2) → ℕ} {s : Fin (n + 2) → ℝ} (hk : MaternTP k p s)
    (hpd : ∀ i, FollowsMatern pd (p i) (s i)) (hp : HeatSmooth p) {alpha : ℝ} (ha : alpha ≠ 0) {T L : DiffOp}
    (hH : heatOperator [n + 2] alpha = .ok (T, L)) (o : Option ℕ) (m : jetF (box fun j => (p j : ℕ∞))) :
    ∃ KTT KTL KLT KLL, (applyTP pd ⟨T, o⟩ k 1 >>= fun K => applyTPLL pd ⟨T, o⟩ K 0) = .ok KTT ∧
      (applyTP pd ⟨L, o⟩ k 1 >>= fun K => applyTPLL pd ⟨T, o⟩ K 0) = .ok KTL ∧
      (applyTP pd ⟨T, o⟩ k 1 >>= fun K => applyTPLL pd ⟨L, o⟩ K 0) = .ok KLT ∧
      (applyTP pd ⟨L, o⟩ k 1 >>= fun K => applyTPLL pd ⟨L, o⟩ K 0) = .ok KLL ∧
      ∀ x y, ∃ vTT vTL vLT vLL, KTT.evaluate (List.ofFn x) (some (List.ofFn y)) [] = .ok vTT ∧
        KTL.evaluate (List.ofFn x) (some (List.ofFn y)) [] = .ok vTL ∧ KLT.evaluate (List.ofFn x) (some (List.ofFn y)) [] = .ok vLT ∧
        KLL.evaluate (List.ofFn x) (some (List.ofFn y)) [] = .ok vLL ∧
        vTT + vTL + (vLT + vLL) = ((matern_jet p s).prior m).cov ((matern_jet p s).op m (heatCoefs hp alpha) x)
          ((matern_jet p s).op m (heatCoefs hp alpha) y) := by
  obtain ⟨hT, hL⟩ := heat_rows n ha hH o
  obtain ⟨-, K1, KTT, -, a1, -, a2, aE⟩ := tensor_closed_form hk hpd hT hT (rowT_in hp) (rowT_in hp) (rowT_second n) (rowT_second n) m
  obtain ⟨-, K2, KTL, -, b1, -, b2, bE⟩ := tensor_closed_form hk hpd hT hL (rowT_in hp) (rowL_in hp alpha) (rowT_second n) (rowL_second n alpha) m
  obtain ⟨-, K3, KLT, -, c1, -, c2, cE⟩ := tensor_closed_form hk hpd hL hT (rowL_in hp alpha) (rowT_in hp) (rowL_second n alpha) (rowT_second n) m
  obtain ⟨-, K4, KLL, -, d1, -, d2, dE⟩ := tensor_closed_form hk hpd hL hL (rowL_in hp alpha) (rowL_in hp alpha) (rowL_second n alpha) (rowL_second n alpha) m
  refine ⟨KTT, KTL, KLT, KLL, by rw [a1]; exact a2, by rw [b1]; exact b2, by rw [c1]; exact c2, by rw [d1]; exact d2, fun x y =>
    ⟨_, _, _, _, aE x y, bE x y, cE x y, dE x y, ?_⟩⟩
  unfold heatCoefs
  rw [op_add, op_add]
  simp only [← covBil_apply, map_add, LinearMap.add_apply]
  ring

lemma coef_eq (a : I →₀ ℝ) (β : I) [DecidablePred fun α : Ix d => α = β.1] :
    (a.sum fun α t => t * if α.1 = β.1 then 1 else 0) = a β := by
  simp only [mul_ite, mul_one, mul_zero, Subtype.coe_inj]
  rw [Finsupp.sum_ite_eq']
  split_ifs with h
  · rfl
  · exact (Finsupp.notMem_support_iff.mp h).symm

/-- The value and the heat operator are linearly independent. -/
lemma heat_independent {n : ℕ} {p : Fin (n + 2) → ℕ} (hp : HeatSmooth p) (alpha : ℝ) (h0 : (0 : Ix (n + 2)) ∈ box fun j => (p j : ℕ∞)) :
    LinearIndependent ℝ ![(Finsupp.single ⟨0, h0⟩ 1 : (box fun j => (p j : ℕ∞)) →₀ ℝ), heatCoefs hp alpha] := by
  classical
  have e0 : heatCoefs hp alpha ⟨0, h0⟩ = 0 := by
    rw [← coef_eq, heatCoefs_sum hp alpha fun α => if α = 0 then 1 else 0]
    simp [Pi.single_eq_zero_iff]
  have e1 : heatCoefs hp alpha ⟨Pi.single 0 1, single_box hp.1⟩ = 1 := by
    rw [← coef_eq, heatCoefs_sum hp alpha fun α => if α = Pi.single 0 1 then 1 else 0]
    rw [if_pos rfl, Finset.sum_eq_zero, mul_zero, sub_zero]
    intro j _
    rw [if_neg fun h => by
      have := congrFun h j.succ
      rw [Pi.single_eq_same, Pi.single_eq_of_ne (Fin.succ_ne_zero j)] at this
      omega]
  rw [LinearIndependent.pair_iff]
  intro u v huv
  have h1 := congrArg (fun a : (box fun j => (p j : ℕ∞)) →₀ ℝ => a ⟨0, h0⟩) huv
  have h2 := congrArg (fun a : (box fun j => (p j : ℕ∞)) →₀ ℝ => a ⟨Pi.single 0 1, single_box hp.1⟩) huv
  simp only [Finsupp.add_apply, Finsupp.smul_apply, e0, e1, Finsupp.single_eq_same, smul_eq_mul, mul_one, mul_zero, add_zero,
    Finsupp.zero_apply] at h1 h2
  refine ⟨h1, ?_⟩
  rw [h1, zero_mul, zero_add] at h2
  exact h2

/-- The derivatives of a function give the heat operator. -/
lemma heatAt_of_jet {n : ℕ} {p : Fin (n + 2) → ℕ} (hp : HeatSmooth p) (alpha : ℝ) {f : Pt (n + 2) → ℝ} {J : Ix (n + 2) → Pt (n + 2) → ℝ}
    (hJ : HasJet (box fun j => (p j : ℕ∞)) f J) (x : Pt (n + 2)) :
    HeatAt alpha f x (J (Pi.single 0 1) x - alpha * ∑ j : Fin (n + 1), J (Pi.single j.succ 2) x) := by
  refine ⟨J (Pi.single 0 1) x, fun j t => J (Pi.single j.succ 1) (x + t • Pi.single j.succ 1), fun j => J (Pi.single j.succ 2) x, ?_, fun j => ⟨fun t => ?_, ?_⟩, rfl⟩
  · have h := hJ.partial (α := 0) (j := 0) (by rw [zero_add]; exact single_box hp.1) x
    rw [hJ.zero, zero_add] at h
    exact h
  · have h := hJ.partial (α := 0) (j := j.succ) (by rw [zero_add]; exact single_box (by have := hp.2 j; omega)) (x + t • Pi.single j.succ 1)
    rw [hJ.zero, zero_add] at h
    have h3 : HasDerivAt (fun s : ℝ => f (x + t • Pi.single j.succ 1 + s • Pi.single j.succ 1))
        (J (Pi.single j.succ 1) (x + t • Pi.single j.succ 1)) (t - t) := by rwa [sub_self]
    have h4 := h3.comp_sub_const t t
    refine h4.congr_of_eventuallyEq (Filter.Eventually.of_forall fun s => ?_)
    refine congrArg f ?_
    funext i
    simp only [Pi.add_apply, Pi.smul_apply, smul_eq_mul]
    ring
  · have h := hJ.partial (α := Pi.single j.succ 1) (j := j.succ) (by rw [← Pi.single_add]; exact single_box (hp.2 j)) x
    rw [← Pi.single_add] at h
    exact h

/-- Exact values at points. -/
noncomputable def valueBatch (h : JetKernel I K) (m : jetF I) {N : ℕ} (x : Fin N → Pt d) (Y : Fin N → ℝ) : Batch (h.prior m) :=
  ⟨N, fun i => h.op m (Finsupp.single ⟨0, h.zero_mem⟩ 1) (x i), none, Y⟩

/-- Exact values of the heat operator at points. -/
noncomputable def heatBatch {n : ℕ} {p : Fin (n + 2) → ℕ} (s : Fin (n + 2) → ℝ) (hp : HeatSmooth p) (alpha : ℝ)
    (m : jetF (box fun j => (p j : ℕ∞))) {N : ℕ} (x : Fin N → Pt (n + 2)) (Y : Fin N → ℝ) : Batch ((matern_jet p s).prior m) :=
  ⟨N, fun i => (matern_jet p s).op m (heatCoefs hp alpha) (x i), none, Y⟩

/-- C67: a tensor product of Matérn kernels, once differentiable in time and twice in space, can be conditioned on
initial and boundary values at distinct points and on the heat equation at distinct points (which may be the same
points); the posterior mean takes the values, solves the heat equation at the collocation points, and neither is left
uncertain. -/
theorem heat_collocation {n : ℕ} {p : Fin (n + 2) → ℕ} {s : Fin (n + 2) → ℝ} (hs : ∀ j, s j ≠ 0) (hp : HeatSmooth p) (alpha : ℝ)
    (m : jetF (box fun j => (p j : ℕ∞))) (e : Env) (he : e.CholOK) {N M : ℕ} (x : Fin N → Pt (n + 2)) (hx : Function.Injective x)
    (Y : Fin N → ℝ) (z : Fin M → Pt (n + 2)) (hz : Function.Injective z) (F : Fin M → ℝ) :
    ∃ c, run e (valueBatch (matern_jet p s) m x Y) [heatBatch s hp alpha m z F] = .ok c ∧ (∀ i, c.mean (x i) = Y i) ∧
      (∀ i, HeatAt alpha c.mean (z i) (F i)) ∧ (∀ i, c.functlCov e (fun _ : Fin 1 => (matern_jet p s).op m (Finsupp.single ⟨0, (matern_jet p s).zero_mem⟩ 1) (x i)) = .ok 0) ∧
      ∀ i, c.functlCov e (fun _ : Fin 1 => (matern_jet p s).op m (heatCoefs hp alpha) (z i)) = .ok 0 := by
  set b0 := valueBatch (matern_jet p s) m x Y with hb0
  set b1 := heatBatch s hp alpha m z F with hb1
  let X : ∀ q : Fin 2, Fin ([b0, b1].get q).n → Pt (n + 2) := fun q => match q with
    | ⟨0, _⟩ => x
    | ⟨1, _⟩ => z
  have hX : ∀ q, Function.Injective (X q) := fun q => match q with
    | ⟨0, _⟩ => hx
    | ⟨1, _⟩ => hz
  let A : Fin 2 → (box fun j => (p j : ℕ∞)) →₀ ℝ := ![Finsupp.single ⟨0, (matern_jet p s).zero_mem⟩ 1, heatCoefs hp alpha]
  have hO : OpsAt (matern_jet p s) m [b0, b1] (fun i => A i.1) (fun i => X i.1 i.2) := by
    rintro ⟨q, i⟩
    match q, i with
    | ⟨0, _⟩, i => rfl
    | ⟨1, _⟩, i => rfl
  have hA : ∀ w, LinearIndependent ℝ fun i : {i : Idx [b0, b1] // X i.1 i.2 = w} => A i.1.1 := by
    intro w
    refine (heat_independent hp alpha (matern_jet p s).zero_mem).comp (fun i : {i : Idx [b0, b1] // X i.1 i.2 = w} => i.1.1) ?_
    rintro ⟨⟨q, i⟩, hi⟩ ⟨⟨q', i'⟩, hi'⟩ h
    obtain rfl : q = q' := h
    have : i = i' := hX q (hi.trans hi'.symm)
    subst this
    rfl
  have hN : NoisePSD [b0, b1] := by
    intro b hb
    rcases List.mem_cons.mp hb with rfl | hb
    · exact noise_one b0 rfl _ (by simp)
    · exact noise_one b1 rfl _ hb
  have key := collocation (matern_jet p s) (matern_strict p hs) m e he b0 [b1] (fun i => A i.1) (fun i => X i.1 i.2) hO hA hN
  obtain ⟨c, hc, -, -, J, hJ, hi⟩ := key
  have h0 : ∀ i : Fin N, _ := fun i => hi ⟨⟨0, by simp⟩, i⟩ rfl
  have h1 : ∀ i : Fin M, _ := fun i => hi ⟨⟨1, by simp⟩, i⟩ rfl
  refine ⟨c, hc, fun i => ?_, fun i => ?_, fun i => (h0 i).2, fun i => (h1 i).2⟩
  · have h := (h0 i).1
    have h : ((Finsupp.single ⟨0, (matern_jet p s).zero_mem⟩ 1 : (box fun j => (p j : ℕ∞)) →₀ ℝ).sum fun α t => t * J α (x i)) = Y i := h
    rw [Finsupp.sum_single_index (by simp), one_mul] at h
    rw [← h, hJ.zero]
  · have h : ((heatCoefs hp alpha).sum fun α t => t * J α (z i)) = F i := (h1 i).1
    rw [heatCoefs_sum hp alpha fun α => J α (z i)] at h
    rw [← h]
    exact heatAt_of_jet hp alpha hJ (z i)

/-- Matérn-3/2 in time and Matérn-5/2 in one space dimension: initial values at two points and the heat equation at one of
them and at a later time. -/
example (m : jetF (box fun j => (((![1, 2] : Fin 2 → ℕ) j : ℕ) : ℕ∞))) (e : Env) (he : e.CholOK) :
    ∃ (c : Cond ((matern_jet ![1, 2] ![4, 5]).prior m)) (b l : Batch ((matern_jet ![1, 2] ![4, 5]).prior m)), run e b [l] = .ok c ∧
      c.mean ![0, 0] = 1 ∧ c.mean ![0, 1] = 2 ∧ HeatAt (n := 0) 3 c.mean ![0, 1] 0 ∧ HeatAt (n := 0) 3 c.mean ![1, 1] 0 := by
  have inj : ∀ {u v : Pt 2}, u ≠ v → Function.Injective ![u, v] := by
    intro u v h i j hij
    fin_cases i <;> fin_cases j
    · rfl
    · exact absurd hij h
    · exact absurd hij.symm h
    · rfl
  obtain ⟨c, hc, h1, h2, -⟩ := heat_collocation (n := 0) (p := ![1, 2]) (s := ![4, 5]) (fun j => by fin_cases j <;> simp)
    ⟨le_rfl, fun j => by fin_cases j; exact le_rfl⟩ 3 m e he ![![0, 0], ![0, 1]] (inj fun h => by simpa using congrFun h 1) ![1, 2]
    ![![0, 1], ![1, 1]] (inj fun h => by simpa using congrFun h 0) ![0, 0]
  exact ⟨c, _, _, hc, h1 0, h1 1, h2 0, h2 1⟩

end LinPDE.GP
