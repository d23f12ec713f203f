import Verif.GP.Jet
import Verif.PosDef.Jet1Strict

/-!
# C66: collocation of differential equations
-/

namespace LinPDE.GP
open Matrix LinPDE.Block LinPDE.PosDef

variable {d : ℕ} {I : Set (Ix d)} {K : Ix d → Pt d → Ix d → Pt d → ℝ}

/-- The measured functionals are the differential operators `∑_α a_α ∂^α` at the points `x`. -/
def OpsAt (h : JetKernel I K) (m : jetF I) (l : List (Batch (h.prior m))) (a : Idx l → I →₀ ℝ) (x : Idx l → Pt d) : Prop :=
  ∀ i, jL l i = h.op m (a i) (x i)

lemma ops_cov (h : JetKernel I K) (hs : Strict I K) (m : jetF I) {l : List (Batch (h.prior m))} {a : Idx l → I →₀ ℝ}
    {x : Idx l → Pt d} (hL : OpsAt h m l a x) :
    (Matrix.of fun i j => (h.prior m).cov (jL l i) (jL l j)).PosDef ↔
      ∀ z, LinearIndependent ℝ fun i : {i // x i = z} => a i := by
  rw [gram_iff h hs m, ← op_independent h hs m]
  have e2 : ∀ i, jL l i = h.op m (a i) (x i) := hL
  constructor
  · intro hh g hg
    refine hh g ?_
    rw [← hg]
    exact Finset.sum_congr rfl fun i _ => by rw [e2]
  · intro hh g hg
    refine hh g ?_
    rw [← hg]
    exact Finset.sum_congr rfl fun i _ => by rw [e2]

/-- C66: with exact observations of differential operators, the joint Gram matrix is positive definite exactly if the
operators observed at the same point are linearly independent. -/
theorem collocation_gram_iff (h : JetKernel I K) (hs : Strict I K) (m : jetF I) (l : List (Batch (h.prior m)))
    (a : Idx l → I →₀ ℝ) (x : Idx l → Pt d) (hL : OpsAt h m l a x) (hN : ∀ b ∈ l, b.noise = none) :
    (jG l).PosDef ↔ ∀ z, LinearIndependent ℝ fun i : {i // x i = z} => a i := by
  have hz : jN l = 0 := by
    ext i j
    simp only [jN, of_apply, Matrix.zero_apply]
    split_ifs with hij
    · have : ∀ b : Batch (h.prior m), b.noise = none → b.noiseCov = 0 := fun b hb => by
        unfold Batch.noiseCov
        rw [hb]
      rw [this _ (hN _ (List.get_mem l i.1))]
      rfl
    · rfl
  unfold jG
  rw [hz, add_zero]
  exact ops_cov h hs m hL

/-- C66: a process with strict kernel can be conditioned on observations of differential operators, exact or noisy, if
the operators observed at the same point are linearly independent. The posterior mean has all derivatives of the orders
in `I`, satisfies the exact observations, and the observed quantities have zero posterior variance. -/
theorem collocation (h : JetKernel I K) (hs : Strict I K) (m : jetF I) (e : Env) (he : e.CholOK) (b : Batch (h.prior m))
    (l : List (Batch (h.prior m))) (a : Idx (b :: l) → I →₀ ℝ) (x : Idx (b :: l) → Pt d) (hL : OpsAt h m (b :: l) a x)
    (hx : ∀ z, LinearIndependent ℝ fun i : {i // x i = z} => a i) (hN : NoisePSD (b :: l)) :
    ∃ c, run e b l = .ok c ∧ (∀ x, c.mean x = postMean (b :: l) x) ∧
      (∀ x y, c.covfunc e x y = .ok (postCov (b :: l) x y)) ∧
      ∃ J, HasJet I c.mean J ∧
        ∀ i : Idx (b :: l), ((b :: l).get i.1).noise = none →
          ((a i).sum fun α t => t * J α (x i)) = ((b :: l).get i.1).Y i.2 ∧
          c.functlCov e (fun _ : Fin 1 => h.op m (a i) (x i)) = .ok 0 := by
  have hP := jet_regular h m
  have hG : (jG (b :: l)).PosDef := jG_posDef_of_cov _ ((ops_cov h hs m hL).mpr hx) hN
  obtain ⟨c, hc, h1, h2⟩ := run_posterior e he hP b l hG
  have hm : c.mean = (postMeanF (b :: l)).1 := funext fun x => by rw [h1, postMeanF_apply]
  refine ⟨c, hc, h1, h2, jet (postMeanF (b :: l)), hm ▸ jet_spec _, fun i hi => ?_⟩
  obtain ⟨r1, r2⟩ := exact_row hP hG (List.get_mem (b :: l) i.1) hi i.2
  have hev : ((b :: l).get i.1).L i.2 = h.op m (a i) (x i) := hL i
  rw [hev] at r1 r2
  refine ⟨?_, ?_⟩
  · rw [← r1]
    exact (op_apply h m (a i) (x i) (postMeanF (b :: l))).symm
  · rw [(functl_posterior e he hP b l hG c hc _).2]
    congr 1
    ext p q
    exact r2 _

/-- C66: in particular nonzero operators at pairwise distinct points. -/
theorem collocation_distinct {ι : Type} (a : ι → I →₀ ℝ) (x : ι → Pt d) (ha : ∀ i, a i ≠ 0) (hx : Function.Injective x) (z : Pt d) :
    LinearIndependent ℝ fun i : {i // x i = z} => a i := by
  have : Subsingleton {i // x i = z} := ⟨fun i j => Subtype.ext (hx (i.2.trans j.2.symm))⟩
  exact linearIndependent_subsingleton_index_iff _ |>.mpr fun i => ha i

/-! ## Kernels with derivatives: products of one-dimensional kernels -/

/-- Derivatives of orders up to `N j` in coordinate `j`. -/
def box (N : Fin d → ℕ∞) : Set (Ix d) := {α | ∀ j, (α j : ℕ∞) ≤ N j}

lemma box_lower (N : Fin d → ℕ∞) : IsLowerSet (box N) := fun _ _ h hα j => le_trans (by exact_mod_cast h j) (hα j)

/-- Products of translation-invariant one-dimensional kernels, given by their derivatives `φ j i`. -/
def prodK (φ : Fin d → ℕ → ℝ → ℝ) (α : Ix d) (x : Pt d) (β : Ix d) (y : Pt d) : ℝ := ∏ j, jetK (φ j) (α j) (x j) (β j) (y j)

lemma jetK_deriv {N : ℕ∞} {φ : ℕ → ℝ → ℝ} (h : Chain N φ) {n m : ℕ} (hn : ((n + 1 : ℕ) : ℕ∞) ≤ N) (hm : (m : ℕ∞) ≤ N) (x y : ℝ) :
    HasDerivAt (fun x => jetK φ n x m y) (jetK φ (n + 1) x m y) x := by
  have h1 := h.deriv (n + m) (by
    have := add_le_add hn hm
    refine le_trans (le_of_eq ?_) this
    push_cast
    ring) (x - y)
  have h2 := (h1.comp_sub_const x y).const_mul ((-1) ^ m)
  unfold jetK
  rwa [show n + 1 + m = n + m + 1 by omega]

lemma SPD.piD : ∀ (n : ℕ) (T : Fin n → Type) (f : ∀ i, T i → T i → ℝ), (∀ i, SPD (f i)) →
    SPD fun x y : ∀ i, T i => ∏ i, f i (x i) (y i) := by
  intro n
  induction n with
  | zero =>
    intro T f _
    refine ⟨(PSD.const zero_le_one).congr fun _ _ => by simp, fun N x hx a h0 => ?_⟩
    funext i
    have : Subsingleton (Fin N) := ⟨fun i j => hx (Subsingleton.elim _ _)⟩
    have e : ∀ j, j = i := fun j => Subsingleton.elim _ _
    rw [Finset.sum_eq_single i (fun j _ h => absurd (e j) h) (by simp),
      Finset.sum_eq_single i (fun j _ h => absurd (e j) h) (by simp)] at h0
    simpa using h0
  | succ n ih =>
    intro T f hf
    have := (hf 0).prod (ih (fun i => T i.succ) (fun i => f i.succ) fun i => hf i.succ)
    refine (this.comp (f := fun x : ∀ i, T i => (x 0, fun i : Fin n => x i.succ)) fun x y h => ?_).congr fun x y => by
      rw [Fin.prod_univ_succ]
    funext i
    refine Fin.cases ?_ (fun i => ?_) i
    · exact congrArg Prod.fst h
    · exact congrFun (congrArg Prod.snd h) i

lemma PSD.prodF {α ι : Type} (s : Finset ι) {k : ι → α → α → ℝ} (h : ∀ i ∈ s, PSD (k i)) : PSD fun x y => ∏ i ∈ s, k i x y := by
  classical
  induction s using Finset.induction_on with
  | empty => exact (PSD.const zero_le_one).congr fun _ _ => by simp
  | insert i s hi ih =>
    refine ((h i (by simp)).mul (ih fun j hj => h j (by simp [hj]))).congr fun x y => ?_
    rw [Finset.prod_insert hi]

/-- Coordinates of a multi-index and a point. -/
def coords (N : Fin d → ℕ∞) (q : box N × Pt d) (j : Fin d) : Jet1 (N j) := (⟨q.1.1 j, q.1.2 j⟩, q.2 j)

lemma coords_injective (N : Fin d → ℕ∞) : Function.Injective (coords N) := by
  rintro ⟨⟨α, hα⟩, x⟩ ⟨⟨β, hβ⟩, y⟩ h
  have h1 : α = β := funext fun j => congrArg (fun q : Jet1 (N j) => q.1.1) (congrFun h j)
  have h2 : x = y := funext fun j => congrArg (fun q : Jet1 (N j) => q.2) (congrFun h j)
  subst h1
  subst h2
  rfl

lemma prod_jetKernel {N : Fin d → ℕ∞} {φ : Fin d → ℕ → ℝ → ℝ} (hφ : ∀ j, Chain (N j) (φ j))
    (hp : ∀ j, PSD fun x y => φ j 0 (x - y)) : JetKernel (box N) (prodK φ) := by
  refine ⟨box_lower N, fun j => by simp, fun β hβ y => ⟨rfl, fun α u hu x => ?_⟩, ?_⟩
  · have h1 : ∀ j ∈ Finset.univ, HasDerivAt (fun t : ℝ => jetK (φ j) (α j) ((x + t • u) j) (β j) (y j))
        (u j * jetK (φ j) (α j + 1) (x j) (β j) (y j)) 0 := by
      intro j _
      by_cases hj : u j = 0
      · simp only [Pi.add_apply, Pi.smul_apply, hj, smul_zero, zero_mul]
        exact hasDerivAt_const _ _
      · have h2 := hu j hj j
        rw [Pi.add_apply, Pi.single_eq_same] at h2
        have h3 := jetK_deriv (hφ j) h2 (hβ j) (x j) (y j)
        have h4 : HasDerivAt (fun t : ℝ => (x + t • u) j) (u j) 0 := by
          have := ((hasDerivAt_id (0 : ℝ)).mul_const (u j)).const_add (x j)
          simpa using this
        have h5 : HasDerivAt (fun x => jetK (φ j) (α j) x (β j) (y j)) (jetK (φ j) (α j + 1) (x j) (β j) (y j)) ((x + (0 : ℝ) • u) j) := by
          simpa using h3
        refine (h5.comp (0 : ℝ) h4).congr_deriv ?_
        ring
    refine (HasDerivAt.fun_finsetProd h1).congr_deriv ?_
    refine Finset.sum_congr rfl fun j _ => ?_
    rw [smul_eq_mul]
    unfold prodK
    rw [← Finset.mul_prod_erase _ _ (Finset.mem_univ j), Pi.add_apply, Pi.single_eq_same]
    have : ∏ i ∈ Finset.univ.erase j, jetK (φ i) (α i) ((x + (0 : ℝ) • u) i) (β i) (y i) =
        ∏ i ∈ Finset.univ.erase j, jetK (φ i) ((α + Pi.single j 1 : Ix d) i) (x i) (β i) (y i) := by
      refine Finset.prod_congr rfl fun i hi => ?_
      rw [Pi.add_apply α, Pi.single_eq_of_ne (Finset.ne_of_mem_erase hi), add_zero]
      simp
    rw [this]
    ring
  · exact PSD.prodF _ fun j _ => (jetK_psd (hφ j) (hp j)).comp fun q : box N × Pt d => coords N q j

lemma prod_strict {N : Fin d → ℕ∞} {φ : Fin d → ℕ → ℝ → ℝ}
    (hs : ∀ j, SPD fun p q : Jet1 (N j) => jetK (φ j) p.1 p.2 q.1 q.2) : Strict (box N) (prodK φ) :=
  (SPD.piD d (fun j => Jet1 (N j)) (fun j p q => jetK (φ j) p.1 p.2 q.1 q.2) hs).comp (coords_injective N)

end LinPDE.GP
