import Verif.Param.Model
import Verif.Coeff.Props
import Mathlib.Probability.Moments.Covariance
import Mathlib.LinearAlgebra.Matrix.PosDef
import Mathlib.Analysis.Matrix.PosDef

/-! # Parametric Gaussian processes are pushforwards of their weights (C49) -/

namespace LinPDE.Param
open LinPDE.Nd

variable {X : Type}

/-- The covariance of two values of a parametric process with features `f` and weight covariance `c`. -/
def kval (n : ℕ) (f : X → ℕ → ℝ) (c : ℕ → ℕ → ℝ) (x y : X) : ℝ :=
  ∑ j ∈ Finset.range n, ∑ k ∈ Finset.range n, f x j * c j k * f y k

lemma bcastRev_length : ∀ {s t r : Shp}, Coeff.bcastRev s t = some r → s.length ≤ r.length ∧ t.length ≤ r.length
  | [], t, r, h => by
    cases t <;> (simp only [Coeff.bcastRev, Option.some.injEq] at h; subst h; simp)
  | a :: s, [], r, h => by
    simp only [Coeff.bcastRev, Option.some.injEq] at h; subst h; simp
  | a :: s, b :: t, r, h => by
    simp only [Coeff.bcastRev, Option.bind_eq_some_iff, Option.map_eq_some_iff] at h
    obtain ⟨c, _, r', hr, rfl⟩ := h
    obtain ⟨h1, h2⟩ := bcastRev_length hr
    simp [h1, h2]

lemma bcast_length {s t r : Shp} (h : Coeff.bcast s t = some r) : s.length ≤ r.length ∧ t.length ≤ r.length := by
  simp only [Coeff.bcast, Option.map_eq_some_iff] at h
  obtain ⟨r', hr, rfl⟩ := h
  simpa using bcastRev_length hr

lemma bidx_length {b i : List ℕ} (h : b.length ≤ i.length) : (bidx b i).length = b.length := by
  simp [bidx]; omega

lemma bidx_self {b i : List ℕ} (h : Fits b i) : bidx b i = i := by
  rw [bidx, h.length, Nat.sub_self, List.drop_zero]
  exact Coeff.clamp_fits b i h

lemma getD_concat (l : List ℕ) (a : ℕ) : (l ++ [a]).getD l.length 0 = a := by
  simp [List.getD_eq_getElem?_getD]

lemma getD_concat' {l : List ℕ} {n : ℕ} (h : l.length = n) (a : ℕ) : (l ++ [a]).getD n 0 = a := h ▸ getD_concat l a

lemma take_concat' {l : List ℕ} {n : ℕ} (h : l.length = n) (a : ℕ) : (l ++ [a]).take n = l := by
  subst h; simp

/-- The batches of a call on which the feature function can be evaluated. -/
def Ok1 (l : Bool) (x : Pts X) : Prop := l = true → x.batch.length = 1

lemma featCall_ok {n : ℕ} {l : Bool} {f : X → ℕ → ℝ} {x : Pts X} (h : Ok1 l x) :
    featCall n l f x = .ok ⟨x.batch ++ [n], fun i => f (x.pt (i.take x.batch.length)) (i.getD x.batch.length 0)⟩ := by
  unfold featCall
  exact if_neg (by intro hc; exact hc.2 (h hc.1))

/-- C49: the mean of a parametric process with `n` features and `n` weights is `phi(x)' mu` at every point of the batch. -/
theorem param_mean (n : ℕ) (l : Bool) (f : X → ℕ → ℝ) (m : ℕ → ℝ) (c : ℕ → ℕ → ℝ) (x : Pts X) (hx : Ok1 l x) :
    ∃ a : Arr ℝ, (mkGP (.vector n m c) (.vector n l f) none).meanAt x = .ok a ∧ a.shape = x.batch ∧
      ∀ i, Fits x.batch i → a.get i = ∑ j ∈ Finset.range n, f (x.pt i) j * m j := by
  refine ⟨⟨x.batch, fun i : List ℕ => ∑ j ∈ Finset.range n, (f (x.pt ((i ++ [j]).take x.batch.length))
    ((i ++ [j]).getD x.batch.length 0) * m j : ℝ)⟩, ?_, rfl, ?_⟩
  · simp [GP.meanAt, mkGP, meanCall, meanEval, featCall_ok hx, matVec, checkShape, bind, Except.bind]
  · intro i hi
    dsimp only
    refine Finset.sum_congr rfl fun j _ => ?_
    rw [take_concat' hi.length, getD_concat' hi.length]

/-- C49: the mean with scalar features and a scalar weight. -/
theorem param_mean_scalar (f : X → ℝ) (m v : ℝ) (x : Pts X) :
    ∃ a : Arr ℝ, (mkGP (.scalar m v) (.scalar f) none).meanAt x = .ok a ∧ a.shape = x.batch ∧ ∀ i, a.get i = f (x.pt i) * m :=
  ⟨⟨x.batch, fun i => f (x.pt i) * m⟩, by simp [GP.meanAt, mkGP, meanCall, meanEval, checkShape, bind, Except.bind], rfl,
    fun _ => rfl⟩

/-- An explicit mean function replaces the one of the weights. -/
theorem param_mean_given (w : Wts) (φ : Feat X) (m : X → ℝ) (x : Pts X) :
    (mkGP w φ (some m)).meanAt x = .ok ⟨x.batch, fun i => m (x.pt i)⟩ := rfl

lemma rowDot_ok {a b : Arr ℝ} {ba bb s : Shp} {n : ℕ} (ha : a.shape = ba ++ [n]) (hb : b.shape = bb ++ [n])
    (h : Coeff.bcast ba bb = some s) :
    rowDot a b = .ok ⟨s, fun i => ∑ k ∈ Finset.range n, a.get (bidx ba i ++ [k]) * b.get (bidx bb i ++ [k])⟩ := by
  unfold rowDot
  simp [ha, hb, h]

lemma covEval_vector (n : ℕ) (l : Bool) (f : X → ℕ → ℝ) (m : ℕ → ℝ) (c : ℕ → ℕ → ℝ) (x0 : Pts X) (x1 : Option (Pts X))
    (h0 : Ok1 l x0) (h1 : Ok1 l (x1.getD x0)) {s : Shp} (hs : Coeff.bcast x0.batch (x1.getD x0).batch = some s) :
    ∃ a, covEval (.vector n m c) (.vector n l f) x0 x1 = .ok a ∧ a.shape = s ∧
      ∀ i, i.length = s.length → a.get i = kval n f c (x0.pt (bidx x0.batch i)) ((x1.getD x0).pt (bidx (x1.getD x0).batch i)) := by
  have hp1 : featSecond n l f ⟨x0.batch ++ [n], fun i => f (x0.pt (i.take x0.batch.length))
      (i.getD x0.batch.length 0)⟩ x1 =
      .ok ⟨(x1.getD x0).batch ++ [n], fun i => f ((x1.getD x0).pt (i.take (x1.getD x0).batch.length))
        (i.getD (x1.getD x0).batch.length 0)⟩ := by
    cases x1 with
    | none => rfl
    | some x1 => exact featCall_ok h1
  obtain ⟨hl0, hl1⟩ := bcast_length hs
  unfold covEval
  simp only [featCall_ok h0, bind, Except.bind]
  simp only [hp1]
  cases l with
  | true =>
    rw [if_pos rfl]
    have hm : ∀ a : Arr ℝ, a.shape = x0.batch ++ [n] → mulLast true a n c = .ok ⟨a.shape, fun i => ∑ k ∈ Finset.range n,
        a.get (i.dropLast ++ [k]) * c k (i.getLastD 0)⟩ := by
      intro a ha
      simp [mulLast, ha]
    rw [hm _ rfl]
    simp only
    rw [rowDot_ok (ba := x0.batch) (bb := (x1.getD x0).batch) (n := n) rfl rfl hs]
    refine ⟨_, rfl, rfl, fun i hi => ?_⟩
    have e0 : (bidx x0.batch i).length = x0.batch.length := bidx_length (by omega)
    have e1 : (bidx (x1.getD x0).batch i).length = (x1.getD x0).batch.length := bidx_length (by omega)
    simp only [take_concat' e1, getD_concat' e1, take_concat' e0, getD_concat' e0, List.dropLast_concat, kval, Finset.sum_mul]
    rw [Finset.sum_comm]
    refine Finset.sum_congr rfl fun j _ => Finset.sum_congr rfl fun k _ => ?_
    simp
  | false =>
    rw [if_neg (by simp)]
    have hm : ∀ a : Arr ℝ, a.shape = (x1.getD x0).batch ++ [n] → mulLast false a n c = .ok ⟨a.shape, fun i =>
        ∑ k ∈ Finset.range n, a.get (i.dropLast ++ [k]) * c (i.getLastD 0) k⟩ := by
      intro a ha
      simp [mulLast, ha]
    rw [hm _ rfl]
    simp only
    rw [rowDot_ok (ba := x0.batch) (bb := (x1.getD x0).batch) (n := n) rfl rfl hs]
    refine ⟨_, rfl, rfl, fun i hi => ?_⟩
    have e0 : (bidx x0.batch i).length = x0.batch.length := bidx_length (by omega)
    have e1 : (bidx (x1.getD x0).batch i).length = (x1.getD x0).batch.length := bidx_length (by omega)
    simp only [take_concat' e1, getD_concat' e1, take_concat' e0, getD_concat' e0, List.dropLast_concat, kval, Finset.mul_sum]
    refine Finset.sum_congr rfl fun j _ => Finset.sum_congr rfl fun k _ => ?_
    simp only [List.getLastD_concat]
    ring

/-- C49: the covariance of a parametric process is `phi(x0)' Sigma phi(x1)` for all broadcastable batches of points; leaving
out the second argument means `x1 = x0`.  Both representations of the features (arrays, linear operators) give this. -/
theorem param_cov (n : ℕ) (l : Bool) (f : X → ℕ → ℝ) (m : ℕ → ℝ) (c : ℕ → ℕ → ℝ) (x0 : Pts X) (x1 : Option (Pts X))
    (h0 : Ok1 l x0) (h1 : Ok1 l (x1.getD x0)) {s : Shp} (hs : Coeff.bcast x0.batch (x1.getD x0).batch = some s) :
    ∃ a : Arr ℝ, (mkGP (.vector n m c) (.vector n l f) none).covAt x0 x1 = .ok a ∧ a.shape = s ∧
      ∀ i, Fits s i → a.get i = ∑ j ∈ Finset.range n, ∑ k ∈ Finset.range n,
        f (x0.pt (bidx x0.batch i)) j * c j k * f ((x1.getD x0).pt (bidx (x1.getD x0).batch i)) k := by
  obtain ⟨a, ha, hsh, hv⟩ := covEval_vector n l f m c x0 x1 h0 h1 hs
  refine ⟨a, ?_, hsh, fun i hi => hv i hi.length⟩
  simp [GP.covAt, mkGP, covCall, hs, ha, bind, Except.bind, checkShape, hsh]

/-- C49: the covariance with scalar features and a scalar weight. -/
theorem param_cov_scalar (f : X → ℝ) (m v : ℝ) (x0 : Pts X) (x1 : Option (Pts X)) {s : Shp}
    (hs : Coeff.bcast x0.batch (x1.getD x0).batch = some s) :
    ∃ a : Arr ℝ, (mkGP (.scalar m v) (.scalar f) none).covAt x0 x1 = .ok a ∧ a.shape = s ∧
      ∀ i, Fits s i → a.get i =
        f (x0.pt (bidx x0.batch i)) * v * f ((x1.getD x0).pt (bidx (x1.getD x0).batch i)) := by
  have hp1 : scalarSecond f ⟨x0.batch ++ [1], fun i => f (x0.pt i.dropLast)⟩ x1 =
      ⟨(x1.getD x0).batch ++ [1], fun i => f ((x1.getD x0).pt i.dropLast)⟩ := by cases x1 <;> rfl
  refine ⟨⟨s, fun i => ∑ k ∈ Finset.range 1, f (x0.pt (bidx x0.batch i ++ [k]).dropLast) * ∑ k' ∈ Finset.range 1,
    f ((x1.getD x0).pt (((bidx (x1.getD x0).batch i ++ [k]).dropLast ++ [k']).dropLast)) * v⟩, ?_, rfl, ?_⟩
  · have hm : ∀ g : List ℕ → ℝ, mulLast false ⟨(x1.getD x0).batch ++ [1], g⟩ 1 (fun _ _ => v) =
        .ok ⟨(x1.getD x0).batch ++ [1], fun i => ∑ k ∈ Finset.range 1, g (i.dropLast ++ [k]) * v⟩ := by
      intro g
      simp [mulLast]
    simp only [GP.covAt, mkGP, covCall, hs, covEval, hp1, hm, bind, Except.bind]
    rw [rowDot_ok (ba := x0.batch) (bb := (x1.getD x0).batch) (n := 1) rfl rfl hs]
    simp [checkShape]
  · intro i _
    simp
    ring

/-- C49: on two batches of the same shape broadcasting is the identity. -/
theorem param_cov_same_batch (n : ℕ) (l : Bool) (f : X → ℕ → ℝ) (m : ℕ → ℝ) (c : ℕ → ℕ → ℝ) (x0 x1 : Pts X)
    (h0 : Ok1 l x0) (he : x1.batch = x0.batch) :
    ∃ a : Arr ℝ, (mkGP (.vector n m c) (.vector n l f) none).covAt x0 (some x1) = .ok a ∧ a.shape = x0.batch ∧
      ∀ i, Fits x0.batch i → a.get i = ∑ j ∈ Finset.range n, ∑ k ∈ Finset.range n, f (x0.pt i) j * c j k * f (x1.pt i) k := by
  obtain ⟨a, ha, hs, hv⟩ := param_cov n l f m c x0 (some x1) h0 (fun hl => by simpa [he] using h0 hl)
    (s := x0.batch) (by simp [he, Coeff.bcast_self])
  refine ⟨a, ha, hs, fun i hi => ?_⟩
  rw [hv i hi]
  simp only [Option.getD_some, he, bidx_self hi]

open MeasureTheory ProbabilityTheory in
/-- C49: if the weights are random variables with mean `m` and covariance `c`, then the mean and covariance functions of the
parametric process are the mean and covariance of the random function `x ↦ phi(x)' w`. -/
theorem param_pushforward {Ω : Type} [MeasurableSpace Ω] (P : Measure Ω) [IsProbabilityMeasure P] (n : ℕ) (w : ℕ → Ω → ℝ)
    (hw : ∀ j < n, MemLp (w j) 2 P) (m : ℕ → ℝ) (hm : ∀ j < n, m j = ∫ ω, w j ω ∂P) (c : ℕ → ℕ → ℝ)
    (hc : ∀ j < n, ∀ k < n, c j k = cov[w j, w k; P]) (l : Bool) (f : X → ℕ → ℝ) (x0 : Pts X) (x1 : Option (Pts X))
    (h0 : Ok1 l x0) (h1 : Ok1 l (x1.getD x0)) {s : Shp} (hs : Coeff.bcast x0.batch (x1.getD x0).batch = some s) :
    (∃ a, (mkGP (.vector n m c) (.vector n l f) none).meanAt x0 = .ok a ∧ ∀ i, Fits x0.batch i →
      a.get i = ∫ ω, (∑ j ∈ Finset.range n, f (x0.pt i) j * w j ω) ∂P) ∧
    (∃ a, (mkGP (.vector n m c) (.vector n l f) none).covAt x0 x1 = .ok a ∧ ∀ i, Fits s i →
      a.get i = cov[fun ω => ∑ j ∈ Finset.range n, f (x0.pt (bidx x0.batch i)) j * w j ω,
        fun ω => ∑ k ∈ Finset.range n, f ((x1.getD x0).pt (bidx (x1.getD x0).batch i)) k * w k ω; P]) := by
  constructor
  · obtain ⟨a, ha, _, hv⟩ := param_mean n l f m c x0 h0
    refine ⟨a, ha, fun i hi => ?_⟩
    rw [hv i hi, integral_finsetSum]
    · refine Finset.sum_congr rfl fun j hj => ?_
      rw [integral_const_mul, hm j (Finset.mem_range.mp hj)]
    · intro j hj
      exact ((hw j (Finset.mem_range.mp hj)).integrable (by norm_num)).const_mul _
  · obtain ⟨a, ha, _, hv⟩ := param_cov n l f m c x0 x1 h0 h1 hs
    refine ⟨a, ha, fun i hi => ?_⟩
    rw [hv i hi]
    have hW : ∀ (g : ℕ → ℝ), ∀ j ∈ Finset.range n, MemLp (fun ω => g j * w j ω) 2 P := fun g j hj =>
      (hw j (Finset.mem_range.mp hj)).const_mul _
    rw [covariance_fun_sum_left' (hW _) (memLp_finsetSum _ (hW _))]
    refine Finset.sum_congr rfl fun j hj => ?_
    rw [covariance_fun_sum_right' (hW _) (hW (f (x0.pt (bidx x0.batch i))) j hj)]
    refine Finset.sum_congr rfl fun k hk => ?_
    rw [covariance_const_mul_left, covariance_const_mul_right, hc j (Finset.mem_range.mp hj) k (Finset.mem_range.mp hk)]
    ring

/-- A matrix given by its entries is positive semidefinite. -/
def Psd (n : ℕ) (c : ℕ → ℕ → ℝ) : Prop := (Matrix.of fun i j : Fin n => c i j).PosSemidef

/-- C49: the Gram matrix on any finite family of points is symmetric positive semidefinite if the covariance of the weights
is; the points are passed one by one. -/
theorem param_gram_psd (n : ℕ) (f : X → ℕ → ℝ) (m : ℕ → ℝ) (c : ℕ → ℕ → ℝ) (hc : Psd n c) (N : ℕ) (p : Fin N → X) :
    ∃ G : Matrix (Fin N) (Fin N) ℝ, G.PosSemidef ∧ ∀ i j, ∃ a,
      (mkGP (.vector n m c) (.vector n false f) none).covAt ⟨[], fun _ => p i⟩ (some ⟨[], fun _ => p j⟩) = .ok a ∧
        a.shape = [] ∧ a.get [] = G i j := by
  refine ⟨(Matrix.of fun (i : Fin N) (k : Fin n) => f (p i) k) * (Matrix.of fun i j : Fin n => c i j) *
    (Matrix.of fun (i : Fin N) (k : Fin n) => f (p i) k).conjTranspose, hc.mul_mul_conjTranspose_same _, fun i j => ?_⟩
  obtain ⟨a, ha, hs, hv⟩ := param_cov_same_batch n false f m c ⟨[], fun _ => p i⟩ ⟨[], fun _ => p j⟩ (by simp [Ok1]) rfl
  refine ⟨a, ha, hs, ?_⟩
  rw [hv [] trivial]
  simp only [Matrix.mul_apply, Matrix.of_apply, Matrix.conjTranspose_apply, star_trivial, Finset.sum_mul]
  rw [Finset.sum_comm]
  simp only [Finset.sum_range]

/-- C49: the covariance is symmetric if that of the weights is. -/
theorem param_cov_symm (n : ℕ) (f : X → ℕ → ℝ) (m : ℕ → ℝ) (c : ℕ → ℕ → ℝ) (hc : ∀ j < n, ∀ k < n, c j k = c k j)
    (l : Bool) (x0 x1 : Pts X) (h0 : Ok1 l x0) (he : x1.batch = x0.batch) :
    ∃ a b, (mkGP (.vector n m c) (.vector n l f) none).covAt x0 (some x1) = .ok a ∧
      (mkGP (.vector n m c) (.vector n l f) none).covAt x1 (some x0) = .ok b ∧ a.shape = b.shape ∧
        ∀ i, Fits a.shape i → a.get i = b.get i := by
  obtain ⟨a, ha, hs, hv⟩ := param_cov_same_batch n l f m c x0 x1 h0 he
  obtain ⟨b, hb, hs', hv'⟩ := param_cov_same_batch n l f m c x1 x0 (fun hl => by simpa [he] using h0 hl) he.symm
  refine ⟨a, b, ha, hb, by rw [hs, hs', he], fun i hi => ?_⟩
  rw [hs] at hi
  rw [hv i hi, hv' i (he ▸ hi), Finset.sum_comm]
  refine Finset.sum_congr rfl fun j hj => Finset.sum_congr rfl fun k hk => ?_
  rw [hc k (Finset.mem_range.mp hk) j (Finset.mem_range.mp hj)]
  ring

/-- C49: the covariance is defined exactly when the shapes of features and weights agree (for one point): a mismatch
raises. -/
theorem param_cov_refuses (w : Wts) (φ : Feat X) (x0 x1 : X) (h : match φ, w with
      | .scalar _, .scalar _ _ => False
      | .vector n _ _, .vector m _ _ => n ≠ m
      | _, _ => True) :
    ∃ e, (mkGP w φ none).covAt ⟨[], fun _ => x0⟩ (some ⟨[], fun _ => x1⟩) = .error e := by
  have hb : Coeff.bcast [] [] = some [] := rfl
  match φ, w, h with
  | .scalar f, .vector n m c, _ => exact ⟨.other, by simp [GP.covAt, mkGP, covCall, covEval, hb, bind, Except.bind]⟩
  | .vector n l f, .scalar m v, _ => exact ⟨.other, by simp [GP.covAt, mkGP, covCall, covEval, hb, bind, Except.bind]⟩
  | .vector n true f, .vector m μ c, h =>
    exact ⟨.assertionError, by simp [GP.covAt, mkGP, covCall, covEval, hb, bind, Except.bind, featCall]⟩
  | .vector n false f, .vector m μ c, h =>
    exact ⟨.valueError, by simp [GP.covAt, mkGP, covCall, covEval, hb, bind, Except.bind, featCall, featSecond, mulLast, show n ≠ m from h]⟩

/-- C49 (violated): the constructor accepts features and weights of incompatible shapes, and the mean function then returns
numbers: with one feature and `n` weights, evaluated at `n` points, the `i`-th value is `phi(x_i) mu_i`, a mixture of
different weights, while the covariance function raises. -/
theorem param_shapes_violated : ∃ (w : Wts) (φ : Feat ℝ) (x : Pts ℝ) (a : Arr ℝ) (e : Err),
    (mkGP w φ none).meanAt x = .ok a ∧ a.shape = x.batch ∧ x.pt [0] = x.pt [1] ∧ a.get [0] ≠ a.get [1] ∧
      (mkGP w φ none).covAt x none = .error e := by
  refine ⟨.vector 2 (fun j => j) (fun _ _ => 0), .scalar fun x => x, ⟨[2], fun _ => 1⟩,
    ⟨[2], fun i => 1 * (if 2 = 1 then (0 : ℕ) else i.getLastD 0 : ℕ)⟩, .other, ?_, rfl, rfl, ?_, ?_⟩
  · have : Coeff.bcast [2] [2] = some [2] := rfl
    simp [GP.meanAt, mkGP, meanCall, meanEval, checkShape, bind, Except.bind, this]
  · simp
  · have : Coeff.bcast [2] [2] = some [2] := rfl
    simp [GP.covAt, mkGP, covCall, covEval, bind, Except.bind, this]

/-! ## `ParametricCovarianceFunction` -/

/-- C49: the constructor accepts exactly the covariances whose second shape is the shape of the basis. -/
theorem pcov_mk_isOk_iff (n : ℕ) (f : X → ℕ → ℝ) (s0 s1 : Shp) (c : ℕ → ℕ → ℝ) :
    (∃ k, mkPCov n f s0 s1 c = .ok k) ↔ s1 = [n] := by
  unfold mkPCov
  split_ifs with h
  · simpa using h
  · simpa using h

/-- C49: a parametric covariance function has the values `phi(x0)' C phi(x1)`. -/
theorem pcov_eval (n : ℕ) (f : X → ℕ → ℝ) (c : ℕ → ℕ → ℝ) (x0 : Pts X) (x1 : Option (Pts X)) {s : Shp}
    (hs : Coeff.bcast x0.batch (x1.getD x0).batch = some s) :
    ∃ k a, mkPCov n f [n] [n] c = .ok k ∧ k.call x0 x1 = .ok a ∧ a.shape = s ∧
      ∀ i, Fits s i → a.get i = ∑ j ∈ Finset.range n, ∑ k ∈ Finset.range n,
        f (x0.pt (bidx x0.batch i)) j * c j k * f ((x1.getD x0).pt (bidx (x1.getD x0).batch i)) k := by
  have hp1 : featSecond n false f ⟨x0.batch ++ [n], fun i => f (x0.pt (i.take x0.batch.length))
      (i.getD x0.batch.length 0)⟩ x1 =
      .ok ⟨(x1.getD x0).batch ++ [n], fun i => f ((x1.getD x0).pt (i.take (x1.getD x0).batch.length))
        (i.getD (x1.getD x0).batch.length 0)⟩ := by
    cases x1 with
    | none => rfl
    | some x1 => exact featCall_ok (by simp [Ok1])
  obtain ⟨hl0, hl1⟩ := bcast_length hs
  have hm : ∀ g : List ℕ → ℝ, linopLast ⟨(x1.getD x0).batch ++ [n], g⟩ n n c = .ok ⟨(x1.getD x0).batch ++ [n], fun i =>
      ∑ k ∈ Finset.range n, g (i.dropLast ++ [k]) * c (i.getLastD 0) k⟩ := by
    intro g
    simp [linopLast]
  refine ⟨⟨n, f, [n], c⟩, ⟨s, fun i => ∑ j ∈ Finset.range n, ∑ k ∈ Finset.range n,
    f (x0.pt ((bidx x0.batch i ++ [j]).take x0.batch.length)) ((bidx x0.batch i ++ [j]).getD x0.batch.length 0) *
    (f ((x1.getD x0).pt ((bidx (x1.getD x0).batch i ++ [k]).take (x1.getD x0).batch.length))
      ((bidx (x1.getD x0).batch i ++ [k]).getD (x1.getD x0).batch.length 0) * c j k)⟩, by simp [mkPCov], ?_, rfl, ?_⟩
  · simp only [PCov.call, hs, featCall_ok (show Ok1 false x0 by simp [Ok1]), bind, Except.bind]
    simp only [hp1, List.prod_cons, List.prod_nil, mul_one, hm]
    rw [rowDot_ok (ba := x0.batch) (bb := (x1.getD x0).batch) (n := n) rfl rfl hs]
    simp only [checkShape, if_true, List.dropLast_concat, Finset.mul_sum, List.getLastD_concat]
  · intro i hi
    have hi := hi.length
    have e0 : (bidx x0.batch i).length = x0.batch.length := bidx_length (by omega)
    have e1 : (bidx (x1.getD x0).batch i).length = (x1.getD x0).batch.length := bidx_length (by omega)
    simp only [take_concat' e1, getD_concat' e1, take_concat' e0, getD_concat' e0]
    refine Finset.sum_congr rfl fun j _ => Finset.sum_congr rfl fun k _ => ?_
    ring

/-- C49: the process and the covariance function with the same features agree. -/
theorem pcov_eq_param (n : ℕ) (f : X → ℕ → ℝ) (m : ℕ → ℝ) (c : ℕ → ℕ → ℝ) (l : Bool) (x0 : Pts X) (x1 : Option (Pts X))
    (h0 : Ok1 l x0) (h1 : Ok1 l (x1.getD x0)) {s : Shp} (hs : Coeff.bcast x0.batch (x1.getD x0).batch = some s) :
    ∃ k a b, mkPCov n f [n] [n] c = .ok k ∧ k.call x0 x1 = .ok a ∧
      (mkGP (.vector n m c) (.vector n l f) none).covAt x0 x1 = .ok b ∧ a.shape = b.shape ∧
        ∀ i, Fits a.shape i → a.get i = b.get i := by
  obtain ⟨k, a, hk, ha, hs1, hv⟩ := pcov_eval n f c x0 x1 hs
  obtain ⟨b, hb, hs2, hv'⟩ := param_cov n l f m c x0 x1 h0 h1 hs
  refine ⟨k, a, b, hk, ha, hb, by rw [hs1, hs2], fun i hi => ?_⟩
  rw [hs1] at hi
  rw [hv i hi, hv' i hi]

/-- C49 (violated): the first shape of the covariance is not checked; such a covariance function is constructed and raises
whenever it is evaluated at a pair of points. -/
theorem pcov_shape0_violated (n : ℕ) (f : X → ℕ → ℝ) (r : ℕ) (hr : r ≠ n) (c : ℕ → ℕ → ℝ) (x0 x1 : X) :
    ∃ k, mkPCov n f [r] [n] c = .ok k ∧ k.call ⟨[], fun _ => x0⟩ (some ⟨[], fun _ => x1⟩) = .error .valueError := by
  refine ⟨⟨n, f, [r], c⟩, by simp [mkPCov], ?_⟩
  have hb : Coeff.bcast [] [] = some [] := rfl
  have : ¬ n = r := fun h => hr h.symm
  simp [PCov.call, hb, featCall, featSecond, bind, Except.bind, linopLast, rowDot, this]

/-! ## Instances -/

/-- Non-vacuity: two features `1, x`, correlated weights with a positive semidefinite covariance, two batches that
broadcast to a grid. -/
example : Psd 2 (fun j k => if j = k then 2 else 1) ∧ Ok1 false (⟨[3, 1], fun i => (i.getD 0 0 : ℝ)⟩ : Pts ℝ) ∧
    Coeff.bcast [3, 1] [2] = some [3, 2] := by
  refine ⟨?_, by simp [Ok1], by decide⟩
  have h1 : (Matrix.of fun i j : Fin 2 => if (i : ℕ) = j then (2 : ℝ) else 1) =
      1 + (Matrix.of fun (_ : Fin 2) (_ : Fin 1) => (1 : ℝ)) * (Matrix.of fun (_ : Fin 2) (_ : Fin 1) => (1 : ℝ)).conjTranspose := by
    ext i j
    fin_cases i <;> fin_cases j <;> simp [Matrix.mul_apply] <;> norm_num
  unfold Psd
  rw [h1]
  exact Matrix.PosSemidef.one.add (Matrix.posSemidef_self_mul_conjTranspose _)

/-- Non-vacuity: weights with finite second moments. -/
example : MeasureTheory.MemLp (fun b : Bool => if b then (1 : ℝ) else 0) 2 (MeasureTheory.Measure.dirac true) :=
  MeasureTheory.memLp_of_bounded (a := 0) (b := 1) (Filter.Eventually.of_forall fun b => by cases b <;> simp)
    (measurable_of_countable _).aestronglyMeasurable _

end LinPDE.Param
