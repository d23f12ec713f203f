import Verif.Backend.Model
import Verif.Matern.Props
import Verif.ExpQuad.Props
import Verif.Wendland.Props

/-!
# C68: the evaluation of the closed-form kernels does not depend on the library or on the storage type of the points

For points stored as floats NumPy and JAX agree, and the entries of the KeOps tensors are the kernel values. For points
stored as integers the property is violated.
-/

namespace LinPDE.Backend
open LinPDE.Polys LinPDE.Matern

variable {d : ℕ}

lemma hornerLoop_eq (c : ℕ → ℝ) (r : ℝ) (n : ℕ) (res : ℝ) :
    hornerLoop c r n res = ((List.range n).map c).reverse.foldl (fun res c => res * r + c) res := by
  induction n generalizing res with
  | zero => rfl
  | succ n ih => rw [hornerLoop, ih, List.range_succ]; simp

lemma ofCoeffs_coeffs {K : Type} [Zero K] {l : List K} (h : l ≠ []) : (Poly.ofCoeffs l).coeffs = l := by
  cases l with
  | nil => exact absurd rfl h
  | cons a l => rfl

/-- The loop of `Matern._evaluate_jax` evaluates the polynomial of the kernel. -/
lemma horner_matern (p : ℕ) (r : ℝ) :
    hornerLoop (fun i => (maternCoeff p i : ℝ)) r p (maternCoeff p p : ℝ) = pev (derivPoly p 0) r := by
  have hc : (toReal (derivPoly p 0)).coeffs = (List.range p).map (fun i => (maternCoeff p i : ℝ)) ++ [(maternCoeff p p : ℝ)] := by
    have : (derivPoly p 0).coeffs = (List.range (p + 1)).map (maternCoeff p) := ofCoeffs_coeffs (by simp)
    unfold toReal
    rw [this, List.map_map, List.range_succ, List.map_append]
    exact ofCoeffs_coeffs (by simp)
  rw [hornerLoop_eq]
  unfold pev Poly.eval
  have h1 : (toReal (derivPoly p 0)).coeffs.dropLast = (List.range p).map (fun i => (maternCoeff p i : ℝ)) := by
    rw [hc]; simp
  have h2 : (toReal (derivPoly p 0)).coeffs.getLast (toReal (derivPoly p 0)).ne = (maternCoeff p p : ℝ) := by
    simp only [hc]; simp
  rw [h1, h2]

lemma jaxPoly_flt (q : Poly ℝ) (r : ℝ) : jaxPoly q ⟨.flt, r⟩ = q.eval r := rfl

lemma keopsPoly_eq {N M : ℕ} (q : Poly ℝ) (r : Lazy N M) (i : Fin N) (j : Fin M) :
    keopsPoly q r i j = q.eval (r i j) := by
  unfold keopsPoly Poly.eval
  have : ∀ (l : List ℝ) (a : Lazy N M), (l.foldl (fun (res : Lazy N M) c => fun i j => res i j * r i j + c) a) i j =
      l.foldl (fun res c => res * r i j + c) (a i j) := by
    intro l
    induction l with
    | nil => intro a; rfl
    | cons c l ih => intro a; exact ih _
  exact this _ _

lemma keopsNorm_eq {N M : ℕ} (s : Fin d → ℝ) (X0 : Fin N → Fin d → ℝ) (X1 : Fin M → Fin d → ℝ) (i : Fin N) (j : Fin M) :
    keopsNorm (keopsDiff s X0 X1) i j = Matern.norm (sdiff s (X0 i) (X1 j)) := by
  unfold keopsNorm Matern.norm keopsDiff Matern.sdiff
  simp only [pow_two]

/-- Points stored as floats. -/
def fl (nd : Bool) (x : Fin d → ℝ) : Pt d := ⟨.flt, nd, x⟩

/-- Points stored as integers. -/
def it (nd : Bool) (x : Fin d → ℤ) : Pt d := ⟨.int, nd, fun i => (x i : ℝ)⟩

/-- C68 for the Matérn kernel and its derivatives at points stored as floats: NumPy and JAX return the value of the
kernel, for pairs of points and for `x1 = None`. -/
theorem matern_numpy_jax_partial (k : MK d) (b0 b1 : Bool) (x0 x1 : Fin d → ℝ) :
    npMatern k (fl b0 x0) (some (fl b1 x1)) = .ok (k.eval x0 x1) ∧
      jaxMatern k (fl b0 x0) (some (fl b1 x1)) = .ok (k.eval x0 x1) ∧
      npMatern k (fl b0 x0) none = .ok k.evalNone ∧ jaxMatern k (fl b0 x0) none = .ok k.evalNone := by
  have hS : ∀ s : Fin d → ℝ, npScale (sub (fl b0 x0) (fl b1 x1)) s = .ok (sdiff s x0 x1) := by
    intro s
    unfold npScale sub fl Matern.sdiff
    rw [if_neg (by simp [DT.join])]
  have hJ : ∀ s : Fin d → ℝ, jaxScale (sub (fl b0 x0) (fl b1 x1)) s = sdiff s x0 x1 := fun s => rfl
  have hD : ∀ s : Fin d → ℝ, npDist s (fl b0 x0) (some (fl b1 x1)) = .ok ⟨.flt, Matern.norm (sdiff s x0 x1)⟩ := by
    intro s
    simp only [npDist, hS, bind, Except.bind]
  have hE : ∀ s : Fin d → ℝ, jaxDist s (fl b0 x0) (some (fl b1 x1)) = ⟨.flt, Matern.norm (sdiff s x0 x1)⟩ := fun s => rfl
  have hD0 : ∀ s : Fin d → ℝ, npDist s (fl b0 x0) none = .ok ⟨.flt, 0⟩ := fun s => rfl
  have hE0 : ∀ s : Fin d → ℝ, jaxDist s (fl b0 x0) none = ⟨.flt, 0⟩ := fun s => rfl
  have hP : ∀ (q : Poly ℚ) (r : ℝ), npPoly (toReal q) ⟨.flt, r⟩ = .ok (pev q r) := fun q r => rfl
  have hQ : ∀ (q : Poly ℚ) (r : ℝ), jaxPoly (toReal q) ⟨.flt, r⟩ = pev q r := fun q r => rfl
  have hN : ∀ v : Fin d → ℝ, jaxNorm v = Matern.norm v := fun v => rfl
  cases k <;> refine ⟨?_, ?_, ?_, ?_⟩ <;>
    simp only [npMatern, jaxMatern, jaxMaternBase, hS, hJ, hD, hE, hD0, hE0, hP, hQ, hN, bind, Except.bind, MK.eval,
      MK.evalNone, horner_matern] <;> rfl

/-- C68 for the derivatives of the squared exponential at points stored as floats. -/
theorem expquad_numpy_jax_partial (k : ExpQuad.EK d) (b0 b1 : Bool) (x0 x1 : Fin d → ℝ) :
    npExpQuad k (fl b0 x0) (some (fl b1 x1)) = .ok (k.eval x0 x1) ∧
      jaxExpQuad k (fl b0 x0) (some (fl b1 x1)) = k.eval x0 x1 ∧
      npExpQuad k (fl b0 x0) none = .ok k.evalNone ∧ jaxExpQuad k (fl b0 x0) none = k.evalNone := by
  have hS : ∀ s : Fin d → ℝ, npScale (sub (fl b0 x0) (fl b1 x1)) s = .ok fun i => (x0 i - x1 i) * s i := by
    intro s
    unfold npScale sub fl
    rw [if_neg (by simp [DT.join])]
  have hc : ∀ l : Fin d → ℝ, (fun i => (x0 i - x1 i) * ExpQuad.sf l i) = fun i => ExpQuad.sf l i * (x0 i - x1 i) :=
    fun l => funext fun i => mul_comm _ _
  have hq : ∀ l : Fin d → ℝ, (jaxSqDist (ExpQuad.sf l) (fl b0 x0) (some (fl b1 x1))).val =
      ExpQuad.normSq fun i => ExpQuad.sf l i * (x0 i - x1 i) := by
    intro l
    rw [← hc]
    rfl
  cases k <;> refine ⟨?_, ?_, ?_, ?_⟩ <;>
    simp only [npExpQuad, jaxExpQuad, jaxExpQuadBase, hS, hq, hc, bind, Except.bind, ExpQuad.EK.eval,
      ExpQuad.EK.evalNone, ExpQuad.ek] <;> rfl

/-- C68 for the remaining smoothness parameters of the JAX Matérn kernel: `nu = inf` gives the squared exponential of the
scale factors, at pairs of points and on the diagonal, and a `nu` that is not half-integer raises. -/
theorem matern_jax_smoothness (l : Fin d → ℝ) (nu : ℝ) (b0 b1 : Bool) (x0 x1 : Fin d → ℝ) :
    jaxMaternBase .inf (ExpQuad.sf l) (fl b0 x0) (some (fl b1 x1)) = .ok ((ExpQuad.EK.expquad l).eval x0 x1) ∧
      jaxMaternBase .inf (ExpQuad.sf l) (fl b0 x0) none = .ok 1 ∧
      jaxMaternBase (.other nu) (ExpQuad.sf l) (fl b0 x0) (some (fl b1 x1)) = .error .notImplemented := by
  refine ⟨?_, ?_, rfl⟩
  · have hq : (jaxSqDist (ExpQuad.sf l) (fl b0 x0) (some (fl b1 x1))).val =
        ExpQuad.normSq fun i => ExpQuad.sf l i * (x0 i - x1 i) := by
      rw [show (fun i => ExpQuad.sf l i * (x0 i - x1 i)) = fun i => (x0 i - x1 i) * ExpQuad.sf l i from
        funext fun i => mul_comm _ _]
      rfl
    simp only [jaxMaternBase, hq]
    rfl
  · show Except.ok (Real.exp (-(0 : ℝ))) = _
    simp

example : jaxMaternBase .inf (ExpQuad.sf fun _ : Fin 1 => 1) (fl true fun _ => 2) (some (fl true fun _ => 0)) =
    .ok (Real.exp (-2)) := by
  rw [(matern_jax_smoothness _ 1 true true _ _).1]
  congr 1
  show Real.exp _ = _
  congr 1
  simp [ExpQuad.normSq, ExpQuad.sf, mul_pow]
  norm_num

/-- C68 for the Wendland kernels at points stored as floats. -/
theorem wendland_numpy_jax_partial (k : Wendland.WendlandCov d) (b0 b1 : Bool) (x0 x1 : Fin d → ℝ) :
    npWendland k (fl b0 x0) (some (fl b1 x1)) = .ok (k.eval x0 x1) ∧
      jaxWendland k (fl b0 x0) (some (fl b1 x1)) = k.eval x0 x1 ∧
      npWendland k (fl b0 x0) none = .ok k.evalNone ∧ jaxWendland k (fl b0 x0) none = k.evalNone := by
  refine ⟨?_, rfl, rfl, rfl⟩
  have hS : npScale (sub (fl b0 x0) (fl b1 x1)) (fun i => 1 / k.lengthscales i) =
      .ok (sdiff (fun i => 1 / k.lengthscales i) x0 x1) := by
    unfold npScale sub fl Matern.sdiff
    rw [if_neg (by simp [DT.join])]
  simp only [npWendland, npDist, hS, bind, Except.bind]
  rfl

/-! ## KeOps -/

/-- C68: the entries of the KeOps tensor of a Matérn derivative are the values of the kernel, hence those of NumPy and JAX;
only the kernel itself has no tensor here. -/
theorem matern_keops_partial {N M : ℕ} (k : MK d) (hk : ∀ m, k ≠ .matern m) (X0 : Fin N → Fin d → ℝ) (X1 : Fin M → Fin d → ℝ) :
    ∃ L : Lazy N M, keopsMaternAt k X0 X1 = some L ∧ ∀ i j, L i j = k.eval (X0 i) (X1 j) := by
  have hv : ∀ (s : Fin d → ℝ) i j, keopsDiff s X0 X1 i j = sdiff s (X0 i) (X1 j) := fun s i j => rfl
  cases k with
  | matern m => exact absurd rfl (hk m)
  | _ =>
    refine ⟨_, rfl, fun i j => ?_⟩
    simp only [keopsPoly_eq, keopsNorm_eq, hv]
    rfl

/-- C68: without second points the tensor is the full Gram matrix of the points, whose diagonal is what NumPy and JAX return
for `x1 = None`. -/
theorem matern_keops_none_partial {N : ℕ} {m : Par d} {n : ℕ} {k : MK d} (hb : Built m n k) (hk : ∀ m, k ≠ .matern m)
    (X : Fin N → Fin d → ℝ) :
    ∃ L : Lazy N N, keopsMaternNone k X = some L ∧ (∀ i j, L i j = k.eval (X i) (X j)) ∧
      ∀ i b, npMatern k (fl b (X i)) none = .ok (L i i) ∧ jaxMatern k (fl b (X i)) none = .ok (L i i) := by
  obtain ⟨L, hL, h⟩ := matern_keops_partial k hk X X
  refine ⟨L, hL, h, fun i b => ?_⟩
  obtain ⟨-, -, h1, h2⟩ := matern_numpy_jax_partial k b b (X i) (X i)
  rw [h1, h2, h, matern_evalNone hb (X i)]
  exact ⟨rfl, rfl⟩

/-- C68: the entries of the KeOps tensor of a Wendland kernel are the values of the kernel. -/
theorem wendland_keops_partial {N M : ℕ} (k : Wendland.WendlandCov d) (X0 : Fin N → Fin d → ℝ) (X1 : Fin M → Fin d → ℝ)
    (i : Fin N) (j : Fin M) : keopsWendland k X0 X1 i j = k.eval (X0 i) (X1 j) := by
  simp only [keopsWendland, keopsPoly_eq, keopsNorm_eq, sub_nonneg]
  rfl

/-! ## Integers -/

/-- JAX promotes: at pairs of points stored as integers it returns the value of the kernel. -/
theorem jax_integers_partial (b0 b1 : Bool) (x0 x1 : Fin d → ℤ) :
    (∀ k : MK d, jaxMatern k (it b0 x0) (some (it b1 x1)) = .ok (k.eval (fun i => x0 i) fun i => x1 i)) ∧
      (∀ k : ExpQuad.EK d, jaxExpQuad k (it b0 x0) (some (it b1 x1)) = k.eval (fun i => x0 i) fun i => x1 i) ∧
      ∀ k : Wendland.WendlandCov d, jaxWendland k (it b0 x0) (some (it b1 x1)) = k.eval (fun i => x0 i) fun i => x1 i := by
  refine ⟨fun k => ?_, fun k => ?_, fun k => rfl⟩
  · rw [← (matern_numpy_jax_partial k b0 b1 (fun i => (x0 i : ℝ)) fun i => (x1 i : ℝ)).2.1]
    cases k <;> rfl
  · rw [← (expquad_numpy_jax_partial k b0 b1 (fun i => (x0 i : ℝ)) fun i => (x1 i : ℝ)).2.1]
    cases k <;> rfl

/-- C68 is violated for arrays of integers: NumPy refuses every Matérn derivative of odd order and, in several dimensions,
every second directional derivative, at all pairs of points, where JAX returns the value. -/
theorem matern_integers_violated (m : Par d) (u u' w : Fin d → ℝ) (r : Bool) (q q' : Poly ℚ) (b : Bool) (x0 x1 : Fin d → ℤ) :
    npMatern (.idDD m u r q) (it true x0) (some (it b x1)) = .error .typeError ∧
      npMatern (.ddDD m u u' q q') (it true x0) (some (it b x1)) = .error .typeError ∧
      npMatern (.ddWL m u w r q) (it true x0) (some (it b x1)) = .error .typeError := by
  have hS : npScale (sub (it true x0) (it b x1)) m.s = .error .typeError := by
    unfold npScale sub it
    rw [if_pos (by simp [DT.join])]
  refine ⟨?_, ?_, ?_⟩ <;> simp only [npMatern, hS, bind, Except.bind]

/-- Converting one of the two arrays to floats is enough: mixed storage types are promoted. -/
theorem matern_mixed_partial (k : MK d) (b0 b1 : Bool) (x0 : Fin d → ℤ) (x1 : Fin d → ℝ) :
    npMatern k (it b0 x0) (some (fl b1 x1)) = .ok (k.eval (fun i => x0 i) x1) := by
  have h : sub (it b0 x0) (fl b1 x1) = sub (fl b0 fun i => (x0 i : ℝ)) (fl b1 x1) := rfl
  rw [← (matern_numpy_jax_partial k b0 b1 (fun i => (x0 i : ℝ)) x1).1]
  cases k <;> simp only [npMatern, npDist, h]

/-- Scalar inputs without batch axes: the difference is a NumPy scalar, integers are promoted. -/
theorem matern_scalar_integers_partial (k : MK d) (x0 x1 : Fin d → ℤ) :
    npMatern k (it false x0) (some (it false x1)) = .ok (k.eval (fun i => x0 i) fun i => x1 i) := by
  rw [← (matern_numpy_jax_partial k false false (fun i => (x0 i : ℝ)) fun i => (x1 i : ℝ)).1]
  have hS : ∀ s : Fin d → ℝ, npScale (sub (it false x0) (it false x1)) s =
      npScale (sub (fl false fun i => (x0 i : ℝ)) (fl false fun i => (x1 i : ℝ))) s := by
    intro s
    unfold npScale sub it fl
    simp [DT.join]
  cases k <;> simp only [npMatern, npDist, hS]

/-- The derivatives of the squared exponential that do not call the kernel itself accept integers in NumPy, too. -/
theorem expquad_integers_partial (k : ExpQuad.EK d) (hk : (∀ l, k ≠ .expquad l) ∧ ∀ l u w r, k ≠ .ddWL l u w r)
    (b0 b1 : Bool) (x0 x1 : Fin d → ℤ) :
    npExpQuad k (it b0 x0) (some (it b1 x1)) = .ok (k.eval (fun i => x0 i) fun i => x1 i) := by
  cases k with
  | expquad l => exact absurd rfl (hk.1 l)
  | ddWL l u w r => exact absurd rfl (hk.2 l u w r)
  | _ => rfl

/-- With `x1 = None` both libraries store the variance of a differentiated process in an array of integers: the value is
truncated. -/
theorem none_truncated (b : Bool) (x : Fin d → ℤ) :
    (∀ (m : Par d) (u u' : Fin d → ℝ) (q q' : Poly ℚ),
      npMatern (.ddDD m u u' q q') (it b x) none = .ok (truncTo (MK.ddDD m u u' q q').evalNone : ℝ) ∧
      jaxMatern (.ddDD m u u' q q') (it b x) none = .ok (truncTo (MK.ddDD m u u' q q').evalNone : ℝ) ∧
      npMatern (.uniDDDD m u u' q) (it b x) none = .ok (truncTo (MK.uniDDDD m u u' q).evalNone : ℝ) ∧
      jaxMatern (.uniDDDD m u u' q) (it b x) none = .ok (truncTo (MK.uniDDDD m u u' q).evalNone : ℝ)) ∧
    ∀ k : ExpQuad.EK d, (npExpQuad k (it b x) none = .ok (truncTo k.evalNone : ℝ)) ∧
      jaxExpQuad k (it b x) none = (truncTo k.evalNone : ℝ) := by
  refine ⟨fun m u u' q q' => ⟨rfl, rfl, rfl, rfl⟩, fun k => ?_⟩
  cases k <;> exact ⟨rfl, rfl⟩

lemma truncTo_small {v : ℝ} (h0 : 0 ≤ v) (h1 : v < 1) : truncTo v = 0 := by
  unfold truncTo
  rw [if_pos h0, Int.floor_eq_zero_iff]
  exact ⟨h0, h1⟩

/-- C68 is violated for the variances: the derivative of a process with squared-exponential kernel of lengthscale `l > 1`
has variance `1 / l²`, the closed form returns it for floats and zero for integers. -/
theorem expquad_variance_violated (l : ℝ) (hl : 1 < l) (x : Fin 1 → ℤ) (b : Bool) :
    let k : ExpQuad.EK 1 := .ddDD (fun _ => l) (fun _ => 1) (fun _ => 1)
    npExpQuad k (it b x) none = .ok 0 ∧ jaxExpQuad k (it b x) none = 0 ∧
      npExpQuad k (fl b fun i => (x i : ℝ)) none = .ok (1 / l ^ 2) ∧
      k.eval (fun i => x i) (fun i => x i) = 1 / l ^ 2 ∧ 0 < 1 / l ^ 2 := by
  intro k
  have hv : k.evalNone = 1 / l ^ 2 := by simp [k, ExpQuad.EK.evalNone, dot]
  have h0 : 0 < 1 / l ^ 2 := by positivity
  have h1 : 1 / l ^ 2 < 1 := by
    rw [div_lt_one (by positivity)]
    nlinarith
  obtain ⟨-, h⟩ := none_truncated b x
  rw [(h k).1, (h k).2, (expquad_numpy_jax_partial k b b _ fun i => (x i : ℝ)).2.2.1, ← ExpQuad.expquad_evalNone, hv,
    truncTo_small h0.le h1]
  exact ⟨by simp, by simp, rfl, rfl, h0⟩

/-- C68 is violated for Laplacians of Matérn kernels with `x1 = None`: NumPy refuses the polynomial at integer
distances. -/
theorem matern_laplacian_none_violated (m : Par d) (w w' : Fin d → ℝ) (r : Bool) (q : Poly ℚ)
    (hq : (toReal q).degree ≠ 0) (b : Bool) (x : Fin d → ℤ) :
    npMatern (.idWL m w r q) (it b x) none = .error .typeError ∧
      npMatern (.wlWL m w w' q) (it b x) none = .error .typeError := by
  have h : npPoly (toReal q) ⟨.int, 0⟩ = .error .typeError := if_neg hq
  constructor <;> simp only [npMatern, npDist, it, h, bind, Except.bind]

/-- The Wendland kernels have no variances at arrays of integers in NumPy. -/
theorem wendland_none_violated {k : ℕ} {l : Fin d → ℝ} {K : Wendland.WendlandCov d} (hK : Wendland.mkWendland d k l = .ok K)
    (b : Bool) (x : Fin d → ℤ) : npWendland K (it b x) none = .error .typeError := by
  have hd : (Wendland.realPoly K.poly).degree ≠ 0 := by
    obtain ⟨p, hp, hdeg⟩ := Wendland.wendland_constructs d k
    have : K.poly = p := by
      simp only [Wendland.mkWendland, hp, bind, Except.bind] at hK
      cases hK
      rfl
    have hl : (Wendland.realPoly p).coeffs.length = p.coeffs.length := by
      unfold Wendland.realPoly
      rw [ofCoeffs_coeffs (by simpa using p.ne)]
      simp
    unfold Poly.degree at hdeg ⊢
    rw [this, hl]
    omega
  have h : npPoly (Wendland.realPoly K.poly) ⟨.int, 0⟩ = .error .typeError := if_neg hd
  simp only [npWendland, npDist, it, h, bind, Except.bind]

/-- Non-vacuity: the second derivative of a Matérn-3/2 kernel exists, its variance at the integer point 3 is returned as 0
and at the float 3.0 as 1/4. -/
example : ∃ (m : Par 1) (k : MK 1), Built m 2 k ∧ npMatern k (it true fun _ => 3) none = .ok 0 ∧
    npMatern k (fl true fun _ => 3) none = .ok (1 / 4) := by
  refine ⟨⟨1, fun _ => 1 / 2⟩, .uniDDDD ⟨1, fun _ => 1 / 2⟩ (fun _ => 1) (fun _ => 1) (derivPoly 1 2).neg, ?_, ?_⟩
  · obtain ⟨q, hq⟩ : ∃ q, divMono (derivPoly 1 1) 1 = .ok q := by
      cases h : divMono (derivPoly 1 1) 1 with
      | ok q => exact ⟨q, rfl⟩
      | error e =>
        have : (match divMono (derivPoly 1 1) 1 with | .ok _ => true | .error _ => false) = true := by decide +kernel
        rw [h] at this
        exact absurd this (by simp)
    refine .step (.dd fun _ => 1) true (.step (k' := .idDD ⟨1, fun _ => 1 / 2⟩ (fun _ => 1) false q)
      (.dd fun _ => 1) false .base ?_) rfl
    show mkIdDD _ _ _ = _
    unfold mkIdDD
    rw [hq]; rfl
  · have hc : (derivPoly 1 2).neg.coeffs = [1, -1] := by decide +kernel
    have hv : (MK.uniDDDD (d := 1) ⟨1, fun _ => 1 / 2⟩ (fun _ => 1) (fun _ => 1) (derivPoly 1 2).neg).evalNone = 1 / 4 := by
      simp only [MK.evalNone, toReal, hc]
      simp [Poly.ofCoeffs]
      norm_num
    obtain ⟨h, -⟩ := none_truncated (d := 1) true fun _ => 3
    rw [(h _ _ _ _ (derivPoly 1 2)).2.2.1, (matern_numpy_jax_partial _ true true _ fun _ => 3).2.2.1, hv,
      truncTo_small (by norm_num) (by norm_num)]
    simp

/-- Non-vacuity: the polynomial of the Laplacian of the Matérn-3/2 kernel is not constant. -/
example : (toReal (derivPoly 1 2)).degree ≠ 0 := by
  have hc : (derivPoly 1 2).coeffs = [-1, 1] := by decide +kernel
  unfold toReal
  rw [hc]
  simp [Poly.ofCoeffs, Poly.degree]

/-- Non-vacuity: there are Wendland kernels in two dimensions. -/
example : ∃ K, Wendland.mkWendland 2 1 (fun _ => 1) = .ok K ∧ npWendland K (it true fun _ => 0) none = .error .typeError := by
  obtain ⟨p, hp, -⟩ := Wendland.wendland_constructs 2 1
  have h : Wendland.mkWendland 2 1 (fun _ => 1) = .ok ⟨p, fun _ => 1⟩ := by
    simp only [Wendland.mkWendland, hp, bind, Except.bind]
  exact ⟨_, h, wendland_none_violated h true _⟩

end LinPDE.Backend
