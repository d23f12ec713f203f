import Verif.Rounding.SolveKernels
import Verif.Rounding.DerivExamples

/-!
# C91: a concrete history in double precision
-/

namespace LinPDE.Rounding
open Finset Matrix LinPDE.GP LinPDE.Block
open LinPDE.ExpQuad (EK sf)
open LinPDE.Matern (DOp)

/-- Values and derivatives at points of the unit interval. -/
def S01 : Set (DOp 1 × (Fin 1 → ℝ)) := {q | (q.1 = .pd 0 ∨ q.1 = .dd fun _ => 1) ∧ 0 ≤ q.2 0 ∧ q.2 0 ≤ 1}

lemma s01_bounds : ∀ q ∈ S01, ∀ r ∈ S01, ∃ k, ekPair (fun _ => (1 : ℝ)) q.1 r.1 = .ok k ∧ ekErr (bin 52) 1 k q.2 r.2 ≤ 1 / 2 ^ 46 ∧
    ekMag k q.2 r.2 * Real.exp (-∑ i, (sf (fun _ => 1) i * (q.2 i - r.2 i)) ^ 2) ≤ 2 := by
  have key : ∀ (k : EK 1) (x y : Fin 1 → ℝ), lens k = (fun _ => 1) → |x 0 - y 0| ≤ 1 → 0 ≤ ekMag k x y → ekMag k x y ≤ 2 →
      ekErr (bin 52) 1 k x y ≤ 1 / 2 ^ 46 ∧ ekMag k x y * Real.exp (-∑ i, (sf (fun _ => 1) i * (x i - y i)) ^ 2) ≤ 2 := by
    intro k x y hk hd h0 h2
    have hq : ∑ r, (sf (fun _ => (1 : ℝ)) r * (x r - y r)) ^ 2 = (x 0 - y 0) ^ 2 / 2 := by
      rw [half_sq, Fin.sum_univ_one]
      ring
    have hm : ekMag k x y * Real.exp (-((x 0 - y 0) ^ 2 / 2)) ≤ 2 := by
      have h3 : Real.exp (-((x 0 - y 0) ^ 2 / 2)) ≤ 1 := Real.exp_le_one_iff.2 (by have := sq_nonneg (x 0 - y 0); linarith)
      calc _ ≤ 2 * 1 := mul_le_mul h2 h3 (Real.exp_pos _).le (by norm_num)
        _ = 2 := by norm_num
    refine ⟨?_, by rw [hq]; exact hm⟩
    unfold ekErr
    rw [hk, hq]
    calc _ ≤ 1 / 2 ^ 47 * (2 : ℝ) := mul_le_mul (bin_second hd) hm (mul_nonneg h0 (Real.exp_pos _).le) (by norm_num)
      _ = 1 / 2 ^ 46 := by norm_num
  rintro ⟨L, x⟩ ⟨hL, hx⟩ ⟨L', y⟩ ⟨hL', hy⟩
  have hd : |x 0 - y 0| ≤ 1 := by
    rw [abs_le]
    constructor <;> linarith [hx.1, hx.2, hy.1, hy.2]
  have hsq := (sq_le_one_iff_abs_le_one _).2 hd
  rcases hL with h | h <;> rcases hL' with h' | h' <;> (simp only at h h'; subst h; subst h')
  · exact ⟨.expquad fun _ => 1, rfl, key _ _ _ rfl hd (by simp [ekMag]) (by simp [ekMag])⟩
  · refine ⟨.idDD (fun _ => 1) (fun _ => 1) false, rfl, key _ _ _ rfl hd ?_ ?_⟩ <;> simp only [ekMag, adot, Fin.sum_univ_one] <;> norm_num <;> linarith
  · refine ⟨.idDD (fun _ => 1) (fun _ => 1) true, rfl, key _ _ _ rfl hd ?_ ?_⟩ <;> simp only [ekMag, adot, Fin.sum_univ_one] <;> norm_num <;> linarith
  · refine ⟨.ddDD (fun _ => 1) (fun _ => 1) (fun _ => 1), rfl, key _ _ _ rfl hd ?_ ?_⟩ <;> simp only [ekMag, adot, Fin.sum_univ_one]
    · positivity
    · norm_num
      linarith [pow_two (x 0 - y 0)]

/-- Observations of one operator at `n` points with independent noise of variance `10⁻¹⁰`. -/
noncomputable def obs01 (L : DOp 1) {n : ℕ} (x : Fin n → Fin 1 → ℝ) (Y : Fin n → ℝ) : FlObs (DOp 1 × (Fin 1 → ℝ)) :=
  ⟨n, fun i => (L, x i), Y, 0, (1 / 10 ^ 10 : ℝ) • 1⟩

lemma obs01_bc (L : DOp 1) {n : ℕ} (x : Fin n → Fin 1 → ℝ) (Y : Fin n → ℝ) (i j : Fin n) :
    (obs01 L x Y).bc i j = if i = j then 1 / 10 ^ 10 else 0 := by
  show ((1 / 10 ^ 10 : ℝ) • (1 : Matrix (Fin n) (Fin n) ℝ)) i j = _
  rw [Matrix.smul_apply, Matrix.one_apply, smul_eq_mul]
  split_ifs <;> simp

lemma obs01_symm (L : DOp 1) {n : ℕ} (x : Fin n → Fin 1 → ℝ) (Y : Fin n → ℝ) (i j : Fin n) : (obs01 L x Y).bc i j = (obs01 L x Y).bc j i := by
  rw [obs01_bc, obs01_bc]
  exact if_congr eq_comm rfl rfl

lemma obs01_noise (L : DOp 1) {n : ℕ} (x : Fin n → Fin 1 → ℝ) (Y : Fin n → ℝ) (v : Fin n → ℝ) :
    1 / 10 ^ 10 * (v ⬝ᵥ v) ≤ v ⬝ᵥ ((show Matrix (Fin n) (Fin n) ℝ from (obs01 L x Y).bc) *ᵥ v) := by
  show _ ≤ v ⬝ᵥ (((1 / 10 ^ 10 : ℝ) • (1 : Matrix (Fin n) (Fin n) ℝ)) *ᵥ v)
  rw [smul_mulVec, one_mulVec, dotProduct_smul, smul_eq_mul]

/-- Double precision: a batch of values and a batch of derivatives at points of the unit interval, at most 1000 measurements, noise of variance `10⁻¹⁰`. -/
example (slv : Solver) (m : jetF (d := 1) Set.univ) (p : DOp 1 × (Fin 1 → ℝ) → ℝ) (mf : (Fin 1 → ℝ) → ℝ) (e : Env) (he : e.CholOK)
    (tr : ∀ s : Shape, Option (Tree s.Idx)) (htr : ∀ s, FullOpt (tr s)) (n n' : ℕ) (hn : n + n' ≤ 1000) (x : Fin n → Fin 1 → ℝ) (x' : Fin n' → Fin 1 → ℝ)
    (hx : ∀ i, 0 ≤ x i 0 ∧ x i 0 ≤ 1) (hx' : ∀ i, 0 ≤ x' i 0 ∧ x' i 0 ≤ 1) (Y : Fin n → ℝ) (Y' : Fin n' → ℝ) :
    ∃ f, FlSt.run (bin 52) slv tr (ekKer (bin 52) (fun _ => .leaf 0) (fun i => (bin 52).rd (sf (fun _ => 1) i)) (fun _ => 1) p mf)
      (obs01 (.pd 0) x Y) [obs01 (.dd fun _ => 1) x' Y'] = .ok f ∧ f.gram.toMat.PosDef := by
  have hmem : ∀ o ∈ [obs01 (.pd 0) x Y, obs01 (.dd fun _ => 1) x' Y'], ∀ i, o.at_ i ∈ S01 := by
    intro o ho i
    simp only [List.mem_cons, List.not_mem_nil, or_false] at ho
    rcases ho with rfl | rfl
    · exact ⟨Or.inl rfl, hx i⟩
    · exact ⟨Or.inr rfl, hx' i⟩
  have hall : ∀ q : FlObs (DOp 1 × (Fin 1 → ℝ)) → Prop, (∀ L n (x : Fin n → Fin 1 → ℝ) Y, q (obs01 L x Y)) →
      ∀ o ∈ [obs01 (.pd 0) x Y, obs01 (.dd fun _ => 1) x' Y'], q o := by
    intro q hq o ho
    simp only [List.mem_cons, List.not_mem_nil, or_false] at ho
    rcases ho with rfl | rfl <;> exact hq _ _ _ _
  obtain ⟨f, c, h1, -, h2, -⟩ := expquad_history (F := bin 52) (a := 1) (l := fun _ => 1) (T := fun _ => .leaf 0) (s := fun i => (bin 52).rd (sf (fun _ => 1) i))
    (τ := 1 / 10 ^ 10) (σ := 1 / 10 ^ 10)
    (by rw [bin_u.1]; norm_num) (fun _ => leaf_full) (fun _ => one_ne_zero) (rd_scale (bin 52) (sf fun _ => 1)) m p mf S01 (by norm_num) (by norm_num)
    (by norm_num) (by norm_num) s01_bounds slv htr e he (obs01 (.pd 0) x Y) [obs01 (.dd fun _ => 1) x' Y'] hmem
    (hall _ fun L n x Y i j => rfl)
    (hall _ fun L n x Y => obs01_symm L x Y)
    (hall _ fun L n x Y i j => by
      refine (congrArg abs (obs01_bc L x Y i j)).trans_le ?_
      split_ifs <;> norm_num)
    (hall _ fun L n x Y => obs01_noise L x Y)
    (by
      have hs : (([obs01 (.pd 0) x Y, obs01 (.dd fun _ => 1) x' Y'].map FlObs.n).sum : ℝ) ≤ 1000 := by
        have : ([obs01 (.pd 0) x Y, obs01 (.dd fun _ => 1) x' Y'].map FlObs.n).sum = n + n' := by simp [obs01]
        rw [this]
        exact_mod_cast hn
      refine lt_of_le_of_lt (mul_le_mul_of_nonneg_right hs (by have := (bin 52).u_nonneg; positivity)) ?_
      rw [bin_u.1]
      norm_num)
  exact ⟨f, h1, h2⟩

/-- Exact arithmetic. -/
noncomputable def exactFmt : Fmt where
  rd x := x
  ex := Real.exp
  u := 0
  v := 0
  u_nonneg := le_rfl
  u_lt := one_pos
  v_nonneg := le_rfl
  v_lt := one_pos
  err x := by simp
  neg x := rfl
  one := rfl
  ex_err x := by simp
  ex_zero := Real.exp_zero

/-- Exact arithmetic: values and derivatives of a squared exponential process. -/
example (m : jetF (d := 1) Set.univ) (e : Env) (he : e.CholOK) (tr : ∀ s : Shape, Option (Tree s.Idx)) (htr : ∀ s, FullOpt (tr s)) (n n' : ℕ)
    (x : Fin n → Fin 1 → ℝ) (x' : Fin n' → Fin 1 → ℝ) (Y : Fin n → ℝ) (Y' : Fin n' → ℝ) :
    let hl : ∀ i : Fin 1, (fun _ => (1 : ℝ)) i ≠ 0 := fun _ => one_ne_zero
    let P := (expquad_jet hl).prior m
    let K : FlKer (Fin 1 → ℝ) (DOp 1 × (Fin 1 → ℝ)) :=
      ⟨fun a b => P.cov (ekOp hl m a) (ekOp hl m b), fun x a => (P.cross (ekOp hl m a)).1 x, fun a => (ekOp hl m a).1 P.m, fun x => m.1 x⟩
    ∃ f c, FlSt.run exactFmt (fun _ M r => M⁻¹ *ᵥ r) tr K (obs01 (.pd 0) x Y) [obs01 (.dd fun _ => 1) x' Y'] = .ok f ∧
      run e ((obs01 (.pd 0) x Y).batch (ekOp hl m)) ([obs01 (.dd fun _ => 1) x' Y'].map (FlObs.batch (ekOp hl m))) = .ok c ∧ f.err = 0 ∧
      ∀ (t : Tree f.s.Idx), t.Full → ∀ x, f.mean exactFmt K t x = c.mean x := by
  intro hl P K
  refine history_exact (F := exactFmt) (K := K) rfl (fun _ M r h => by rw [mulVec_mulVec, mul_nonsing_inv _ h, one_mulVec]) htr e he
    (jet_regular (expquad_jet hl) m) (ekOp hl m) (τ := 1 / 10 ^ 10) (by norm_num) (fun _ _ => rfl) (fun _ _ => rfl) (fun _ => rfl) (fun _ => rfl)
    (obs01 (.pd 0) x Y) [obs01 (.dd fun _ => 1) x' Y'] ?_ ?_
  · intro o ho
    simp only [List.mem_cons, List.not_mem_nil, or_false] at ho
    rcases ho with rfl | rfl
    · exact obs01_symm _ x Y
    · exact obs01_symm _ x' Y'
  · intro b hb
    simp only [List.map_cons, List.map_nil, List.mem_cons, List.not_mem_nil, or_false] at hb
    rcases hb with rfl | rfl
    · exact obs01_noise _ x Y
    · exact obs01_noise _ x' Y'

/-- Values at points of the unit interval. -/
def V01 : Set ({L : DOp 1 // L.order ≤ 0} × (Fin 1 → ℝ)) := {z | z.1.1 = .pd 0 ∧ 0 ≤ z.2 0 ∧ z.2 0 ≤ 1}

lemma v01_bounds : ∀ z ∈ V01, ∀ r ∈ V01, ∃ k, mkPair ⟨0, fun _ => (1 : ℝ)⟩ z.1 r.1 = .ok k ∧ mkErr (bin 52) 0 k z.2 r.2 ≤ 1 / 2 ^ 46 ∧
    mkMag k z.2 r.2 * Real.exp (-Matern.norm (Matern.sdiff (fun _ => (1 : ℝ)) z.2 r.2)) ≤ 1 := by
  rintro ⟨⟨L, hL⟩, x⟩ ⟨h1, h2⟩ ⟨⟨L', hL'⟩, y⟩ ⟨h1', h2'⟩
  simp only at h1 h2 h1' h2'
  subst h1 h1'
  obtain ⟨r, hr⟩ : ∃ r, r = Matern.norm (Matern.sdiff (fun _ : Fin 1 => (1 : ℝ)) x y) := ⟨_, rfl⟩
  have hr' : r = |x 0 - y 0| := by rw [hr]; simp [Matern.norm, Matern.sdiff, Real.sqrt_sq_eq_abs]
  have hr0 : 0 ≤ r := hr' ▸ abs_nonneg _
  have hr1 : r ≤ 1 := by
    rw [hr', abs_le]
    constructor <;> linarith [h2.1, h2.2, h2'.1, h2'.2]
  have hm : mkMag (.matern ⟨0, fun _ => (1 : ℝ)⟩ : Matern.MK 1) x y = 1 := by
    show Matern.pev (Matern.maternPoly 0) _ = 1
    simp [Matern.pev_eq, Matern.maternPoly, Matern.maternCoeff, Polys.Poly.toPoly, Polys.Poly.ofCoeffs, List.range_succ]
  have he : Real.exp (-r) ≤ 1 := Real.exp_le_one_iff.2 (by linarith)
  refine ⟨.matern ⟨0, fun _ => 1⟩, rfl, ?_, ?_⟩
  · simp only [mkErr, parOf, degOf]
    rw [hm, one_mul, ← hr]
    have h3 : Real.exp (((1 + (bin 52).u) ^ (1 + 0 + 3) - 1) * r) ≤ 1 / (1 - 1 / 2 ^ 50) := by
      have h4 : ((1 + (bin 52).u) ^ (1 + 0 + 3) - 1) * r ≤ 1 / 2 ^ 50 := by
        refine (mul_le_mul_of_nonneg_left hr1 ?_).trans ?_ <;> rw [bin_u.1] <;> norm_num
      refine (Real.exp_le_exp.2 h4).trans ?_
      have h5 := Real.one_sub_le_exp_neg (1 / 2 ^ 50 : ℝ)
      rw [Real.exp_neg] at h5
      rw [one_div (1 - 1 / 2 ^ 50 : ℝ)]
      exact le_inv_of_le_inv₀ (by norm_num) h5
    have h6 : (1 + (bin 52).u) ^ (4 * 0 + 2 * 1 + 10 + (2 * 0 + 1 + 0 * (1 + 0 + 3))) * ((1 + (bin 52).v) * Real.exp (((1 + (bin 52).u) ^ (1 + 0 + 3) - 1) * r)) - 1 ≤ 1 / 2 ^ 46 := by
      have h7 : (1 + (bin 52).u) ^ (4 * 0 + 2 * 1 + 10 + (2 * 0 + 1 + 0 * (1 + 0 + 3))) * ((1 + (bin 52).v) * Real.exp (((1 + (bin 52).u) ^ (1 + 0 + 3) - 1) * r)) ≤
          (1 + (bin 52).u) ^ (4 * 0 + 2 * 1 + 10 + (2 * 0 + 1 + 0 * (1 + 0 + 3))) * ((1 + (bin 52).v) * (1 / (1 - 1 / 2 ^ 50))) := by
        have := (bin 52).u_nonneg
        have := (bin 52).v_nonneg
        gcongr
      refine (sub_le_sub_right h7 1).trans ?_
      rw [bin_u.1, bin_u.2]
      norm_num
    exact (mul_le_mul h6 he (Real.exp_pos _).le (by norm_num)).trans (by norm_num)
  · rw [hm, one_mul, ← hr]
    exact he

/-- Double precision: at most 1000 noisy values of a Matérn-1/2 process in the unit interval. -/
example (slv : Solver) (m : jetF (box fun _ : Fin 1 => ((0 : ℕ) : ℕ∞))) (p : {L : DOp 1 // L.order ≤ 0} × (Fin 1 → ℝ) → ℝ) (mf : (Fin 1 → ℝ) → ℝ) (e : Env) (he : e.CholOK)
    (tr : ∀ s : Shape, Option (Tree s.Idx)) (htr : ∀ s, FullOpt (tr s)) (n : ℕ) (hn : n ≤ 1000) (x : Fin n → Fin 1 → ℝ)
    (hx : ∀ i, 0 ≤ x i 0 ∧ x i 0 ≤ 1) (Y : Fin n → ℝ) :
    ∃ f, FlSt.run (bin 52) slv tr (mkKer (bin 52) (fun _ => .leaf 0) (fun _ => 1) ⟨0, fun _ => 1⟩ p mf)
      ⟨n, fun i => (⟨.pd 0, le_rfl⟩, x i), Y, 0, (obs01 (.pd 0) x Y).bc⟩ [] = .ok f ∧ f.gram.toMat.PosDef := by
  obtain ⟨f, c, h1, -, h2, -⟩ := matern_history (F := bin 52) (a := 0) (q := 0) (ρ := 1) (T := fun _ => .leaf 0) (s := fun _ => 1)
    (τ := 1 / 10 ^ 10) (σ := 1 / 10 ^ 10) (fun _ => leaf_full) (fun _ => ⟨1, by simp [Fmt.Fac], by simp⟩) m p mf V01 (by norm_num) (by norm_num)
    (by norm_num) (by norm_num) v01_bounds slv htr e he ⟨n, fun i => (⟨.pd 0, le_rfl⟩, x i), Y, 0, (obs01 (.pd 0) x Y).bc⟩ []
    (by rintro o ho i; obtain rfl := List.mem_singleton.1 ho; exact ⟨rfl, hx i⟩)
    (by rintro o ho i j; obtain rfl := List.mem_singleton.1 ho; rfl)
    (by rintro o ho i j; obtain rfl := List.mem_singleton.1 ho; exact obs01_symm (.pd 0) x Y i j)
    (by
      rintro o ho i j
      obtain rfl := List.mem_singleton.1 ho
      refine (congrArg abs (obs01_bc (.pd 0) x Y i j)).trans_le ?_
      split_ifs <;> norm_num)
    (by rintro o ho v; obtain rfl := List.mem_singleton.1 ho; exact obs01_noise (.pd 0) x Y v)
    (by
      have hs : (n : ℝ) ≤ 1000 := by exact_mod_cast hn
      simp only [List.map_cons, List.map_nil, List.sum_cons, List.sum_nil, add_zero]
      refine lt_of_le_of_lt (mul_le_mul_of_nonneg_right hs (by have := (bin 52).u_nonneg; positivity)) ?_
      rw [bin_u.1]
      norm_num)
  exact ⟨f, h1, h2⟩

end LinPDE.Rounding
