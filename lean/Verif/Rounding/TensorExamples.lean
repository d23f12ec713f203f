import Verif.Rounding.TensorHistory
import Verif.Rounding.SolveExamples

/-!
# C93: concrete histories
-/

namespace LinPDE.Rounding
open Finset Matrix LinPDE.GP LinPDE.Block
open LinPDE.Coeff (MI Row)

/-- Smooth enough for the heat operator in one space dimension: Matérn-3/2 in time, Matérn-5/2 in space. -/
lemma heat12 : HeatSmooth (n := 0) ![1, 2] := ⟨le_rfl, fun j => by fin_cases j; exact le_rfl⟩

/-- Values of the process. -/
noncomputable def valOp {d : ℕ} (p : Fin d → ℕ) : TOp p :=
  ⟨[idRow d], by simp, fun r hr => ⟨by rw [List.mem_singleton.1 hr]; simp [idRow], idRow_fine r hr⟩⟩

/-- Observations of one operator at `n` points, with positions from `i`, and independent noise of variance `τ`. -/
noncomputable def tObs {d : ℕ} {p : Fin d → ℕ} (i : ℕ) (L : TOp p) {n : ℕ} (x : Fin n → Fin d → ℝ) (Y : Fin n → ℝ) (τ : ℝ) : FlObs (ℕ × TOp p × (Fin d → ℝ)) :=
  ⟨n, fun j => (i + j, L, x j), Y, 0, τ • 1⟩

lemma tObs_bc {d : ℕ} {p : Fin d → ℕ} (i : ℕ) (L : TOp p) {n : ℕ} (x : Fin n → Fin d → ℝ) (Y : Fin n → ℝ) (τ : ℝ) (j k : Fin n) :
    (tObs i L x Y τ).bc j k = if j = k then τ else 0 := by
  show (τ • (1 : Matrix (Fin n) (Fin n) ℝ)) j k = _
  rw [Matrix.smul_apply, Matrix.one_apply, smul_eq_mul]
  split_ifs <;> simp

lemma tObs_symm {d : ℕ} {p : Fin d → ℕ} (i : ℕ) (L : TOp p) {n : ℕ} (x : Fin n → Fin d → ℝ) (Y : Fin n → ℝ) (τ : ℝ) (j k : Fin n) :
    (tObs i L x Y τ).bc j k = (tObs i L x Y τ).bc k j := by
  rw [tObs_bc, tObs_bc]
  exact if_congr eq_comm rfl rfl

lemma tObs_noise {d : ℕ} {p : Fin d → ℕ} (i : ℕ) (L : TOp p) {n : ℕ} (x : Fin n → Fin d → ℝ) (Y : Fin n → ℝ) (τ : ℝ) (v : Fin n → ℝ) :
    τ * (v ⬝ᵥ v) ≤ v ⬝ᵥ ((tObs i L x Y τ).bc *ᵥ v) := by
  show τ * (v ⬝ᵥ v) ≤ v ⬝ᵥ ((τ • (1 : Matrix (Fin n) (Fin n) ℝ)) *ᵥ v)
  rw [smul_mulVec, one_mulVec, dotProduct_smul, smul_eq_mul]

/-- Double precision: initial values of a temperature and the heat equation at arbitrary points, at most 1000 measurements. The history can be processed
whenever the variance of the noise is large enough. -/
example (slv : Solver) (m : jetF (box fun j => ((![1, 2] : Fin 2 → ℕ) j : ℕ∞))) (pm : ℕ × TOp ![1, 2] × (Fin 2 → ℝ) → ℝ) (mf : (Fin 2 → ℝ) → ℝ) (e : Env) (he : e.CholOK)
    (tr : ∀ n m, Option (Tree (Fin n × Fin m))) (htr : ∀ n m, FullOpt (tr n m)) (tro : ∀ s : Shape, Option (Tree s.Idx)) (hto : ∀ s, FullOpt (tro s)) (n n' : ℕ)
    (hn : n + n' ≤ 1000) (x : Fin n → Fin 2 → ℝ) (x' : Fin n' → Fin 2 → ℝ) (Y : Fin n → ℝ) (Y' : Fin n' → ℝ) (alpha : ℝ) (ha : alpha ≠ 0) (ρ : Fin 2 → ℝ) :
    ∃ τ₀ > 0, ∀ τ ≥ τ₀, ∃ f, FlSt.run (bin 52) slv tro (tensorKer (bin 52) (fun _ => .leaf 0) (fun i => (bin 52).rd (ρ i)) ![1, 2] ρ tr pm mf)
      (tObs 0 (valOp _) x Y τ) [tObs n (heatOp heat12 (rowL_ne 0 ha)) x' Y' τ] = .ok f := by
  obtain ⟨S, hS⟩ : ∃ S : Set (ℕ × TOp ![1, 2] × (Fin 2 → ℝ)), S = (Set.range fun j : Fin n => (0 + j.1, valOp _, x j)) ∪
    Set.range fun j : Fin n' => (n + j.1, heatOp heat12 (rowL_ne 0 ha), x' j) := ⟨_, rfl⟩
  have hfin : S.Finite := by
    rw [hS]
    exact (Set.finite_range _).union (Set.finite_range _)
  obtain ⟨ε, hε⟩ := ((hfin.prod hfin).image fun q => oErr (bin 52) 1 ![1, 2] ρ q.1.2.1.1 q.1.2.2 q.2.2.1.1 q.2.2.2).bddAbove
  obtain ⟨M, hM⟩ := ((hfin.prod hfin).image fun q => oMag ![1, 2] ρ q.1.2.1.1 q.1.2.2 q.2.2.1.1 q.2.2.2).bddAbove
  refine ⟨2000 * (max ε 0 + (max M 0 + max ε 0)) + 1, by positivity, fun τ hτ => ?_⟩
  have hτ0 : 0 < τ := lt_of_lt_of_le (by positivity) hτ
  have hall : ∀ q : FlObs (ℕ × TOp ![1, 2] × (Fin 2 → ℝ)) → Prop, (∀ i L n (x : Fin n → Fin 2 → ℝ) Y, q (tObs i L x Y τ)) →
      ∀ o ∈ [tObs 0 (valOp _) x Y τ, tObs n (heatOp heat12 (rowL_ne 0 ha)) x' Y' τ], q o := by
    intro q hq o ho
    simp only [List.mem_cons, List.not_mem_nil, or_false] at ho
    rcases ho with rfl | rfl <;> exact hq _ _ _ _ _
  obtain ⟨f, c, h1, -⟩ := tensor_history (F := bin 52) (a := 1) (T := fun _ => .leaf 0) (s := fun i => (bin 52).rd (ρ i)) (τ := τ) (σ := τ) (ε := max ε 0) (M := max M 0)
    (by norm_num) (fun _ => leaf_full) (rd_scale (bin 52) ρ) htr m pm mf S (le_max_right _ _) (le_max_right _ _) hτ0.le hτ0
    (fun q hq r hr => ⟨(hε ⟨(q, r), ⟨hq, hr⟩, rfl⟩).trans (le_max_left _ _), (hM ⟨(q, r), ⟨hq, hr⟩, rfl⟩).trans (le_max_left _ _)⟩)
    slv hto e he (tObs 0 (valOp _) x Y τ) [tObs n (heatOp heat12 (rowL_ne 0 ha)) x' Y' τ]
    (by
      intro o ho i
      simp only [List.mem_cons, List.not_mem_nil, or_false] at ho
      rw [hS]
      rcases ho with rfl | rfl
      · exact Or.inl ⟨i, rfl⟩
      · exact Or.inr ⟨i, rfl⟩)
    (hall _ fun i L n x Y j k h => Fin.ext (by simpa [tObs] using h))
    (hall _ fun i L n x Y => tObs_symm i L x Y τ)
    (hall _ fun i L n x Y j k => by
      refine (congrArg abs (tObs_bc i L x Y τ j k)).trans_le ?_
      split_ifs
      · exact (abs_of_pos hτ0).le
      · simpa using hτ0.le)
    (hall _ fun i L n x Y => tObs_noise i L x Y τ)
    (by
      have hs : (([tObs 0 (valOp _) x Y τ, tObs n (heatOp heat12 (rowL_ne 0 ha)) x' Y' τ].map FlObs.n).sum : ℝ) ≤ 1000 := by
        have : ([tObs 0 (valOp _) x Y τ, tObs n (heatOp heat12 (rowL_ne 0 ha)) x' Y' τ].map FlObs.n).sum = n + n' := by simp [tObs]
        rw [this]
        exact_mod_cast hn
      have h1 := le_max_right ε 0
      have h2 := le_max_right M 0
      refine lt_of_le_of_lt (mul_le_mul_of_nonneg_right hs (by have := (bin 52).u_nonneg; positivity)) ?_
      rw [bin_u.1]
      norm_num
      linarith)
  exact ⟨f, h1⟩

/-- Exact arithmetic: the covariance of the heat operator with the values. -/
example (tr : ∀ n m, Option (Tree (Fin n × Fin m))) (htr : ∀ n m, FullOpt (tr n m)) (m : jetF (box fun j => ((![1, 2] : Fin 2 → ℕ) j : ℕ∞))) (x y : Fin 2 → ℝ) :
    opsFl exactFmt (fun _ => .leaf 0) ![2, 3] ![1, 2] ![2, 3] tr [rowT 0, rowL 0 5] x [idRow 2] y =
      ((matern_jet ![1, 2] ![2, 3]).prior m).cov ((matern_jet ![1, 2] ![2, 3]).op m (heatCoefs heat12 5) x)
        ((matern_jet ![1, 2] ![2, 3]).op m (rowCoefs [idRow 2].flatten (flat_in idRow_fine)) y) := by
  rw [← heat_functional heat12 (rowL_ne 0 (by norm_num)) m 0 x]
  exact operators_exact rfl rfl (by norm_num) (fun _ => leaf_full) htr (heatOp heat12 (rowL_ne 0 (by norm_num))).fine idRow_fine m x y

/-- Orders of summation exist. -/
example : ∃ tr : ∀ n m, Option (Tree (Fin n × Fin m)), ∀ n m, FullOpt (tr n m) := by
  choose tr h using fun n m => exists_order (Fin n × Fin m)
  exact ⟨tr, h⟩

/-- Double precision: the kernel of two operators of a tensor product with correctly rounded factors. -/
example : ∃ (pd : Tensor.PDFac) (k : Tensor.TP) (L0 L1 : Tensor.DOp) (K : Tensor.TPLL) (r0 r1 : Row), Tensor.mkTPLL pd k L0 L1 = .ok K ∧ r1.length = 2 ∧
    ∀ x y : List ℝ, ∃ (M : ℕ → ℕ × ℕ → ℝ) (w w' : ℝ), K.evaluate x (some y) [] = .ok w ∧
      evaluateFl (bin 52) K (fun g i => (bin 52).rd (g.ev (x.getD i 0) (y.getD i 0) [])) = .ok w' ∧ |w' - w| ≤ rowsErr (bin 52) 2 (fun _ _ => 1 + 1 / 2 ^ 53) M r0 r1 := by
  obtain ⟨pd, hpd⟩ := exact_follows
  obtain ⟨k, hk⟩ : ∃ k : Tensor.TP, MaternTP k ![1, 2] ![3, 4] := ⟨⟨_, [_]⟩, rfl⟩
  have key : ∀ (a b : ℕ), a ≤ 1 → b ≤ 2 → miIx 2 ⟨[2], [a, b]⟩ ∈ box fun j => (((![1, 2] : Fin 2 → ℕ) j : ℕ) : ℕ∞) := by
    intro a b ha hb j
    fin_cases j
    · show ((a : ℕ) : ℕ∞) ≤ ((1 : ℕ) : ℕ∞)
      exact_mod_cast ha
    · show ((b : ℕ) : ℕ∞) ≤ ((2 : ℕ) : ℕ∞)
      exact_mod_cast hb
  obtain ⟨r0, e0⟩ : ∃ r : Row, r = [(⟨[2], [1, 0]⟩, 5)] := ⟨_, rfl⟩
  obtain ⟨r1, e1⟩ : ∃ r : Row, r = [(⟨[2], [1, 0]⟩, 1), (⟨[2], [0, 2]⟩, -3)] := ⟨_, rfl⟩
  have h0 : Tensor.ScalarOp 2 ⟨⟨⟨[([], r0)], [2], []⟩, [2], []⟩, none⟩ r0 := ⟨rfl, rfl, rfl, by simp [e0], by simp [e0, Tensor.RowOK]⟩
  have h1 : Tensor.ScalarOp 2 ⟨⟨⟨[([], r1)], [2], []⟩, [2], []⟩, none⟩ r1 := ⟨rfl, rfl, rfl, by simp [e1], by simp [e1, Tensor.RowOK]⟩
  obtain ⟨K, hK, -⟩ := matern_make hk (fun i => hpd _ _) h0 h1 (by simpa [e0, RowIn] using key 1 0 le_rfl (by simp))
    (by simpa [e1, RowIn] using ⟨key 1 0 le_rfl (by simp), key 0 2 (by simp) le_rfl⟩)
    (by simp only [e0, Second]; intro mc hmc i; rw [List.mem_singleton.1 hmc]; rcases i with _ | _ | i <;> simp)
    (by
      simp only [e1, Second]
      intro mc hmc i
      simp only [List.mem_cons, List.not_mem_nil, or_false] at hmc
      rcases hmc with rfl | rfl <;> rcases i with _ | _ | i <;> simp)
  refine ⟨pd, k, _, _, K, r0, r1, hK, by simp [e1], fun x y => ?_⟩
  obtain ⟨w, w', a1, a2, a3, -⟩ := tpll_error (bin 52) hK hk.length h0 h1 x y [] (fun g i => (bin 52).rd (g.ev (x.getD i 0) (y.getD i 0) [])) (fun _ _ => 1 + 1 / 2 ^ 53)
    (fun i key => match K.cache.look i key with | some g => |g.ev (x.getD i 0) (y.getD i 0) []| | none => 0) (fun i key g hg => by
      simp only [hg]
      refine ⟨by norm_num, le_rfl, ?_⟩
      have := (bin 52).err (g.ev (x.getD i 0) (y.getD i 0) [])
      rw [bin_u.1] at this
      linarith)
  exact ⟨_, w, w', a1, a2, a3⟩

end LinPDE.Rounding
