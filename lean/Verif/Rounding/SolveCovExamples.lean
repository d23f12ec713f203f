import Verif.Rounding.SolveCovKernels
import Verif.Rounding.SolveExamples

/-!
# C92: concrete histories in double precision and in exact arithmetic
-/

namespace LinPDE.Rounding
open Finset Matrix LinPDE.GP LinPDE.Block
open LinPDE.ExpQuad (EK sf)
open LinPDE.Matern (DOp)

/-- Double precision: a batch of values and a batch of derivatives at points of the unit interval, at most 1000 measurements, noise of variance `10⁻¹⁰`. -/
example (slv : Solver) (lib : Lib) (m : jetF (d := 1) Set.univ) (p : DOp 1 × (Fin 1 → ℝ) → ℝ) (mf : (Fin 1 → ℝ) → ℝ) (e : Env) (he : e.CholOK)
    (tr : ∀ s : Shape, Option (Tree s.Idx)) (htr : ∀ s, FullOpt (tr s)) (n n' : ℕ) (hn : n + n' ≤ 1000) (x : Fin n → Fin 1 → ℝ) (x' : Fin n' → Fin 1 → ℝ)
    (hx : ∀ i, 0 ≤ x i 0 ∧ x i 0 ≤ 1) (hx' : ∀ i, 0 ≤ x' i 0 ∧ x' i 0 ≤ 1) (Y : Fin n → ℝ) (Y' : Fin n' → ℝ) :
    ∃ f, FlSt.run (bin 52) slv tr (ekKer (bin 52) (fun _ => .leaf 0) (fun i => (bin 52).rd (sf (fun _ => 1) i)) (fun _ => 1) p mf)
      (obs01 (.pd 0) x Y) [obs01 (.dd fun _ => 1) x' Y'] = .ok f ∧ ∀ (t : Tree f.s.Idx), t.Full → ∀ y y', ∃ C, f.cov (bin 52) lib tr e
        (ekKer (bin 52) (fun _ => .leaf 0) (fun i => (bin 52).rd (sf (fun _ => 1) i)) (fun _ => 1) p mf)
        (ekFl (bin 52) (fun _ => .leaf 0) (fun i => (bin 52).rd (sf (fun _ => 1) i)) (.expquad fun _ => 1)) t y y' = .ok C := by
  have hmem : ∀ o ∈ [obs01 (.pd 0) x Y, obs01 (.dd fun _ => 1) x' Y'], ∀ i, o.at_ i ∈ S01 := by
    intro o ho i
    simp only [List.mem_cons, List.not_mem_nil, or_false] at ho
    rcases ho with rfl | rfl
    · exact ⟨Or.inl rfl, hx i⟩
    · exact ⟨Or.inr rfl, hx' i⟩
  have hall : ∀ q : FlObs (DOp 1 × (Fin 1 → ℝ)) → Prop, (∀ L n (x : Fin n → Fin 1 → ℝ) Y, q (obs01 L x Y)) →
      ∀ o ∈ [obs01 (.pd 0) x Y, obs01 (.dd fun _ => 1) x' Y'], q o := by
    intro q hq o ho
    simp only [List.mem_cons, List.not_mem_nil, or_false] at ho
    rcases ho with rfl | rfl <;> exact hq _ _ _ _
  obtain ⟨f, c, h1, -, h2⟩ := expquad_cov (F := bin 52) (a := 1) (l := fun _ => 1) (T := fun _ => .leaf 0) (s := fun i => (bin 52).rd (sf (fun _ => 1) i))
    (τ := 1 / 10 ^ 10) (σ := 1 / 10 ^ 10)
    (by rw [bin_u.1]; norm_num) (fun _ => leaf_full) (fun _ => one_ne_zero) (rd_scale (bin 52) (sf fun _ => 1)) m p mf S01 (by norm_num) (by norm_num)
    (by norm_num) (by norm_num) s01_bounds slv lib htr e he (obs01 (.pd 0) x Y) [obs01 (.dd fun _ => 1) x' Y'] hmem
    (hall _ fun L n x Y i j => rfl)
    (hall _ fun L n x Y => obs01_symm L x Y)
    (hall _ fun L n x Y i j => by
      refine (congrArg abs (obs01_bc L x Y i j)).trans_le ?_
      split_ifs <;> norm_num)
    (hall _ fun L n x Y => obs01_noise L x Y)
    (by
      have hs : (([obs01 (.pd 0) x Y, obs01 (.dd fun _ => 1) x' Y'].map FlObs.n).sum : ℝ) ≤ 1000 := by
        have : ([obs01 (.pd 0) x Y, obs01 (.dd fun _ => 1) x' Y'].map FlObs.n).sum = n + n' := by simp [obs01]
        rw [this]
        exact_mod_cast hn
      refine lt_of_le_of_lt (mul_le_mul_of_nonneg_right hs (by have := (bin 52).u_nonneg; positivity)) ?_
      rw [bin_u.1]
      norm_num)
  refine ⟨f, h1, fun t ht y y' => ?_⟩
  obtain ⟨z, C, v, V, -, h3, -⟩ := h2 t ht y y'
  exact ⟨C, h3⟩

/-- Exact arithmetic: values and derivatives of a squared exponential process. -/
example (slv : Solver) (m : jetF (d := 1) Set.univ) (e : Env) (he : e.CholOK) (tr : ∀ s : Shape, Option (Tree s.Idx)) (htr : ∀ s, FullOpt (tr s)) (n n' : ℕ)
    (x : Fin n → Fin 1 → ℝ) (x' : Fin n' → Fin 1 → ℝ) (Y : Fin n → ℝ) (Y' : Fin n' → ℝ) :
    let hl : ∀ i : Fin 1, (fun _ => (1 : ℝ)) i ≠ 0 := fun _ => one_ne_zero
    let P := (expquad_jet hl).prior m
    let K : FlKer (Fin 1 → ℝ) (DOp 1 × (Fin 1 → ℝ)) :=
      ⟨fun a b => P.cov (ekOp hl m a) (ekOp hl m b), fun x a => (P.cross (ekOp hl m a)).1 x, fun a => (ekOp hl m a).1 P.m, fun x => m.1 x⟩
    ∃ f c, FlSt.run exactFmt slv tr K (obs01 (.pd 0) x Y) [obs01 (.dd fun _ => 1) x' Y'] = .ok f ∧
      run e ((obs01 (.pd 0) x Y).batch (ekOp hl m)) ([obs01 (.dd fun _ => 1) x' Y'].map (FlObs.batch (ekOp hl m))) = .ok c ∧
      ∀ (t : Tree f.s.Idx), t.Full → ∀ x y, f.cov exactFmt (.exact e) tr e K P.k t x y = c.covfunc e x y := by
  intro hl P K
  refine history_cov_exact (F := exactFmt) (K := K) rfl slv htr e he
    (jet_regular (expquad_jet hl) m) (ekOp hl m) (τ := 1 / 10 ^ 10) (by norm_num) (fun _ _ => rfl) (fun _ _ => rfl) (fun _ _ => rfl)
    (obs01 (.pd 0) x Y) [obs01 (.dd fun _ => 1) x' Y'] ?_ ?_
  · intro o ho
    simp only [List.mem_cons, List.not_mem_nil, or_false] at ho
    rcases ho with rfl | rfl
    · exact obs01_symm _ x Y
    · exact obs01_symm _ x' Y'
  · intro b hb
    simp only [List.map_cons, List.map_nil, List.mem_cons, List.not_mem_nil, or_false] at hb
    rcases hb with rfl | rfl
    · exact obs01_noise _ x Y
    · exact obs01_noise _ x' Y'

/-- Double precision: at most 1000 noisy values of a Matérn-1/2 process in the unit interval. -/
example (slv : Solver) (lib : Lib) (m : jetF (box fun _ : Fin 1 => ((0 : ℕ) : ℕ∞))) (p : {L : DOp 1 // L.order ≤ 0} × (Fin 1 → ℝ) → ℝ) (mf : (Fin 1 → ℝ) → ℝ) (e : Env) (he : e.CholOK)
    (tr : ∀ s : Shape, Option (Tree s.Idx)) (htr : ∀ s, FullOpt (tr s)) (n : ℕ) (hn : n ≤ 1000) (x : Fin n → Fin 1 → ℝ)
    (hx : ∀ i, 0 ≤ x i 0 ∧ x i 0 ≤ 1) (Y : Fin n → ℝ) :
    ∃ f, FlSt.run (bin 52) slv tr (mkKer (bin 52) (fun _ => .leaf 0) (fun _ => 1) ⟨0, fun _ => 1⟩ p mf)
      ⟨n, fun i => (⟨.pd 0, le_rfl⟩, x i), Y, 0, (obs01 (.pd 0) x Y).bc⟩ [] = .ok f ∧ ∀ (t : Tree f.s.Idx), t.Full → ∀ y y', ∃ C, f.cov (bin 52) lib tr e
        (mkKer (bin 52) (fun _ => .leaf 0) (fun _ => 1) ⟨0, fun _ => 1⟩ p mf) (mkFl (bin 52) (fun _ => .leaf 0) (fun _ => 1) (.matern ⟨0, fun _ => 1⟩)) t y y' = .ok C := by
  obtain ⟨f, c, h1, -, h2⟩ := matern_cov (F := bin 52) (a := 0) (q := 0) (ρ := 1) (T := fun _ => .leaf 0) (s := fun _ => 1)
    (τ := 1 / 10 ^ 10) (σ := 1 / 10 ^ 10) (fun _ => leaf_full) (fun _ => ⟨1, by simp [Fmt.Fac], by simp⟩) m p mf V01 (by norm_num) (by norm_num)
    (by norm_num) (by norm_num) v01_bounds slv lib htr e he ⟨n, fun i => (⟨.pd 0, le_rfl⟩, x i), Y, 0, (obs01 (.pd 0) x Y).bc⟩ []
    (by rintro o ho i; obtain rfl := List.mem_singleton.1 ho; exact ⟨rfl, hx i⟩)
    (by rintro o ho i j; obtain rfl := List.mem_singleton.1 ho; rfl)
    (by rintro o ho i j; obtain rfl := List.mem_singleton.1 ho; exact obs01_symm (.pd 0) x Y i j)
    (by
      rintro o ho i j
      obtain rfl := List.mem_singleton.1 ho
      refine (congrArg abs (obs01_bc (.pd 0) x Y i j)).trans_le ?_
      split_ifs <;> norm_num)
    (by rintro o ho v; obtain rfl := List.mem_singleton.1 ho; exact obs01_noise (.pd 0) x Y v)
    (by
      have hs : (n : ℝ) ≤ 1000 := by exact_mod_cast hn
      simp only [List.map_cons, List.map_nil, List.sum_cons, List.sum_nil, add_zero]
      refine lt_of_le_of_lt (mul_le_mul_of_nonneg_right hs (by have := (bin 52).u_nonneg; positivity)) ?_
      rw [bin_u.1]
      norm_num)
  refine ⟨f, h1, fun t ht y y' => ?_⟩
  obtain ⟨z, C, v, V, -, h3, -⟩ := h2 t ht y y'
  exact ⟨C, h3⟩

end LinPDE.Rounding
