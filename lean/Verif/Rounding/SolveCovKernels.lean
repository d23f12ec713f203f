import Verif.Rounding.SolveCov
import Verif.Rounding.SolveKernels

/-!
# C92: posterior covariances of squared exponential and Matérn processes in floating point
-/

namespace LinPDE.Rounding
open Finset Matrix LinPDE.GP LinPDE.Block
open LinPDE.ExpQuad (EK sf)
open LinPDE.Matern (DOp OpAt MK Par)

section
variable {d a : ℕ} {F : Fmt} {T : ℕ → Tree (Fin d)} {s l : Fin d → ℝ}

/-- C92: posterior covariances of a squared exponential process after any history of noisy observations of operators, in floating point. -/
theorem expquad_cov (hu : F.u ≤ 1 / 2) (hT : ∀ n, (T n).Full) (hl : ∀ i, l i ≠ 0) (hs : ∀ i, F.Near a (s i) (sf l i)) (m : jetF (d := d) Set.univ)
    (p : DOp d × (Fin d → ℝ) → ℝ) (mf : (Fin d → ℝ) → ℝ) (S : Set (DOp d × (Fin d → ℝ))) {ε M σ τ : ℝ} (hε : 0 ≤ ε) (hM : 0 ≤ M) (hσ : 0 ≤ σ) (hτ : 0 < τ)
    (hS : ∀ q ∈ S, ∀ r ∈ S, ∃ k, ekPair l q.1 r.1 = .ok k ∧ ekErr F a k q.2 r.2 ≤ ε ∧
      ekMag k q.2 r.2 * Real.exp (-∑ i, (sf l i * (q.2 i - r.2 i)) ^ 2) ≤ M)
    (slv : Solver) (lib : Lib) {tr : ∀ s : Shape, Option (Tree s.Idx)} (htr : ∀ s, FullOpt (tr s)) (e : Env) (he : e.CholOK)
    (o : FlObs (DOp d × (Fin d → ℝ))) (os : List (FlObs (DOp d × (Fin d → ℝ)))) (hmem : ∀ o' ∈ o :: os, ∀ i, o'.at_ i ∈ S)
    (hop : ∀ o' ∈ o :: os, ∀ i j, (o'.at_ i).1 = (o'.at_ j).1) (hb : ∀ o' ∈ o :: os, ∀ i j, o'.bc i j = o'.bc j i)
    (hσb : ∀ o' ∈ o :: os, ∀ i j, |o'.bc i j| ≤ σ) (hN : ∀ o' ∈ o :: os, ∀ v, τ * (v ⬝ᵥ v) ≤ v ⬝ᵥ (o'.bc *ᵥ v))
    (hc : (((o :: os).map FlObs.n).sum : ℝ) * (ε + F.u * (M + ε + σ)) < τ) :
    ∃ f c, FlSt.run F slv tr (ekKer F T s l p mf) o os = .ok f ∧ run e (o.batch (ekOp hl m)) (os.map (FlObs.batch (ekOp hl m))) = .ok c ∧
      ∀ (t : Tree f.s.Idx), t.Full → ∀ x y, ∃ z C v V, solveFl F lib tr e f.gram (fun j => (ekKer F T s l p mf).k y (f.at_ j)) = .ok z ∧
        f.cov F lib tr e (ekKer F T s l p mf) (ekFl F T s (.expquad l)) t x y = .ok C ∧ c.covfunc e x x = .ok v ∧ 0 ≤ v ∧ v ≤ 1 ∧ c.covfunc e x y = .ok V ∧
        ∃ k : f.s.Idx → EK d, (∀ j, ExpQuad.apply (f.at_ j).1 false (.expquad l) = .ok (k j)) ∧
        |C - V| ≤
          gam F (Fintype.card f.s.Idx + 1) * (|ekFl F T s (.expquad l) x y| + ∑ j, |ekFl F T s (k j) x (f.at_ j).2| * |z j|) + ekErr F a (.expquad l) x y +
            ∑ j, ekErr F a (k j) x (f.at_ j).2 * |z j| +
            √((1 - v) / τ) * (∑ i, solveErr F lib tr e f.gram (fun j => (ekKer F T s l p mf).k y (f.at_ j)) i +
              Fintype.card f.s.Idx * (ε + F.u * (M + ε + σ)) * ∑ j, |z j| + ∑ i, ekErr F a (k i) y (f.at_ i).2) := by
  have hC : ∀ o' ∈ o :: os, Covered (ekKer F T s l p mf) S σ o' := fun o' ho' =>
    ek_covered p mf hS (hmem o' ho') (hop o' ho') (hb o' ho') (hσb o' ho')
  obtain ⟨f, c, e1, e2, e4, e6⟩ := history_cov F slv lib htr e he (jet_regular (expquad_jet hl) m) (ekKer F T s l p mf) (ekFl F T s (.expquad l)) (ekOp hl m) S hε hM hσ hτ
    (fun q hq r hr => (ek_close hu hT hl hs m p mf hS hq hr).1) (fun q hq r hr => (ek_close hu hT hl hs m p mf hS hq hr).2) o os hC
    (fun b hb => by
      obtain ⟨o', ho', rfl⟩ := List.mem_map.1 hb
      exact hN o' ho') hc
  refine ⟨f, c, e1, e2, fun t ht x y => ?_⟩
  obtain ⟨z, C, v, V, h1, -, h2, h3, h4, h5, h6, h7⟩ := e6 t ht x y
  have hkk : ∀ x y, ((expquad_jet hl).prior m).k x y = (EK.expquad l).eval x y := fun x y => expK_zero (l := l) x y
  have hk1 : ((expquad_jet hl).prior m).k x x = 1 := by
    rw [hkk]
    simp [EK.eval, ExpQuad.ek, ExpQuad.normSq]
  have hap : ∀ j, ∃ k, ExpQuad.apply (f.at_ j).1 false (.expquad l) = .ok k := fun j => by
    obtain ⟨k, h, -⟩ := hS _ (e4 j) _ (e4 j)
    obtain ⟨k1, h, -⟩ := pair_inv h
    exact ⟨k1, h⟩
  choose k hk using hap
  have hkf : ∀ x j, (ekKer F T s l p mf).k x (f.at_ j) = ekFl F T s (k j) x (f.at_ j).2 := fun x j => by simp only [ekKer, hk]
  have herr : ∀ x j, |(ekKer F T s l p mf).k x (f.at_ j) - (((expquad_jet hl).prior m).cross (ekOp hl m (f.at_ j))).1 x| ≤ ekErr F a (k j) x (f.at_ j).2 := fun x j => by
    rw [hkf, show f.at_ j = ((f.at_ j).1, (f.at_ j).2) from rfl, ek_cross hl m (hk j)]
    exact expquad_deriv_error hu hT (k j) (by rw [apply_lens (hk j)]; exact hs) x (f.at_ j).2
  rw [hk1] at h5 h7
  refine ⟨z, C, v, V, h1, h2, h3, h4, h5, h6, k, hk, h7.trans ?_⟩
  refine add_le_add (add_le_add (add_le_add (le_of_eq ?_) ?_) (sum_le_sum fun j _ => mul_le_mul_of_nonneg_right (herr x j) (abs_nonneg _)))
    (mul_le_mul_of_nonneg_left (add_le_add le_rfl (sum_le_sum fun i _ => herr y i)) (Real.sqrt_nonneg _))
  · simp only [hkf]
  · rw [hkk]
    exact expquad_deriv_error hu hT (.expquad l) hs x y

end

section
variable {a : ℕ} {F : Fmt} {T : ℕ → Tree (Fin 1)} {s : Fin 1 → ℝ} {q : ℕ} {ρ : ℝ}

/-- C92: posterior covariances of a one-dimensional Matérn process after any history of noisy observations of operators, in floating point. -/
theorem matern_cov (hT : ∀ n, (T n).Full) (hs : ∀ i, F.Near a (s i) ρ) (m : jetF (box fun _ : Fin 1 => (q : ℕ∞)))
    (p : {L : DOp 1 // L.order ≤ q} × (Fin 1 → ℝ) → ℝ) (mf : (Fin 1 → ℝ) → ℝ) (S : Set ({L : DOp 1 // L.order ≤ q} × (Fin 1 → ℝ)))
    {ε M σ τ : ℝ} (hε : 0 ≤ ε) (hM : 0 ≤ M) (hσ : 0 ≤ σ) (hτ : 0 < τ)
    (hS : ∀ z ∈ S, ∀ r ∈ S, ∃ k, mkPair ⟨q, fun _ => ρ⟩ z.1 r.1 = .ok k ∧ mkErr F a k z.2 r.2 ≤ ε ∧
      mkMag k z.2 r.2 * Real.exp (-Matern.norm (Matern.sdiff (fun _ => ρ) z.2 r.2)) ≤ M)
    (slv : Solver) (lib : Lib) {tr : ∀ s : Shape, Option (Tree s.Idx)} (htr : ∀ s, FullOpt (tr s)) (e : Env) (he : e.CholOK)
    (o : FlObs ({L : DOp 1 // L.order ≤ q} × (Fin 1 → ℝ))) (os : List (FlObs ({L : DOp 1 // L.order ≤ q} × (Fin 1 → ℝ))))
    (hmem : ∀ o' ∈ o :: os, ∀ i, o'.at_ i ∈ S)
    (hop : ∀ o' ∈ o :: os, ∀ i j, (o'.at_ i).1 = (o'.at_ j).1) (hb : ∀ o' ∈ o :: os, ∀ i j, o'.bc i j = o'.bc j i)
    (hσb : ∀ o' ∈ o :: os, ∀ i j, |o'.bc i j| ≤ σ) (hN : ∀ o' ∈ o :: os, ∀ v, τ * (v ⬝ᵥ v) ≤ v ⬝ᵥ (o'.bc *ᵥ v))
    (hc : (((o :: os).map FlObs.n).sum : ℝ) * (ε + F.u * (M + ε + σ)) < τ) :
    ∃ f c, FlSt.run F slv tr (mkKer F T s ⟨q, fun _ => ρ⟩ p mf) o os = .ok f ∧ run e (o.batch (mkOp q ρ m)) (os.map (FlObs.batch (mkOp q ρ m))) = .ok c ∧
      ∀ (t : Tree f.s.Idx), t.Full → ∀ x y, ∃ z C v V, solveFl F lib tr e f.gram (fun j => (mkKer F T s ⟨q, fun _ => ρ⟩ p mf).k y (f.at_ j)) = .ok z ∧
        f.cov F lib tr e (mkKer F T s ⟨q, fun _ => ρ⟩ p mf) (mkFl F T s (.matern ⟨q, fun _ => ρ⟩)) t x y = .ok C ∧ c.covfunc e x x = .ok v ∧ 0 ≤ v ∧ v ≤ 1 ∧ c.covfunc e x y = .ok V ∧
        ∃ k : f.s.Idx → MK 1, (∀ j, Matern.apply (f.at_ j).1.1 false (.matern ⟨q, fun _ => ρ⟩) = .ok (k j)) ∧
        |C - V| ≤
          gam F (Fintype.card f.s.Idx + 1) * (|mkFl F T s (.matern ⟨q, fun _ => ρ⟩) x y| + ∑ j, |mkFl F T s (k j) x (f.at_ j).2| * |z j|) + mkErr F a (.matern ⟨q, fun _ => ρ⟩) x y +
            ∑ j, mkErr F a (k j) x (f.at_ j).2 * |z j| +
            √((1 - v) / τ) * (∑ i, solveErr F lib tr e f.gram (fun j => (mkKer F T s ⟨q, fun _ => ρ⟩ p mf).k y (f.at_ j)) i +
              Fintype.card f.s.Idx * (ε + F.u * (M + ε + σ)) * ∑ j, |z j| + ∑ i, mkErr F a (k i) y (f.at_ i).2) := by
  obtain ⟨K, hK⟩ : ∃ K, K = mkKer F T s ⟨q, fun _ => ρ⟩ p mf := ⟨_, rfl⟩
  rw [← hK]
  have hj := matern_jet (fun _ : Fin 1 => q) fun _ => ρ
  have hC : ∀ o' ∈ o :: os, Covered K S σ o' := fun o' ho' => by
    rw [hK]
    exact mk_covered p mf hS (hmem o' ho') (hop o' ho') (hb o' ho') (hσb o' ho')
  obtain ⟨f, c, e1, e2, e4, e6⟩ := history_cov F slv lib htr e he (jet_regular hj m) K (mkFl F T s (.matern ⟨q, fun _ => ρ⟩)) (mkOp q ρ m) S hε hM hσ hτ
    (fun q hq r hr => hK ▸ (mk_close hT hs m p mf hS hq hr).1) (fun q hq r hr => (mk_close hT hs m p mf hS hq hr).2) o os hC
    (fun b hb => by
      obtain ⟨o', ho', rfl⟩ := List.mem_map.1 hb
      exact hN o' ho') hc
  refine ⟨f, c, e1, e2, fun t ht x y => ?_⟩
  obtain ⟨z, C, v, V, h1, -, h2, h3, h4, h5, h6, h7⟩ := e6 t ht x y
  have hkk : ∀ x y, (hj.prior m).k x y = (MK.matern (⟨q, fun _ => ρ⟩ : Par 1)).eval x y := fun x y => matK_one x y
  have hk1 : (hj.prior m).k x x = 1 := by
    rw [hkk, ← Matern.matern_evalNone (.base (m := ⟨q, fun _ => ρ⟩)) x]
    show Matern.pev (Matern.maternPoly q) 0 * Real.exp (-0) = 1
    rw [Matern.pev_eq, Polynomial.eval_zero_map, ← Polynomial.coeff_zero_eq_eval_zero, Matern.coeff_maternPoly, if_pos (Nat.zero_le _), Matern.maternCoeff_zero]
    simp
  have hap : ∀ j, ∃ k, Matern.apply (f.at_ j).1.1 false (.matern ⟨q, fun _ => ρ⟩) = .ok k ∧ parOf k = ⟨q, fun _ => ρ⟩ := fun j => by
    obtain ⟨k, h, -⟩ := hS _ (e4 j) _ (e4 j)
    obtain ⟨k1, h, -, h', -⟩ := mpair_inv h
    exact ⟨k1, h, h'⟩
  choose k hk hpar using hap
  have hkf : ∀ x j, K.k x (f.at_ j) = mkFl F T s (k j) x (f.at_ j).2 := fun x j => by simp only [hK, mkKer, hk]
  have herr : ∀ x j, |K.k x (f.at_ j) - ((hj.prior m).cross (mkOp q ρ m (f.at_ j))).1 x| ≤ mkErr F a (k j) x (f.at_ j).2 := fun x j => by
    rw [hkf, show f.at_ j = ((f.at_ j).1, (f.at_ j).2) from rfl, mk_cross m (hk j)]
    exact matern_deriv_error hT (k j) (by rw [hpar j]; exact hs) x (f.at_ j).2
  rw [hk1] at h5 h7
  refine ⟨z, C, v, V, h1, h2, h3, h4, h5, h6, k, hk, h7.trans ?_⟩
  refine add_le_add (add_le_add (add_le_add (le_of_eq ?_) ?_) (sum_le_sum fun j _ => mul_le_mul_of_nonneg_right (herr x j) (abs_nonneg _)))
    (mul_le_mul_of_nonneg_left (add_le_add le_rfl (sum_le_sum fun i _ => herr y i)) (Real.sqrt_nonneg _))
  · simp only [hkf]
  · rw [hkk]
    exact matern_deriv_error hT (.matern ⟨q, fun _ => ρ⟩) hs x y

end

end LinPDE.Rounding
