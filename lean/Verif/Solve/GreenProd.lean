import Verif.Solve.Green
import Mathlib.MeasureTheory.Integral.Prod
import Mathlib.Analysis.Calculus.ContDiff.Operations

/-! # Smooth functions of several variables are potentials of products of Matérn kernels -/

namespace LinPDE.Solve
open LinPDE.GP LinPDE.PosDef MeasureTheory Topology Filter
open LinPDE.Matern (psi phi)
open scoped ContDiff

lemma Test.comp {E E' : Type} [NormedAddCommGroup E] [NormedSpace ℝ E] [NormedAddCommGroup E'] [NormedSpace ℝ E'] {F : E → ℝ} (h : Test F)
    {A : E' → E} (hA : ContDiff ℝ ∞ A) {B : E → E'} (hB : Continuous B) (hBA : ∀ q, B (A q) = q) : Test fun q => F (A q) := by
  refine ⟨h.1.comp hA, HasCompactSupport.intro (K := B '' tsupport F) (h.2.isCompact.image hB) fun q hq => ?_⟩
  by_contra h0
  exact hq ⟨A q, subset_tsupport F h0, hBA q⟩

lemma cons_contDiff {d : ℕ} {E : Type} [NormedAddCommGroup E] [NormedSpace ℝ E] {a : E → ℝ} {b : E → Pt d} (ha : ContDiff ℝ ∞ a) (hb : ContDiff ℝ ∞ b) :
    ContDiff ℝ ∞ fun q => (Fin.cons (a q) (b q) : Pt (d + 1)) := by
  rw [contDiff_pi]
  intro j
  refine Fin.cases ?_ (fun j => ?_) j
  · simpa using ha
  · simpa using contDiff_pi.mp hb j

lemma tail_contDiff {d : ℕ} : ContDiff ℝ ∞ fun x : Pt (d + 1) => (Fin.tail x : Pt d) := by
  rw [contDiff_pi]
  exact fun j => contDiff_apply ℝ ℝ j.succ

/-- Product of the profiles. -/
noncomputable def profile {d : ℕ} (p : Fin d → ℕ) (s : Fin d → ℝ) (x y : Pt d) : ℝ := ∏ j, phi (p j) 0 (s j * (x j - y j))

lemma profile_cont {d : ℕ} (p : Fin d → ℕ) (s : Fin d → ℝ) (x : Pt d) : Continuous fun y => profile p s x y :=
  continuous_finset_prod _ fun j _ => (Matern.continuous_phi (p j) 0 (by omega)).comp
    (continuous_const.mul (continuous_const.sub (continuous_apply j)))

lemma green_prod (d : ℕ) : ∀ {E : Type} [NormedAddCommGroup E] [NormedSpace ℝ E] (p : Fin d → ℕ) {s : Fin d → ℝ}, (∀ j, s j ≠ 0) →
    ∀ {F : E × Pt d → ℝ}, Test F → ∃ G : E × Pt d → ℝ, Test G ∧ ∀ e x, F (e, x) = ∫ y, profile p s x y * G (e, y) := by
  induction d with
  | zero =>
    intro E _ _ p s hs F h
    refine ⟨F, h, fun e x => ?_⟩
    have hx : ∀ y : Pt 0, y = x := fun y => Subsingleton.elim _ _
    have h1 : ∀ y : Pt 0, profile p s x y * F (e, y) = F (e, x) := fun y => by rw [hx y]; simp [profile]
    simp only [h1]
    rw [volume_pi, Measure.pi_of_empty]
    simp
  | succ d ih =>
    intro E _ _ p s hs F h
    have t1 : Test fun q : (E × ℝ) × Pt d => F (q.1.1, Fin.cons q.1.2 q.2) :=
      h.comp (A := fun q : (E × ℝ) × Pt d => (q.1.1, (Fin.cons q.1.2 q.2 : Pt (d + 1))))
        (contDiff_fst.fst.prodMk (cons_contDiff contDiff_fst.snd contDiff_snd)) (B := fun q => ((q.1, q.2 0), Fin.tail q.2))
        ((continuous_fst.prodMk ((continuous_apply 0).comp continuous_snd)).prodMk (tail_contDiff.continuous.comp continuous_snd)) fun q => rfl
    obtain ⟨G1, hG1, e1⟩ := ih (fun j => p j.succ) (s := fun j => s j.succ) (fun j => hs _) t1
    have t2 : Test fun q : (E × Pt d) × ℝ => G1 ((q.1.1, q.2), q.1.2) :=
      hG1.comp (A := fun q : (E × Pt d) × ℝ => ((q.1.1, q.2), q.1.2)) ((contDiff_fst.fst.prodMk contDiff_snd).prodMk contDiff_fst.snd)
        (B := fun q => ((q.1.1, q.2), q.1.2)) (by fun_prop) fun q => rfl
    obtain ⟨G2, hG2, e2⟩ := green_last (p 0) (hs 0) t2
    refine ⟨fun q => G2 ((q.1, Fin.tail q.2), q.2 0), ?_, fun e x => ?_⟩
    · exact hG2.comp (A := fun q : E × Pt (d + 1) => ((q.1, (Fin.tail q.2 : Pt d)), q.2 0))
        ((contDiff_fst.prodMk (tail_contDiff.comp contDiff_snd)).prodMk ((contDiff_apply ℝ ℝ 0).comp contDiff_snd))
        (B := fun q => (q.1.1, (Fin.cons q.2 q.1.2 : Pt (d + 1))))
        ((continuous_fst.fst).prodMk (cons_contDiff contDiff_snd (contDiff_fst.snd)).continuous) fun q => by
          refine Prod.ext rfl ?_
          exact Fin.cons_self_tail q.2
    · have hsplit : F (e, x) = F (e, Fin.cons (x 0) (Fin.tail x)) := by rw [Fin.cons_self_tail]
      rw [hsplit]
      have h1 := e1 (e, x 0) (Fin.tail x)
      refine h1.trans ?_
      have h2 : ∀ y : Pt d, G1 ((e, x 0), y) = ∫ r, phi (p 0) 0 (s 0 * (x 0 - r)) * G2 ((e, y), r) := fun y => e2 (e, y) (x 0)
      simp only [h2, ← integral_const_mul]
      set H : ℝ × Pt d → ℝ := fun z => profile (fun j => p j.succ) (fun j => s j.succ) (Fin.tail x) z.2 *
        (phi (p 0) 0 (s 0 * (x 0 - z.1)) * G2 ((e, z.2), z.1)) with hH
      have hGs : Test fun z : ℝ × Pt d => G2 ((e, z.2), z.1) :=
        hG2.comp (A := fun z : ℝ × Pt d => ((e, z.2), z.1)) ((contDiff_const.prodMk contDiff_snd).prodMk contDiff_fst)
          (B := fun q => (q.2, q.1.2)) (by fun_prop) fun q => rfl
      have hHi : Integrable H (volume.prod volume) := by
        have c1 : Continuous fun z : ℝ × Pt d => profile (fun j => p j.succ) (fun j => s j.succ) (Fin.tail x) z.2 :=
          (profile_cont _ _ _).comp continuous_snd
        have c2 : Continuous fun z : ℝ × Pt d => phi (p 0) 0 (s 0 * (x 0 - z.1)) :=
          (Matern.continuous_phi (p 0) 0 (by omega)).comp (by fun_prop)
        exact (c1.mul (c2.mul hGs.1.continuous)).integrable_of_hasCompactSupport hGs.2.mul_left.mul_left
      rw [show (∫ y : Pt d, ∫ r : ℝ, profile (fun j => p j.succ) (fun j => s j.succ) (Fin.tail x) y *
        (phi (p 0) 0 (s 0 * (x 0 - r)) * G2 ((e, y), r))) = ∫ y : Pt d, ∫ r : ℝ, H (r, y) from rfl, ← integral_prod_symm H hHi]
      have hmp := volume_preserving_piFinSuccAbove (fun _ : Fin (d + 1) => ℝ) 0
      refine (hmp.integral_comp (MeasurableEquiv.measurableEmbedding _) H).symm.trans ?_
      refine integral_congr_ae (Eventually.of_forall fun y => ?_)
      show H (y 0, Fin.removeNth 0 y) = _
      rw [hH]
      simp only [profile, Fin.prod_univ_succ]
      have : Fin.removeNth 0 y = Fin.tail y := by funext j; rfl
      rw [this]
      show _ * (_ * _) = _ * _ * _
      simp only [Fin.tail]
      ring

lemma matK_profile {d : ℕ} (p : Fin d → ℕ) (s : Fin d → ℝ) (x y : Pt d) : matK p s 0 x 0 y = profile p s x y := by
  unfold matK prodK jetK profile
  exact Finset.prod_congr rfl fun j _ => by simp

/-- C77: every infinitely differentiable function with compact support is the potential of a product of Matérn kernels, and has a
finite distance from zero in the metric of the prior. -/
theorem smooth_within {d : ℕ} (p : Fin d → ℕ) {s : Fin d → ℝ} (hs : ∀ j, s j ≠ 0) (m : jetF (box fun j => (p j : ℕ∞))) {F : Pt d → ℝ}
    (hF : ContDiff ℝ ∞ F) (hF' : HasCompactSupport F) :
    ∃ (f : jetF (box fun j => (p j : ℕ∞))) (B : ℝ), f.1 = m.1 + F ∧ 0 ≤ B ∧ Within ((matern_jet p s).prior m) f B := by
  have h0 : Test F := ⟨hF, hF'⟩
  have h1 : Test fun q : Pt 0 × Pt d => F q.2 := h0.comp (A := fun q : Pt 0 × Pt d => q.2) contDiff_snd (B := fun x => (0, x)) (by fun_prop)
    fun q => Prod.ext (Subsingleton.elim _ _) rfl
  obtain ⟨G, hG, e⟩ := green_prod d p hs h1
  have hg : Test fun y => G (0, y) := hG.comp (A := fun y : Pt d => ((0 : Pt 0), y)) (contDiff_const.prodMk contDiff_id) (B := Prod.snd)
    continuous_snd fun _ => rfl
  have hpot : ∀ x, F x = potJet (matK p s) (fun y => G (0, y)) 0 x := by
    intro x
    unfold potJet
    simp only [matK_profile]
    exact e 0 x
  have hmem : m.1 + F ∈ jetF (box fun j => (p j : ℕ∞)) := by
    refine (jetF _).add_mem m.2 ⟨potJet (matK p s) fun y => G (0, y), ?_⟩
    rw [show F = potJet (matK p s) (fun y => G (0, y)) 0 from funext hpot]
    exact pot_jet (matern_jet p s) (matern_cont p s) hg.1.continuous hg.2
  refine ⟨⟨m.1 + F, hmem⟩, potNorm (matK p s) fun y => G (0, y), rfl, sq_nonneg _, ?_⟩
  exact pot_within (matern_jet p s) (matern_cont p s) m hg.1.continuous hg.2 fun x => by
    show m.1 x + F x = _
    rw [hpot]

end LinPDE.Solve
