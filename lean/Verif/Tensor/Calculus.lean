import Verif.Coeff.Props
import Mathlib.Analysis.Calculus.LineDeriv.Basic
import Mathlib.Analysis.Calculus.IteratedDeriv.Lemmas
import Mathlib.Analysis.Calculus.ContDiff.Operations

/-!
# Partial derivatives of products of functions of one variable each
-/

namespace LinPDE.Tensor
open LinPDE.Calc LinPDE.Coeff
open scoped ContDiff

variable {d : ℕ}

/-- `x ↦ ∏ i, g i (x i)`. -/
noncomputable def tens (g : Fin d → ℝ → ℝ) (hg : ∀ i, ContDiff ℝ ∞ (g i)) : Smooth d :=
  ⟨fun x => ∏ i, g i (x i), by
    show ContDiff ℝ ∞ fun x : Fin d → ℝ => ∏ i, g i (x i)
    exact contDiff_prod fun i _ => (hg i).comp (contDiff_apply ℝ ℝ i)⟩

lemma tens_congr {g h : Fin d → ℝ → ℝ} (hg : ∀ i, ContDiff ℝ ∞ (g i)) (hh : ∀ i, ContDiff ℝ ∞ (h i)) (e : g = h) :
    tens g hg = tens h hh := by subst e; rfl

lemma contDiff_iteratedDeriv {g : ℝ → ℝ} (hg : ContDiff ℝ ∞ g) (n : ℕ) : ContDiff ℝ ∞ (iteratedDeriv n g) := by
  induction n with
  | zero => simpa using hg
  | succ n ih =>
    rw [iteratedDeriv_succ]
    exact (contDiff_infty_iff_deriv.mp ih).2

lemma contDiff_update {g : Fin d → ℝ → ℝ} (hg : ∀ i, ContDiff ℝ ∞ (g i)) (j : Fin d) {h : ℝ → ℝ} (hh : ContDiff ℝ ∞ h) :
    ∀ i, ContDiff ℝ ∞ (Function.update g j h i) := by
  intro i
  by_cases e : i = j
  · subst e; rw [Function.update_self]; exact hh
  · rw [Function.update_of_ne e]; exact hg i

lemma pd_tens (g : Fin d → ℝ → ℝ) (hg : ∀ i, ContDiff ℝ ∞ (g i)) (j : Fin d) :
    pd j (tens g hg) = tens (Function.update g j (deriv (g j)))
      (contDiff_update hg j (by simpa using contDiff_iteratedDeriv (hg j) 1)) := by
  apply Subtype.ext
  funext x
  rw [pd_apply]
  have hs : ContDiff ℝ ∞ (tens g hg).1 := (tens g hg).2
  rw [← (hs.differentiable (by simp) x).lineDeriv_eq_fderiv]
  unfold lineDeriv
  show deriv (fun t : ℝ => ∏ i, g i ((x + t • e j) i)) 0 = ∏ i, Function.update g j (deriv (g j)) i (x i)
  have h1 : (fun t : ℝ => ∏ i, g i ((x + t • e j) i)) = fun t => g j (x j + t) * ∏ i ∈ Finset.univ.erase j, g i (x i) := by
    funext t
    rw [← Finset.mul_prod_erase _ _ (Finset.mem_univ j)]
    congr 1
    · simp [e]
    · refine Finset.prod_congr rfl fun i hi => ?_
      have : i ≠ j := (Finset.mem_erase.mp hi).1
      simp [e, this]
  rw [h1, ← Finset.mul_prod_erase _ _ (Finset.mem_univ j), Function.update_self]
  have h2 : ∏ i ∈ Finset.univ.erase j, Function.update g j (deriv (g j)) i (x i) = ∏ i ∈ Finset.univ.erase j, g i (x i) := by
    refine Finset.prod_congr rfl fun i hi => ?_
    rw [Function.update_of_ne (Finset.mem_erase.mp hi).1]
  rw [h2]
  have hd : DifferentiableAt ℝ (g j) (x j + 0) := (hg j).differentiable (by simp) _
  have hc : HasDerivAt (fun t : ℝ => g j (x j + t)) (deriv (g j) (x j)) 0 := by
    have h3 := hd.hasDerivAt.comp_const_add (x j) (0 : ℝ)
    rw [add_zero] at h3
    exact h3
  exact (hc.mul_const _).deriv

lemma pd_pow_tens (g : Fin d → ℝ → ℝ) (hg : ∀ i, ContDiff ℝ ∞ (g i)) (j : Fin d) (n : ℕ) :
    ((pd j : Module.End ℝ (Smooth d)) ^ n) (tens g hg) = tens (Function.update g j (iteratedDeriv n (g j)))
      (contDiff_update hg j (contDiff_iteratedDeriv (hg j) n)) := by
  induction n with
  | zero =>
    rw [pow_zero]
    refine tens_congr hg _ ?_
    simp
  | succ n ih =>
    rw [pow_succ']
    show pd j (((pd j : Module.End ℝ (Smooth d)) ^ n) (tens g hg)) = _
    rw [ih, pd_tens]
    refine tens_congr _ _ ?_
    rw [Function.update_idem, Function.update_self, ← iteratedDeriv_succ]

lemma list_pow_tens (a : List ℕ) : ∀ (l : List (Fin d)), l.Nodup → ∀ (g : Fin d → ℝ → ℝ) (hg : ∀ i, ContDiff ℝ ∞ (g i)),
    ∃ hh, ((l.map fun i => (pd i : Module.End ℝ (Smooth d)) ^ a.getD i.1 0).prod) (tens g hg) =
      tens (fun i => if i ∈ l then iteratedDeriv (a.getD i.1 0) (g i) else g i) hh
  | [], _, g, hg => ⟨by simpa using hg, by
      simp only [List.map_nil, List.prod_nil]
      exact tens_congr hg _ (by simp)⟩
  | j :: l, hl, g, hg => by
    rw [List.nodup_cons] at hl
    obtain ⟨hh, ih⟩ := list_pow_tens a l hl.2 g hg
    have hh' : ∀ i, ContDiff ℝ ∞ (if i ∈ j :: l then iteratedDeriv (a.getD i.1 0) (g i) else g i) := by
      intro i
      split_ifs
      · exact contDiff_iteratedDeriv (hg i) _
      · exact hg i
    refine ⟨hh', ?_⟩
    rw [List.map_cons, List.prod_cons]
    show ((pd j : Module.End ℝ (Smooth d)) ^ a.getD j.1 0) ((List.prod _ : Module.End ℝ (Smooth d)) (tens g hg)) = _
    rw [ih, pd_pow_tens]
    refine tens_congr _ _ ?_
    funext i
    by_cases e : i = j
    · subst e
      rw [Function.update_self]
      simp [hl.1]
    · rw [Function.update_of_ne e]
      simp [e]

/-- `∂^a ∏ g_i(x_i) = ∏ g_i^{(a_i)}(x_i)`. -/
lemma dpow_tens (a : List ℕ) (g : Fin d → ℝ → ℝ) (hg : ∀ i, ContDiff ℝ ∞ (g i)) (x : Fin d → ℝ) :
    (dpow (d := d) a (tens g hg)).1 x = ∏ i, iteratedDeriv (a.getD i.1 0) (g i) (x i) := by
  obtain ⟨hh, h⟩ := list_pow_tens a (List.finRange d) (List.nodup_finRange d) g hg
  unfold dpow
  rw [h]
  show ∏ i, (if i ∈ List.finRange d then iteratedDeriv (a.getD i.1 0) (g i) else g i) (x i) = _
  simp

/-! ## Derivatives with a parameter -/

lemma contDiff_deriv_snd {f : ℝ → ℝ → ℝ} (hf : ContDiff ℝ ∞ fun p : ℝ × ℝ => f p.1 p.2) :
    ContDiff ℝ ∞ fun p : ℝ × ℝ => deriv (f p.1) p.2 := by
  have h : (fun p : ℝ × ℝ => deriv (f p.1) p.2) = fun p => fderiv ℝ (fun p : ℝ × ℝ => f p.1 p.2) p (0, 1) := by
    funext p
    rw [← (hf.differentiable (by simp) p).lineDeriv_eq_fderiv]
    unfold lineDeriv
    have e : (fun t : ℝ => f (p + t • ((0, 1) : ℝ × ℝ)).1 (p + t • ((0, 1) : ℝ × ℝ)).2) = fun t => f p.1 (p.2 + t) := by
      funext t; simp
    rw [e, deriv_comp_const_add, add_zero]
  rw [h]
  exact (hf.fderiv_right (m := ∞) (by norm_cast)).clm_apply contDiff_const

lemma contDiff_iteratedDeriv_snd {f : ℝ → ℝ → ℝ} (hf : ContDiff ℝ ∞ fun p : ℝ × ℝ => f p.1 p.2) (n : ℕ) :
    ContDiff ℝ ∞ fun p : ℝ × ℝ => iteratedDeriv n (f p.1) p.2 := by
  induction n with
  | zero => simpa using hf
  | succ n ih =>
    have := contDiff_deriv_snd (f := fun s => iteratedDeriv n (f s)) ih
    simpa only [iteratedDeriv_succ] using this

lemma contDiff_swap {f : ℝ → ℝ → ℝ} (hf : ContDiff ℝ ∞ fun p : ℝ × ℝ => f p.1 p.2) :
    ContDiff ℝ ∞ fun p : ℝ × ℝ => f p.2 p.1 := hf.comp (contDiff_snd.prodMk contDiff_fst)

lemma contDiff_iteratedDeriv_fst {f : ℝ → ℝ → ℝ} (hf : ContDiff ℝ ∞ fun p : ℝ × ℝ => f p.1 p.2) (n : ℕ) :
    ContDiff ℝ ∞ fun p : ℝ × ℝ => iteratedDeriv n (fun s => f s p.2) p.1 :=
  contDiff_swap (f := fun t s => iteratedDeriv n (fun s => f s t) s)
    (contDiff_iteratedDeriv_snd (f := fun t s => f s t) (contDiff_swap hf) n)

lemma contDiff_slice_fst {f : ℝ → ℝ → ℝ} (hf : ContDiff ℝ ∞ fun p : ℝ × ℝ => f p.1 p.2) (t : ℝ) :
    ContDiff ℝ ∞ fun s => f s t := hf.comp (contDiff_id.prodMk contDiff_const)

lemma contDiff_slice_snd {f : ℝ → ℝ → ℝ} (hf : ContDiff ℝ ∞ fun p : ℝ × ℝ => f p.1 p.2) (s : ℝ) :
    ContDiff ℝ ∞ fun t => f s t := hf.comp (contDiff_const.prodMk contDiff_id)

end LinPDE.Tensor
