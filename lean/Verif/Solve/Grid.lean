import Verif.Solve.Lemmas
import Verif.Domain.GridProps
import Verif.Pde.BvpProps

/-! # C69: the points of uniform grids are distinct -/

namespace LinPDE.Solve
open LinPDE.Domains LinPDE.Pde LinPDE.GP

lemma linspace_nodup {a b : ℝ} (h : a ≠ b) (n : ℕ) : (linspace a b n).Nodup := by
  rcases Nat.lt_or_ge n 2 with hn | hn
  · have : (linspace a b n).length = n := by simp [linspace]
    match hl : linspace a b n with
    | [] => exact List.nodup_nil
    | [x] => exact List.nodup_singleton x
    | _ :: _ :: _ => rw [hl] at this; simp only [List.length_cons] at this; omega
  · rw [List.nodup_iff_injective_get]
    intro i j hij
    have hi := linspace_get a b n i i.2 hn
    have hj := linspace_get a b n j j.2 hn
    have hij : (linspace a b n)[i.1]'i.2 = (linspace a b n)[j.1]'j.2 := hij
    rw [hi, hj] at hij
    have hn' : (0 : ℝ) < (n : ℝ) - 1 := by
      have : (2 : ℝ) ≤ n := by exact_mod_cast hn
      linarith
    have hs : (b - a) / ((n : ℝ) - 1) ≠ 0 := div_ne_zero (sub_ne_zero.mpr h.symm) hn'.ne'
    have := mul_right_cancel₀ hs (add_left_cancel hij)
    exact Fin.ext (by exact_mod_cast this)

/-- C69: a uniform grid on an interval consists of distinct points unless the inset is half the length. -/
lemma intervalGrid_nodup {l u e : ℝ} (h : l + e ≠ u - e) (n : ℕ) : (intervalGrid l u n e).Nodup := linspace_nodup h n

/-- With a positive inset, the grid lies strictly inside. -/
lemma intervalGrid_inside {l u e : ℝ} (h0 : 0 < e) (h1 : e < u - l) {n : ℕ} {x : ℝ} (hx : x ∈ intervalGrid l u n e) :
    l < x ∧ x < u := by
  obtain ⟨i, hi, rfl⟩ := List.getElem_of_mem hx
  have hn : i < n := by simpa [intervalGrid, linspace] using hi
  unfold intervalGrid
  rcases Nat.lt_or_ge n 2 with h2 | h2
  · have hi0 : i = 0 := by omega
    simp only [linspace, List.getElem_map, List.getElem_range]
    rw [if_neg (by omega), hi0]
    simp only [Nat.cast_zero, zero_mul, add_zero]
    constructor <;> linarith
  · have e0 := linspace_get (l + e) (u - e) n i hi h2
    rw [e0]
    have hn' : (0 : ℝ) < (n : ℝ) - 1 := by
      have : (2 : ℝ) ≤ n := by exact_mod_cast h2
      linarith
    have hi1 : (i : ℝ) ≤ (n : ℝ) - 1 := by
      have : ((i + 1 : ℕ) : ℝ) ≤ n := by exact_mod_cast hn
      push_cast at this
      linarith
    set τ : ℝ := (i : ℝ) / ((n : ℝ) - 1) with hτ
    have hτ0 : 0 ≤ τ := div_nonneg (Nat.cast_nonneg i) hn'.le
    have hτ1 : τ ≤ 1 := (div_le_one hn').mpr hi1
    have e1 : l + e + (i : ℝ) * ((u - e - (l + e)) / ((n : ℝ) - 1)) = (1 - τ) * (l + e) + τ * (u - e) := by
      rw [hτ]
      field_simp
      ring
    rw [e1]
    have := convex_Ioo l u (x := l + e) ⟨by linarith, by linarith⟩ (y := u - e) ⟨by linarith, by linarith⟩ (a := 1 - τ) (b := τ)
      (by linarith) hτ0 (by ring)
    simpa using this

lemma gridPoints_nodup : ∀ {fs : List (List ℝ)}, (∀ f ∈ fs, f.Nodup) → (gridPoints fs).Nodup
  | [], _ => List.nodup_singleton _
  | g :: gs, h => by
    have ih := gridPoints_nodup fun f hf => h f (List.mem_cons_of_mem _ hf)
    rw [gridPoints, List.nodup_flatMap]
    refine ⟨fun x _ => ih.map fun p q hpq => (List.cons.inj hpq).2, ?_⟩
    refine (h g List.mem_cons_self).imp fun {x y} hxy => ?_
    intro p hp hp'
    obtain ⟨q, -, rfl⟩ := List.mem_map.mp hp
    obtain ⟨q', -, hq⟩ := List.mem_map.mp hp'
    exact hxy (List.cons.inj hq).1.symm

lemma toPt_inj {d : ℕ} {x y : List ℝ} (hx : x.length = d) (hy : y.length = d) (h : toPt d x = toPt d y) : x = y := by
  refine List.ext_getElem (hx.trans hy.symm) fun i h1 h2 => ?_
  have := congrFun h ⟨i, hx ▸ h1⟩
  simpa [toPt, h1, h2] using this

lemma toPt_nodup {d : ℕ} {xs : List (List ℝ)} (h : xs.Nodup) (hl : ∀ x ∈ xs, x.length = d) : (xs.map (toPt d)).Nodup :=
  h.map_on fun x hx y hy hxy => toPt_inj (hl x hx) (hl y hy) hxy

lemma evalAt_ok {f : Fn} {shape : Nd.Shp} (hf : f.inS = shape) {v : List ℝ → ℝ} {xs : List (List ℝ)} (hv : ∀ x ∈ xs, f.ev x = [v x]) :
    evalAt f shape xs = .ok (xs.map v) := by
  have h1 : xs.mapM (fun x => f.call shape x) = .ok (xs.map fun x => [v x]) :=
    mapM_ok _ _ _ fun x hx => by simp [Fn.call, hf, hv x hx]
  unfold evalAt
  rw [h1]
  show Except.ok _ = Except.ok _
  congr 1
  clear h1 hv
  induction xs with
  | nil => rfl
  | cons x xs ih => simpa using ih

end LinPDE.Solve
