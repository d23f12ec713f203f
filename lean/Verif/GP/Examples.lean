import Verif.GP.Lemmas2

/-! Concrete priors: every symmetric positive semidefinite kernel with point evaluations is a `Prior`;
the white-noise kernel gives positive definite Gram matrices. -/

namespace LinPDE.GP
open Matrix LinPDE.Block

variable {X : Type}

/-- Point evaluation on all functions. -/
def evTop (x : X) : (⊤ : Submodule ℝ (X → ℝ)) →ₗ[ℝ] ℝ :=
  (LinearMap.proj x : (X → ℝ) →ₗ[ℝ] ℝ) ∘ₗ (⊤ : Submodule ℝ (X → ℝ)).subtype

/-- A kernel with all finite combinations of point evaluations as functionals. -/
def ofKernel (m : X → ℝ) (k : X → X → ℝ) : Prior X where
  F := ⊤
  m := ⟨m, trivial⟩
  k := k
  sec_mem _ := trivial
  Λ := Submodule.span ℝ (Set.range evTop)
  cross_mem _ _ := trivial

lemma ofKernel_regular (m : X → ℝ) (k : X → X → ℝ) (hk : (Matrix.of k).PosSemidef) :
    (ofKernel m k).Regular := by
  have hsymm : ∀ x y, k x y = k y x := fun x y => by
    have h1 := congrFun (congrFun hk.isHermitian y) x
    simpa using h1
  have hlin : ∀ L ∈ Submodule.span ℝ (Set.range (evTop (X := X))), ∃ c : X →₀ ℝ, ∀ f, L f = c.sum fun x a => a * f.1 x := by
    intro L hL
    obtain ⟨c, rfl⟩ := (Finsupp.mem_span_range_iff_exists_finsupp).mp hL
    exact ⟨c, fun f => by simp [Finsupp.sum, evTop]⟩
  have hcov : ∀ L L' : (ofKernel m k).Λ, ∀ c c' : X →₀ ℝ, (∀ f, L.1 f = c.sum fun x a => a * f.1 x) →
      (∀ f, L'.1 f = c'.sum fun x a => a * f.1 x) →
      (ofKernel m k).cov L L' = ∑ x ∈ c.support, ∑ y ∈ c'.support, c x * k x y * c' y := by
    intro L L' c c' h h'
    have e1 : (ofKernel m k).cov L L' = L.1 ((ofKernel m k).cross L') := rfl
    rw [e1, h]
    simp only [Finsupp.sum]
    refine Finset.sum_congr rfl fun x _ => ?_
    have e2 : ((ofKernel m k).cross L').1 x = L'.1 ⟨k x, trivial⟩ := rfl
    rw [e2, h', Finsupp.sum, Finset.mul_sum]
    exact Finset.sum_congr rfl fun y _ => by simp only; ring
  have hev : ∀ x : X, evTop x ∈ Submodule.span ℝ (Set.range (evTop (X := X))) :=
    fun x => Submodule.subset_span ⟨x, rfl⟩
  refine ⟨hev, ?_, ?_⟩
  · intro L L'
    obtain ⟨c, hc⟩ := hlin L.1 L.2
    obtain ⟨c', hc'⟩ := hlin L'.1 L'.2
    rw [hcov L L' c c' hc hc', hcov L' L c' c hc' hc, Finset.sum_comm]
    exact Finset.sum_congr rfl fun y _ => Finset.sum_congr rfl fun x _ => by rw [hsymm x y]; ring
  · intro L
    obtain ⟨c, hc⟩ := hlin L.1 L.2
    rw [hcov L L c c hc hc]
    have := hk.2 c
    simpa [Finsupp.sum] using this

/-- White noise: independent standard normal values. -/
noncomputable def white (X : Type) [DecidableEq X] : Prior X := ofKernel 0 fun x y => if x = y then 1 else 0

lemma white_regular (X : Type) [DecidableEq X] : (white X).Regular := by
  refine ofKernel_regular _ _ ?_
  have : (Matrix.of fun x y : X => if x = y then (1 : ℝ) else 0) = 1 := by
    ext x y; simp [Matrix.one_apply]
  rw [this]
  exact Matrix.PosSemidef.one

variable {P : Prior X}

/-- The joint Gram matrix is positive definite when the noise-free part is and noise is PSD. -/
lemma jG_posDef_of_cov (l : List (Batch P)) (h : (Matrix.of fun i j => P.cov (jL l i) (jL l j)).PosDef)
    (hN : ∀ b ∈ l, b.noiseCov.PosSemidef) : (jG l).PosDef := by
  refine h.add_posSemidef ?_
  have hs : (jN l).IsHermitian := by
    ext i j
    simp only [conjTranspose_apply, star_trivial, jN, of_apply]
    by_cases hij : i.1 = j.1
    · obtain ⟨p, r⟩ := i
      obtain ⟨q, s⟩ := j
      dsimp only at hij
      subst hij
      have := congrFun (congrFun (hN _ (List.get_mem l p)).isHermitian r) s
      simpa using this
    · rw [dif_neg hij, dif_neg (fun h => hij h.symm)]
  exact Matrix.PosSemidef.of_dotProduct_mulVec_nonneg hs fun a => by
    simpa using jN_psd hN a

/-- White-noise evaluations at pairwise distinct points have positive definite Gram matrices. -/
lemma white_posDef [DecidableEq X] (l : List (Batch (white X))) (pt : Idx l → X) (hpt : Function.Injective pt)
    (hL : ∀ i, jL l i = (white_regular X).ev (pt i)) (hN : ∀ b ∈ l, b.noiseCov.PosSemidef) :
    (jG l).PosDef := by
  refine jG_posDef_of_cov l ?_ hN
  have : (Matrix.of fun i j => (white X).cov (jL l i) (jL l j)) = 1 := by
    ext i j
    simp only [of_apply, hL, cov_ev]
    by_cases h : i = j
    · subst h; simp [white, ofKernel]
    · rw [Matrix.one_apply_ne h]
      have : pt i ≠ pt j := fun h' => h (hpt h')
      simp [white, ofKernel, this]
  rw [this]
  exact Matrix.PosDef.one

/-- Observe the white process at the single point `p` (noise-free). -/
noncomputable def exact1 (p : ℕ) (y : ℝ) : Batch (white ℕ) where
  n := 1
  L _ := (white_regular ℕ).ev p
  noise := none
  Y _ := y

/-- Observe the white process at the single point `p` with unit noise of mean `1`. -/
noncomputable def noisy1 (p : ℕ) (y : ℝ) : Batch (white ℕ) where
  n := 1
  L _ := (white_regular ℕ).ev p
  noise := some (fun _ => 1, 1)
  Y _ := y

lemma ex_noisePSD (l : List (Batch (white ℕ))) (h : ∀ b ∈ l, (∃ p y, b = exact1 p y) ∨ ∃ p y, b = noisy1 p y) :
    ∀ b ∈ l, b.noiseCov.PosSemidef := by
  intro b hb
  rcases h b hb with ⟨p, y, rfl⟩ | ⟨p, y, rfl⟩
  · exact Matrix.PosSemidef.zero
  · exact Matrix.PosSemidef.one

/-- A history with one exact and one noisy measurement. -/
lemma ex_posDef : (jG [exact1 0 3, noisy1 1 5]).PosDef ∧ NoisePSD [exact1 0 3, noisy1 1 5] := by
  have hN : NoisePSD [exact1 0 3, noisy1 1 5] := by
    refine ex_noisePSD _ fun b hb => ?_
    rcases List.mem_cons.mp hb with rfl | hb
    · exact Or.inl ⟨_, _, rfl⟩
    · rcases List.mem_cons.mp hb with rfl | hb
      · exact Or.inr ⟨_, _, rfl⟩
      · simp at hb
  refine ⟨white_posDef _ (fun i => i.1.1) ?_ ?_ hN, hN⟩
  · rintro ⟨⟨p, hp⟩, r⟩ ⟨⟨q, hq⟩, s⟩ h
    have h' : p = q := h
    subst h'
    refine Idx.ext' rfl ?_
    have hr := r.2
    have hs := s.2
    match p, hp with
    | 0, _ => have h1 : r.1 < 1 := hr; have h2 : s.1 < 1 := hs; show r.1 = s.1; omega
    | 1, _ => have h1 : r.1 < 1 := hr; have h2 : s.1 < 1 := hs; show r.1 = s.1; omega
    | (n + 2), hp => simp at hp
  · rintro ⟨⟨p, hp⟩, r⟩
    match p, hp with
    | 0, _ => rfl
    | 1, _ => rfl
    | (n + 2), hp => simp at hp

end LinPDE.GP
