import Verif.Matern.Heap
import Verif.Matern.Props
import Mathlib.Analysis.Complex.ExponentialBounds

/-! # Repeated evaluation of derivative kernels (C25) -/

namespace LinPDE.Matern
open LinPDE.Polys

variable {d : ℕ}

/-- The cached quantity belonging to the original scale factors. -/
def goodCache (m : Par d) (k : MK d) : Fin d → ℝ :=
  match k with
  | .idDD _ dir reverse _ => fun i => m.s i * dir i * (if reverse then 1 else -1)
  | _ => m.s

lemma evalWith_good {m : Par d} {k : MK d} (hk : k.par = m) (x0 x1 : Fin d → ℝ) :
    evalWith k m.s (goodCache m k) x0 x1 = k.eval x0 x1 := by
  subst hk
  cases k <;> rfl

/-- Whether an object is a first-derivative kernel. -/
def MK.isIdDD : MK d → Bool
  | .idDD .. => true
  | _ => false

/-- Invariant: the scale factors are the original ones and caches are unset or correct. -/
def Good (m : Par d) (ks : List (MK d)) (σ : St d) : Prop :=
  σ.s = m.s ∧ σ.objs.map Obj.k = ks ∧ ∀ o ∈ σ.objs, o.cache = none ∨ o.cache = some (.own (goodCache m o.k))

lemma useCache_good {m : Par d} {o : Obj d} {arr : Bool} (ho : o.cache = none ∨ o.cache = some (.own (goodCache m o.k)))
    (ha : arr = false ∨ o.k.isIdDD = false) :
    useCache o m.s arr = (goodCache m o.k, .own (goodCache m o.k), m.s) := by
  obtain ⟨k, c⟩ := o
  rcases ho with ho | ho <;> simp only at ho <;> subst ho
  · cases k with
    | idDD m' u r q =>
      rcases ha with rfl | ha
      · rfl
      · cases ha
    | _ => rfl
  · rfl

lemma Good.evalAt {m : Par d} {ks : List (MK d)} {σ : St d} (h : Good m ks σ) (hp : ∀ k ∈ ks, k.par = m)
    (ha : σ.isArray = false ∨ ∀ k ∈ ks, k.isIdDD = false) (i : ℕ) (x0 x1 : Fin d → ℝ) :
    (σ.evalAt i x0 x1).1 = ks[i]?.map (fun k => k.eval x0 x1) ∧ Good m ks (σ.evalAt i x0 x1).2 ∧
      (σ.evalAt i x0 x1).2.isArray = σ.isArray := by
  obtain ⟨h1, h2, h3⟩ := h
  unfold St.evalAt
  have hk : ks[i]? = σ.objs[i]?.map Obj.k := by rw [← h2, List.getElem?_map]
  cases ho : σ.objs[i]? with
  | none =>
    rw [hk, ho]
    exact ⟨rfl, ⟨h1, h2, h3⟩, rfl⟩
  | some o =>
    have hmem : o ∈ σ.objs := List.mem_of_getElem? ho
    have hkm : o.k ∈ ks := by rw [← h2]; exact List.mem_map_of_mem hmem
    have hu := useCache_good (arr := σ.isArray) (h3 o hmem) (ha.imp id fun h => h _ hkm)
    rw [hk, ho]
    simp only [h1, hu, Option.map_some]
    refine ⟨by rw [evalWith_good (hp _ hkm)], ⟨rfl, ?_, ?_⟩, trivial⟩
    · show (σ.objs.set i _).map Obj.k = ks
      rw [List.map_set, ← h2]
      apply List.ext_getElem?
      intro j
      rw [List.getElem?_set]
      split
      · rename_i hj
        subst hj
        have hlt : i < σ.objs.length := by
          by_contra hc
          rw [List.getElem?_eq_none (by omega)] at ho
          cases ho
        rw [List.length_map, if_pos hlt, List.getElem?_map, ho]
        rfl
      · rfl
    · intro o' ho'
      rcases List.mem_or_eq_of_mem_set ho' with ho' | rfl
      · exact h3 o' ho'
      · exact Or.inr rfl

lemma Good.run {m : Par d} {ks : List (MK d)} (hp : ∀ k ∈ ks, k.par = m) (h : List (ℕ × (Fin d → ℝ) × (Fin d → ℝ))) :
    ∀ σ : St d, Good m ks σ → (σ.isArray = false ∨ ∀ k ∈ ks, k.isIdDD = false) → Good m ks (σ.run h) ∧
      (σ.run h).isArray = σ.isArray := by
  induction h with
  | nil => exact fun σ hσ _ => ⟨hσ, rfl⟩
  | cons e h ih =>
    intro σ hσ ha
    obtain ⟨i, x0, x1⟩ := e
    obtain ⟨-, h2, h3⟩ := hσ.evalAt hp ha i x0 x1
    have := ih _ h2 (by rw [h3]; exact ha)
    exact ⟨this.1, this.2.trans h3⟩

lemma fresh_good (m : Par d) (arr : Bool) (ks : List (MK d)) : Good m ks (fresh m arr ks) := by
  refine ⟨rfl, ?_, ?_⟩
  · show (ks.map _).map _ = ks
    rw [List.map_map]
    exact List.map_id' ks
  · intro o ho
    obtain ⟨k, _, rfl⟩ := List.mem_map.mp ho
    exact Or.inl rfl

/-- C25 (part): with scalar lengthscales, or if no first-derivative kernel is among the objects, every evaluation after
any history of evaluations of any of the derivative kernels of a Matérn kernel returns the value of the kernel, and the
Matérn kernel is unchanged. Missing: first-derivative kernels with array lengthscales, see
`derivative_side_effects_violated`. -/
theorem evaluations_repeatable_partial (m : Par d) (arr : Bool) (ks : List (MK d))
    (hk : ∀ k ∈ ks, ∃ n, Built m n k) (ha : arr = false ∨ ∀ k ∈ ks, k.isIdDD = false)
    (h : List (ℕ × (Fin d → ℝ) × (Fin d → ℝ))) (i : ℕ) (x0 x1 : Fin d → ℝ) :
    (((fresh m arr ks).run h).evalAt i x0 x1).1 = ks[i]?.map (fun k => k.eval x0 x1) ∧
    ((fresh m arr ks).run h).base m.p x0 x1 = (MK.matern m).eval x0 x1 := by
  have hp : ∀ k ∈ ks, k.par = m := fun k hk' => (hk k hk').choose_spec.valid.2.2
  have hg := Good.run hp h (fresh m arr ks) (fresh_good m arr ks) ha
  refine ⟨(hg.1.evalAt hp (by rw [hg.2]; exact ha) i x0 x1).1, ?_⟩
  unfold St.base
  rw [hg.1.1]

/-- Non-vacuity: a scalar-lengthscale kernel with a first-derivative kernel among the objects. -/
example (u : Fin 3 → ℝ) : ∃ k : MK 3, (∃ n, Built (⟨1, fun _ => 2⟩ : Par 3) n k) ∧ k.isIdDD = true := by
  obtain ⟨q, hq⟩ := (div_one_ok_iff 1).mpr le_rfl
  refine ⟨.idDD ⟨1, fun _ => 2⟩ u true q, ⟨_, .step (.dd u) true .base ?_⟩, rfl⟩
  show mkIdDD _ _ _ = _
  unfold mkIdDD
  rw [hq]; rfl

/-- C25 (part): the first evaluation of a derivative kernel returns the value of the kernel also for array lengthscales,
as long as no first-derivative kernel has been evaluated before. -/
theorem first_evaluation_partial (m : Par d) (arr : Bool) (k : MK d) (n : ℕ) (hk : Built m n k) (x0 x1 : Fin d → ℝ) :
    ((fresh m arr [k]).evalAt 0 x0 x1).1 = some (k.eval x0 x1) := by
  have hp := hk.valid.2.2
  show some (evalWith k m.s (useCache ⟨k, none⟩ m.s arr).1 x0 x1) = _
  rw [← evalWith_good hp]
  cases k <;> cases arr <;> rfl

/-- The Matérn-3/2 example of the violation: unit scale factors in the plane. -/
noncomputable def exPar : Par 2 := ⟨1, fun _ => 1⟩

/-- C25 is violated for array lengthscales: there are a Matérn kernel, a derivative kernel of it and points such that
evaluating the derivative kernel twice at the same points gives two different values, and such that the value of the
Matérn kernel has changed after the evaluation. -/
theorem derivative_side_effects_violated :
    ∃ (m : Par 2) (k : MK 2) (x0 x1 : Fin 2 → ℝ), apply (.dd fun i => if i = 0 then 2 else 0) true (.matern m) = .ok k ∧
      (((fresh m true [k]).run [(0, x0, x1)]).evalAt 0 x0 x1).1 ≠ ((fresh m true [k]).evalAt 0 x0 x1).1 ∧
      ((fresh m true [k]).run [(0, x0, x1)]).base m.p x0 x1 ≠ (fresh m true [k]).base m.p x0 x1 := by
  obtain ⟨q, hq⟩ := (div_one_ok_iff 1).mpr le_rfl
  obtain ⟨p, hp, hq1⟩ := quot_one (divMono_mul hq)
  obtain rfl : p = 0 := by omega
  have he := Real.exp_one_gt_d9
  have hval : ∀ r : ℝ, pev q r = -1 := by
    intro r
    rw [pev_eq, hq1, P_zero_order]
    simp
  have hmat : ∀ r : ℝ, pev (derivPoly 1 0) r = 1 + r := by
    intro r
    rw [pev_eq]
    show ((maternPoly 1).toPoly.map _).eval r = _
    have : (maternPoly 1).toPoly = 1 + Polynomial.X := by
      ext j
      rw [coeff_maternPoly, Polynomial.coeff_add]
      rcases j with _ | _ | j
      · simp [maternCoeff]
      · simp [maternCoeff, Nat.factorial, Polynomial.coeff_one]
      · rw [if_neg (by omega)]
        simp [Polynomial.coeff_one, Polynomial.coeff_X]
    rw [this]
    simp
  have n1 : norm (sdiff (fun _ => (1 : ℝ)) (fun i : Fin 2 => if i = 0 then 1 else 0) 0) = 1 := by
    simp [norm, sdiff]
  have n2 : norm (sdiff (fun i : Fin 2 => (1 : ℝ) * (if i = 0 then 2 else 0) * 1) (fun i : Fin 2 => if i = 0 then 1 else 0) 0)
      = 2 := by
    simp [norm, sdiff]
  have e2 : Real.exp (-2) = Real.exp (-1) * Real.exp (-1) := by rw [← Real.exp_add]; norm_num
  have e1 : Real.exp 1 * Real.exp (-1) = 1 := by rw [← Real.exp_add]; norm_num
  have epos := Real.exp_pos (-1)
  refine ⟨exPar, .idDD exPar (fun i => if i = 0 then 2 else 0) true q, fun i => if i = 0 then 1 else 0, 0, ?_, ?_, ?_⟩
  · show mkIdDD _ _ _ = _
    unfold mkIdDD
    rw [show exPar.p = 1 from rfl, hq]; rfl
  · show some (pev q (norm (sdiff (fun i : Fin 2 => (1 : ℝ) * (if i = 0 then 2 else 0) * 1) _ _)) * Real.exp (-norm
        (sdiff (fun i : Fin 2 => (1 : ℝ) * (if i = 0 then 2 else 0) * 1) _ _)) *
        dot (fun i : Fin 2 => (1 : ℝ) * (if i = 0 then 2 else 0) * 1)
          (sdiff (fun i : Fin 2 => (1 : ℝ) * (if i = 0 then 2 else 0) * 1) _ _)) ≠
      some (pev q (norm (sdiff (fun _ => (1 : ℝ)) _ _)) * Real.exp (-norm (sdiff (fun _ => (1 : ℝ)) _ _)) *
        dot (fun i : Fin 2 => (1 : ℝ) * (if i = 0 then 2 else 0) * 1) (sdiff (fun _ => (1 : ℝ)) _ _))
    rw [n1, n2, hval, hval]
    intro h
    have h := Option.some.inj h
    simp [dot, sdiff] at h
    rw [e2] at h
    nlinarith
  · show pev (derivPoly 1 0) (norm (sdiff (fun i : Fin 2 => (1 : ℝ) * (if i = 0 then 2 else 0) * 1) _ _)) *
      Real.exp (-norm (sdiff (fun i : Fin 2 => (1 : ℝ) * (if i = 0 then 2 else 0) * 1) _ _)) ≠
      pev (derivPoly 1 0) (norm (sdiff (fun _ => (1 : ℝ)) _ _)) * Real.exp (-norm (sdiff (fun _ => (1 : ℝ)) _ _))
    rw [n1, n2, hmat, hmat, e2]
    intro h
    nlinarith

end LinPDE.Matern
