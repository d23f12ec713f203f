import Verif.GP.JetProps
import Verif.GP.Examples

/-! # Measurements with deterministic noise -/

namespace LinPDE.GP
open Matrix LinPDE.Block

variable {X : Type} {P : Prior X}

lemma mem_index_row {l : List (Batch P)} {b : Batch P} (hb : b ∈ l) (i : Fin b.n) :
    ∃ p : Idx l, jL l p = b.L i ∧ jR l p = b.Y i - (b.L i).1 P.m - b.bMean i ∧
      ((∀ j, b.noiseCov i j = 0) → ∀ q, jN l p q = 0) := by
  obtain ⟨n, hn, rfl⟩ := List.getElem_of_mem hb
  refine ⟨⟨⟨n, hn⟩, i⟩, rfl, rfl, fun h q => ?_⟩
  simp only [jN, of_apply]
  split
  · exact h _
  · rfl

/-- A measurement whose noise is a constant is reproduced up to that constant. -/
lemma deterministic_row (hP : P.Regular) {l : List (Batch P)} (hG : (jG l).PosDef) {b : Batch P} (hb : b ∈ l)
    (i : Fin b.n) (hn : ∀ j, b.noiseCov i j = 0) :
    (b.L i).1 (posterior P l).m = b.Y i - b.bMean i ∧ ∀ L' : P.Λ, (posterior P l).cov (b.L i) L' = 0 := by
  obtain ⟨p, h1, h2, h3⟩ := mem_index_row hb i
  have hrow : ∀ q, uvec l (b.L i) q = jG l p q := by
    intro q
    simp only [jG, Matrix.add_apply, of_apply, h3 hn q, add_zero, h1]
    rfl
  have hrow' : ∀ v, uvec l (b.L i) ⬝ᵥ ((jG l)⁻¹ *ᵥ v) = v p := by
    intro v
    have e1 : uvec l (b.L i) ⬝ᵥ ((jG l)⁻¹ *ᵥ v) = (jG l *ᵥ ((jG l)⁻¹ *ᵥ v)) p := by
      simp only [Matrix.mulVec, dotProduct, hrow]
    rw [e1, Matrix.mulVec_mulVec, Matrix.mul_nonsing_inv _ (jG_unit hG), Matrix.one_mulVec]
  constructor
  · show (b.L i).1 (postMeanF l) = _
    have e1 : (b.L i).1 (postMeanF l) = (b.L i).1 P.m + uvec l (b.L i) ⬝ᵥ ((jG l)⁻¹ *ᵥ jR l) := by
      simp only [postMeanF, map_add, map_sum, map_smul, smul_eq_mul, dotProduct, uvec]
      congr 1
      exact Finset.sum_congr rfl fun i _ => mul_comm _ _
    rw [e1, hrow', h2]
    ring
  · intro L'
    rw [posterior_cov', hrow']
    have : uvec l L' p = P.cov L' (b.L i) := by rw [← h1]; rfl
    rw [this, hP.symm, sub_self]

/-- C73: conditioning on a measurement `Y = L f + b` with a constant `b` is conditioning on `L f = Y - b`: this holds for the
posterior mean, and the quantity is not uncertain, whatever else is measured. -/
theorem deterministic_reproduced (e : Env) (he : e.CholOK) (hP : P.Regular) (b : Batch P) (l : List (Batch P))
    (hG : (jG (b :: l)).PosDef) (c : Cond P) (hc : run e b l = .ok c) (d : Batch P) (hd : d ∈ b :: l) (i : Fin d.n)
    (hn : ∀ j, d.noiseCov i j = 0) :
    (∀ r, c.functlMean (fun _ : Fin 1 => d.L i) r = d.Y i - d.bMean i) ∧ c.functlCov e (fun _ : Fin 1 => d.L i) = .ok 0 := by
  obtain ⟨h1, h2⟩ := functl_posterior e he hP b l hG c hc fun _ : Fin 1 => d.L i
  have key := deterministic_row hP hG hd i hn
  refine ⟨fun r => ?_, ?_⟩
  · rw [h1]; exact key.1
  · rw [h2]
    congr 1
    ext p q
    exact key.2 _

/-- Non-vacuity: the value at `2` observed as `5 = f(2) + 4`, beside a noisy measurement. -/
example (e : Env) (he : e.CholOK) : ∃ (b : Batch (white ℕ)) (c : Cond (white ℕ)), run e b [noisy1 1 5] = .ok c ∧
    c.functlMean (fun _ : Fin 1 => (white_regular ℕ).ev 2) 0 = 1 := by
  set b : Batch (white ℕ) := ⟨1, fun _ => (white_regular ℕ).ev 2, some (fun _ => 4, 0), fun _ => 5⟩ with hb
  have hG : (jG [b, noisy1 1 5]).PosDef := by
    refine white_posDef _ (fun i => ([2, 1] : List ℕ).getD i.1 0) ?_ ?_ ?_
    · rintro ⟨⟨p, hp⟩, r⟩ ⟨⟨q, hq⟩, s⟩ h
      have hr : ∀ (t : Fin 2) (u v : Fin ([b, noisy1 1 5].get t).n), u = v := by
        intro t
        fin_cases t <;> exact fun u v => Subsingleton.elim (α := Fin 1) u v
      have hpq : p = q := by
        simp only [List.length_cons, List.length_nil] at hp hq
        interval_cases p <;> interval_cases q <;> simp at h ⊢
      subst hpq
      exact congrArg _ (hr ⟨p, hp⟩ r s)
    · rintro ⟨p, r⟩
      fin_cases p <;> rfl
    · intro d hd
      simp only [List.mem_cons, List.not_mem_nil, or_false] at hd
      rcases hd with rfl | rfl
      · exact Matrix.PosSemidef.zero
      · exact Matrix.PosSemidef.one
  obtain ⟨c, hc, -⟩ := run_posterior e he (white_regular ℕ) b [noisy1 1 5] hG
  refine ⟨b, c, hc, ?_⟩
  rw [(deterministic_reproduced e he (white_regular ℕ) b [noisy1 1 5] hG c hc b List.mem_cons_self 0 fun _ => rfl).1 0]
  show (5 : ℝ) - 4 = 1
  norm_num

variable {d : ℕ} {I : Set (Ix d)} {K : Ix d → Pt d → Ix d → Pt d → ℝ}

/-- `collocation` for measurements with deterministic noise. -/
lemma collocation_noise (h : JetKernel I K) (hs : Strict I K) (m : jetF I) (e : Env) (he : e.CholOK) (b : Batch (h.prior m))
    (l : List (Batch (h.prior m))) (a : Idx (b :: l) → I →₀ ℝ) (x : Idx (b :: l) → Pt d) (hL : OpsAt h m (b :: l) a x)
    (hx : ∀ z, LinearIndependent ℝ fun i : {i // x i = z} => a i) (hN : NoisePSD (b :: l)) :
    ∃ c, run e b l = .ok c ∧ (jG (b :: l)).PosDef ∧
      ∃ J, HasJet I c.mean J ∧
        ∀ i : Idx (b :: l), (∀ j, ((b :: l).get i.1).noiseCov i.2 j = 0) →
          ((a i).sum fun α t => t * J α (x i)) = ((b :: l).get i.1).Y i.2 - ((b :: l).get i.1).bMean i.2 ∧
          c.functlCov e (fun _ : Fin 1 => h.op m (a i) (x i)) = .ok 0 := by
  have hP := jet_regular h m
  have hG : (jG (b :: l)).PosDef := jG_posDef_of_cov _ ((ops_cov h hs m hL).mpr hx) hN
  obtain ⟨c, hc, h1, h2⟩ := run_posterior e he hP b l hG
  have hm : c.mean = (postMeanF (b :: l)).1 := funext fun x => by rw [h1, postMeanF_apply]
  refine ⟨c, hc, hG, jet (postMeanF (b :: l)), hm ▸ jet_spec _, fun i hi => ?_⟩
  obtain ⟨r1, r2⟩ := deterministic_row hP hG (List.get_mem (b :: l) i.1) i.2 hi
  have hev : ((b :: l).get i.1).L i.2 = h.op m (a i) (x i) := hL i
  rw [hev] at r1 r2
  refine ⟨?_, ?_⟩
  · rw [← r1]
    exact (op_apply h m (a i) (x i) (postMeanF (b :: l))).symm
  · rw [(functl_posterior e he hP b l hG c hc _).2]
    congr 1
    ext p q
    exact r2 _

end LinPDE.GP
