import Verif.JaxFn.Model
import Mathlib.Analysis.Calculus.ContDiff.Operations
import Mathlib.Analysis.Calculus.FDeriv.Mul
import Mathlib.Analysis.SpecialFunctions.Trigonometric.Deriv
import Mathlib.Analysis.SpecialFunctions.ExpDeriv
import Mathlib.Analysis.Calculus.FDeriv.Pow

/-! # Derivatives of programs -/

namespace LinPDE.JaxFn
open Filter Topology

variable {d : ℕ}

/-- Around `x` every selection takes the same branch. -/
def Prog.Regular : Prog d → (Fin d → ℝ) → Prop
  | .var _, _ => True
  | .const _, _ => True
  | .add p q, x => p.Regular x ∧ q.Regular x
  | .mul p q, x => p.Regular x ∧ q.Regular x
  | .pow p _, x => p.Regular x
  | .sin p, x => p.Regular x
  | .cos p, x => p.Regular x
  | .exp p, x => p.Regular x
  | .sel c p q, x => ((∀ᶠ y in 𝓝 x, y ∈ c) ∧ p.Regular x) ∨ ((∀ᶠ y in 𝓝 x, y ∉ c) ∧ q.Regular x)

lemma Prog.Regular.eventually {p : Prog d} {x : Fin d → ℝ} (h : p.Regular x) : ∀ᶠ y in 𝓝 x, p.Regular y := by
  induction p with
  | var i => exact Eventually.of_forall fun _ => trivial
  | const c => exact Eventually.of_forall fun _ => trivial
  | add p q hp hq => exact (hp h.1).and (hq h.2)
  | mul p q hp hq => exact (hp h.1).and (hq h.2)
  | pow p n hp => exact hp h
  | sin p hp => exact hp h
  | cos p hp => exact hp h
  | exp p hp => exact hp h
  | sel c p q hp hq =>
    rcases h with ⟨h1, h2⟩ | ⟨h1, h2⟩
    · filter_upwards [eventually_eventually_nhds.mpr h1, hp h2] with y a b using Or.inl ⟨a, b⟩
    · filter_upwards [eventually_eventually_nhds.mpr h1, hq h2] with y a b using Or.inr ⟨a, b⟩

lemma Prog.Regular.jvp {p : Prog d} {x : Fin d → ℝ} (h : p.Regular x) (v : Fin d → ℝ) : (p.jvp v).Regular x := by
  induction p with
  | var i => trivial
  | const c => trivial
  | add p q hp hq => exact ⟨hp h.1, hq h.2⟩
  | mul p q hp hq => exact ⟨⟨hp h.1, h.2⟩, ⟨h.1, hq h.2⟩⟩
  | pow p n hp => exact ⟨⟨trivial, h⟩, hp h⟩
  | sin p hp => exact ⟨h, hp h⟩
  | cos p hp => exact ⟨⟨trivial, h⟩, hp h⟩
  | exp p hp => exact ⟨h, hp h⟩
  | sel c p q hp hq =>
    rcases h with ⟨h1, h2⟩ | ⟨h1, h2⟩
    · exact Or.inl ⟨h1, hp h2⟩
    · exact Or.inr ⟨h1, hq h2⟩

lemma eval_hasFDerivAt {p : Prog d} {x : Fin d → ℝ} (h : p.Regular x) :
    ∃ f' : (Fin d → ℝ) →L[ℝ] ℝ, HasFDerivAt p.eval f' x ∧ ∀ v, f' v = (p.jvp v).eval x := by
  induction p with
  | var i => exact ⟨ContinuousLinearMap.proj i, (ContinuousLinearMap.proj (R := ℝ) (φ := fun _ : Fin d => ℝ) i).hasFDerivAt, fun v => rfl⟩
  | const c => exact ⟨0, hasFDerivAt_const c x, fun v => rfl⟩
  | add p q hp hq =>
    obtain ⟨f, hf, ef⟩ := hp h.1
    obtain ⟨g, hg, eg⟩ := hq h.2
    exact ⟨f + g, hf.add hg, fun v => by simp [Prog.jvp, Prog.eval, ef, eg]⟩
  | mul p q hp hq =>
    obtain ⟨f, hf, ef⟩ := hp h.1
    obtain ⟨g, hg, eg⟩ := hq h.2
    exact ⟨_, hf.mul hg, fun v => by simp [Prog.jvp, Prog.eval, ef, eg]; ring⟩
  | pow p n hp =>
    obtain ⟨f, hf, ef⟩ := hp h
    exact ⟨_, hf.pow n, fun v => by simp [Prog.jvp, Prog.eval, ef]⟩
  | sin p hp =>
    obtain ⟨f, hf, ef⟩ := hp h
    exact ⟨_, hf.sin, fun v => by simp [Prog.jvp, Prog.eval, ef]⟩
  | cos p hp =>
    obtain ⟨f, hf, ef⟩ := hp h
    exact ⟨_, hf.cos, fun v => by simp [Prog.jvp, Prog.eval, ef]⟩
  | exp p hp =>
    obtain ⟨f, hf, ef⟩ := hp h
    exact ⟨_, hf.exp, fun v => by simp [Prog.jvp, Prog.eval, ef]⟩
  | sel c p q hp hq =>
    rcases h with ⟨h1, h2⟩ | ⟨h1, h2⟩
    · obtain ⟨f, hf, ef⟩ := hp h2
      refine ⟨f, hf.congr_of_eventuallyEq ?_, fun v => ?_⟩
      · filter_upwards [h1] with y hy
        simp [Prog.eval, hy]
      · simp [Prog.jvp, Prog.eval, h1.self_of_nhds, ef]
    · obtain ⟨f, hf, ef⟩ := hq h2
      refine ⟨f, hf.congr_of_eventuallyEq ?_, fun v => ?_⟩
      · filter_upwards [h1] with y hy
        simp [Prog.eval, hy]
      · simp [Prog.jvp, Prog.eval, h1.self_of_nhds, ef]

/-- The derivative of `g` in the direction `v`. -/
noncomputable def dd (v : Fin d → ℝ) (g : (Fin d → ℝ) → ℝ) : (Fin d → ℝ) → ℝ := fun y => fderiv ℝ g y v

/-- Successive directional derivatives. -/
noncomputable def dds (vs : List (Fin d → ℝ)) (g : (Fin d → ℝ) → ℝ) : (Fin d → ℝ) → ℝ := vs.foldl (fun g v => dd v g) g

lemma dd_congr {g h : (Fin d → ℝ) → ℝ} {x : Fin d → ℝ} (e : g =ᶠ[𝓝 x] h) (v : Fin d → ℝ) : dd v g =ᶠ[𝓝 x] dd v h := by
  filter_upwards [e.fderiv (𝕜 := ℝ)] with y hy
  show fderiv ℝ g y v = fderiv ℝ h y v
  rw [hy]

lemma dds_congr (vs : List (Fin d → ℝ)) {g h : (Fin d → ℝ) → ℝ} {x : Fin d → ℝ} (e : g =ᶠ[𝓝 x] h) : dds vs g =ᶠ[𝓝 x] dds vs h := by
  induction vs generalizing g h with
  | nil => exact e
  | cons v vs ih => exact ih (dd_congr e v)

lemma jvp_eval {p : Prog d} {x : Fin d → ℝ} (h : p.Regular x) (v : Fin d → ℝ) : (p.jvp v).eval x = dd v p.eval x := by
  obtain ⟨f, hf, ef⟩ := eval_hasFDerivAt h
  show _ = fderiv ℝ p.eval x v
  rw [hf.fderiv, ef]

lemma jvp_eval_eventually {p : Prog d} {x : Fin d → ℝ} (h : p.Regular x) (v : Fin d → ℝ) :
    (p.jvp v).eval =ᶠ[𝓝 x] dd v p.eval := by
  filter_upwards [h.eventually] with y hy using jvp_eval hy v

lemma jvps_eval (vs : List (Fin d → ℝ)) {p : Prog d} {x : Fin d → ℝ} (h : p.Regular x) :
    (vs.foldl (fun p v => p.jvp v) p).eval =ᶠ[𝓝 x] dds vs p.eval := by
  induction vs generalizing p with
  | nil => exact EventuallyEq.rfl
  | cons v vs ih => exact (ih (h.jvp v)).trans (dds_congr vs (jvp_eval_eventually h v))

open scoped ContDiff in
lemma contDiffAt_eval {p : Prog d} {x : Fin d → ℝ} (h : p.Regular x) : ContDiffAt ℝ ∞ p.eval x := by
  induction p with
  | var i => exact (ContinuousLinearMap.proj (R := ℝ) (φ := fun _ : Fin d => ℝ) i).contDiff.contDiffAt
  | const c => exact contDiffAt_const
  | add p q hp hq => exact (hp h.1).add (hq h.2)
  | mul p q hp hq => exact (hp h.1).mul (hq h.2)
  | pow p n hp => exact (hp h).pow n
  | sin p hp => exact (hp h).sin
  | cos p hp => exact (hp h).cos
  | exp p hp => exact (hp h).exp
  | sel c p q hp hq =>
    rcases h with ⟨h1, h2⟩ | ⟨h1, h2⟩
    · exact (hp h2).congr_of_eventuallyEq (by filter_upwards [h1] with y hy; simp [Prog.eval, hy])
    · exact (hq h2).congr_of_eventuallyEq (by filter_upwards [h1] with y hy; simp [Prog.eval, hy])

/-- Programs without selections are regular everywhere. -/
def Prog.Straight : Prog d → Prop
  | .var _ => True
  | .const _ => True
  | .add p q => p.Straight ∧ q.Straight
  | .mul p q => p.Straight ∧ q.Straight
  | .pow p _ => p.Straight
  | .sin p => p.Straight
  | .cos p => p.Straight
  | .exp p => p.Straight
  | .sel _ _ _ => False

lemma Prog.Straight.regular {p : Prog d} (h : p.Straight) (x : Fin d → ℝ) : p.Regular x := by
  induction p with
  | var i => trivial
  | const c => trivial
  | add p q hp hq => exact ⟨hp h.1, hq h.2⟩
  | mul p q hp hq => exact ⟨hp h.1, hq h.2⟩
  | pow p n hp => exact hp h
  | sin p hp => exact hp h
  | cos p hp => exact hp h
  | exp p hp => exact hp h
  | sel c p q hp hq => exact absurd h id

lemma eval_sumProg (ps : List (Prog d)) (x : Fin d → ℝ) : (sumProg ps).eval x = (ps.map fun p => p.eval x).sum := by
  induction ps with
  | nil => rfl
  | cons p ps ih => simp [sumProg, Prog.eval, ih]

lemma straight_sumProg {ps : List (Prog d)} (h : ∀ p ∈ ps, p.Straight) : (sumProg ps).Straight := by
  induction ps with
  | nil => trivial
  | cons p ps ih => exact ⟨h p (by simp), ih fun q hq => h q (by simp [hq])⟩

/-! ## Selections -/

open Classical in
lemma eval_selectLast (bs : List (Set (Fin d → ℝ) × Prog d)) (x : Fin d → ℝ) :
    (selectLast bs).eval x = bs.foldl (fun y b => if x ∈ b.1 then b.2.eval x else y) 0 := by
  unfold selectLast
  have key : ∀ (bs : List (Set (Fin d → ℝ) × Prog d)) (q : Prog d),
      (bs.foldl (fun y b => .sel b.1 b.2 y) q).eval x = bs.foldl (fun y b => if x ∈ b.1 then b.2.eval x else y) (q.eval x) := by
    intro bs
    induction bs with
    | nil => intro q; rfl
    | cons b bs ih =>
      intro q
      rw [List.foldl_cons, ih, List.foldl_cons]
      simp only [Prog.eval]
  exact key bs _

lemma jvp_selectLast (bs : List (Set (Fin d → ℝ) × Prog d)) (v : Fin d → ℝ) :
    (selectLast bs).jvp v = selectLast (bs.map fun b => (b.1, b.2.jvp v)) := by
  unfold selectLast
  have key : ∀ (bs : List (Set (Fin d → ℝ) × Prog d)) (q : Prog d),
      (bs.foldl (fun y b => .sel b.1 b.2 y) q).jvp v = (bs.map fun b => (b.1, b.2.jvp v)).foldl (fun y b => .sel b.1 b.2 y) (q.jvp v) := by
    intro bs
    induction bs with
    | nil => intro q; rfl
    | cons b bs ih =>
      intro q
      rw [List.foldl_cons, ih]
      rfl
  exact key bs _

lemma jvps_selectLast (vs : List (Fin d → ℝ)) (bs : List (Set (Fin d → ℝ) × Prog d)) :
    vs.foldl (fun p v => p.jvp v) (selectLast bs) = selectLast (bs.map fun b => (b.1, vs.foldl (fun p v => p.jvp v) b.2)) := by
  induction vs generalizing bs with
  | nil => simp
  | cons v vs ih =>
    rw [List.foldl_cons, jvp_selectLast, ih, List.map_map]
    rfl

lemma selectLast_at {bs : List (Set (Fin d → ℝ) × Prog d)} {x : Fin d → ℝ} {i : ℕ} (hi : i < bs.length) (h : x ∈ bs[i].1)
    (hr : ∀ j (hj : j < bs.length), i < j → x ∉ bs[j].1) : (selectLast bs).eval x = bs[i].2.eval x := by
  classical
  rw [eval_selectLast]
  have e : bs = bs.take i ++ bs[i] :: bs.drop (i + 1) := by
    rw [List.getElem_cons_drop, List.take_append_drop]
  have hd : ∀ c ∈ bs.drop (i + 1), x ∉ c.1 := by
    intro c hc
    obtain ⟨j, hj, rfl⟩ := List.getElem_of_mem hc
    rw [List.getElem_drop]
    exact hr _ _ (by omega)
  have hf : ∀ (l : List (Set (Fin d → ℝ) × Prog d)) (y : ℝ), (∀ c ∈ l, x ∉ c.1) →
      l.foldl (fun y b => if x ∈ b.1 then b.2.eval x else y) y = y := by
    intro l
    induction l with
    | nil => intros; rfl
    | cons c l ih =>
      intro y hl
      rw [List.foldl_cons, if_neg (hl c (by simp))]
      exact ih y fun c hc => hl c (by simp [hc])
  conv_lhs => rw [e]
  rw [List.foldl_append, List.foldl_cons, if_pos h, hf _ _ hd]

lemma selectLast_none {bs : List (Set (Fin d → ℝ) × Prog d)} {x : Fin d → ℝ} (h : ∀ b ∈ bs, x ∉ b.1) :
    (selectLast bs).eval x = 0 := by
  classical
  rw [eval_selectLast]
  induction bs with
  | nil => rfl
  | cons c l ih =>
    rw [List.foldl_cons, if_neg (h c (by simp))]
    exact ih fun c hc => h c (by simp [hc])

end LinPDE.JaxFn
