import Verif.Cpu.Joint
import Verif.Cpu.Notebook1DProps
import Verif.GP.JointRows
import Verif.GP.Projection

/-! # C73: the one-dimensional notebook with unknown heat sources -/

namespace LinPDE.Cpu
open LinPDE.Piecewise LinPDE.GP LinPDE.Block LinPDE.Domains LinPDE.Solve LinPDE.Galerkin MeasureTheory
open LinPDE.Matern (DOp OpAt)
open LinPDE.Pde (val)

variable {c : Chip} {I : Set (Ix 1)} {K : Ix 1 → Pt 1 → Ix 1 → Pt 1 → ℝ} {q : Ufg I K}

/-- No functional of the process is known a priori. -/
structure Ufg.Strict (q : Ufg I K) : Prop where
  u : GP.Strict I K
  qV : IStrict q.kV
  qA : IStrict q.kA

lemma ufg_regular (q : Ufg I K) (o : Out) : (q.P o).Regular := by
  cases o
  · exact jet_regular q.jet q.mu
  · exact reindex_regular pt1 (lb_regular q.featV q.mV)
  · exact reindex_regular pt1 (lb_regular q.featA q.mA)

lemma ufg_nondegenerate (hs : q.Strict) (o : Out) : (q.P o).Nondegenerate := by
  cases o
  · exact jet_nondegenerate q.jet hs.u q.mu
  · exact reindex_nondegenerate pt1 (lb_var hs.qV q.mV)
  · exact reindex_nondegenerate pt1 (lb_var hs.qA q.mA)

lemma intV_apply (q : Ufg I K) {a b : ℝ} (hab : a ≤ b) (f : (q.P .qV).F) : (q.intV a b).1 f = ∫ t in a..b, f.1 fun _ => t := by
  rw [intervalIntegral.integral_of_le hab, ← integral_Icc_eq_integral_Ioc, ← integral_indicator measurableSet_Icc]
  show ∫ t, (Set.Icc a b).indicator 1 t * f.1 (fun _ => t) = _
  refine integral_congr_ae (Filter.Eventually.of_forall fun t => ?_)
  simp only [Set.indicator]
  split_ifs <;> simp

lemma stat_apply (h : c.Ok) (q : Ufg I K) (f : (indep q.P).F) :
    (q.stat c).1 f = c.height * (∫ t in (0 : ℝ)..c.width, f.1 (.qV, fun _ => t)) +
      c.height * (f.1 (.qA, fun _ => c.width) + f.1 (.qA, fun _ => 0)) := by
  have := intV_apply q h.width.le (sel q.P .qV f)
  show c.height * (q.intV 0 c.width).1 (sel q.P .qV f) + c.height * (f.1 (.qA, fun _ => c.width) + f.1 (.qA, fun _ => 0)) = _
  rw [this]
  rfl

/-- `L_stat` is not zero. -/
lemma stat_ne_zero (h : c.Ok) (q : Ufg I K) : q.stat c ≠ 0 := by
  intro h0
  set g : (q.P .qA).F := reUp (lbPrior q.featA q.mA) pt1 ⟨fun _ => 1, LB.of_continuous continuous_const⟩ with hg
  have h1 := stat_apply h q (emb q.P .qA g)
  rw [h0] at h1
  have e1 : ∀ t : Pt 1, (emb q.P .qA g).1 (.qV, t) = 0 := fun _ => rfl
  have e2 : ∀ t : Pt 1, (emb q.P .qA g).1 (.qA, t) = 1 := fun _ => rfl
  simp only [e1, e2] at h1
  have := h.height
  have h1 : (0 : ℝ) = _ := h1
  rw [intervalIntegral.integral_zero] at h1
  linarith

lemma stat_part (q : Ufg I K) : partOf .u (q.stat c) = 0 := by
  have e : ∀ (s : ℝ) (L M N : (indep q.P).Λ), partOf .u L = 0 → partOf .u M = 0 → partOf .u N = 0 → partOf .u (s • L + s • (M + N)) = 0 := by
    intro s L M N h1 h2 h3
    have e1 : partOf .u (s • L + s • (M + N)) = s • partOf .u L + s • (partOf .u M + partOf .u N) := rfl
    rw [e1, h1, h2, h3, add_zero, smul_zero, add_zero]
  exact e _ _ _ _ (partOf_onComp_ne (by decide) _) (partOf_onComp_ne (by decide) _) (partOf_onComp_ne (by decide) _)

section
variable (q) (c) (hΔ : orders (diffop 1 c.kappa) ⊆ I) (hD : ∀ u : Fin 1 → ℝ, orders (.dd u) ⊆ I) (n : ℕ) (y : List ℝ) (v : ℝ)

/-- The boundary conditions. -/
noncomputable abbrev bcs : (Dom × ℝ × ℝ) × (Dom × ℝ × ℝ) := ((.point0 0, -c.kappa * 1, c.qA1D), (.point0 c.width, -c.kappa * -1, c.qA1D))

/-- All the measurements. -/
noncomputable abbrev jointBatches : List (Batch (indep q.P)) :=
  [q.pdeB c hΔ n, q.fluxB hD (bcs c).1, q.fluxB hD (bcs c).2, q.dtsB c y v, q.statB c]

/-- What they measure of `u`. -/
noncomputable abbrev uObs : List (OpObs I × Kind1) :=
  [(⟨coefs (diffop 1 c.kappa) hΔ, (intervalGrid 0 c.width n (0.03 * c.width)).map fun x _ => x, [], none⟩, .pde),
    (Chip.fluxObs1D hD (bcs c).1, .deriv), (Chip.fluxObs1D hD (bcs c).2, .deriv), (c.dtsObs1D q.jet.zero_mem y v, .value)]

/-- The position among all the measurements. -/
noncomputable def toJoint : Idx (batches q.jet q.mu (uObs c q hΔ hD n y v)) → Idx (jointBatches c q hΔ hD n y v)
  | ⟨⟨0, _⟩, i⟩ => ⟨⟨0, by simp⟩, i⟩
  | ⟨⟨1, _⟩, i⟩ => ⟨⟨1, by simp⟩, i⟩
  | ⟨⟨2, _⟩, i⟩ => ⟨⟨2, by simp⟩, i⟩
  | ⟨⟨3, _⟩, i⟩ => ⟨⟨3, by simp⟩, i⟩

lemma toJoint_injective : Function.Injective (toJoint c q hΔ hD n y v) := by
  rintro ⟨⟨a, ha⟩, i⟩ ⟨⟨b, hb⟩, j⟩ h
  have ha' : a < 4 := ha
  have hb' : b < 4 := hb
  have hab : a = b := by
    have := congrArg (fun z => z.1.1) h
    interval_cases a <;> interval_cases b <;> first | rfl | (exfalso; simpa [toJoint] using this)
  subst hab
  refine congrArg _ ?_
  interval_cases a <;> exact eq_of_heq (Sigma.mk.inj h).2

lemma toJoint_range (a : Idx (jointBatches c q hΔ hD n y v)) : a = ⟨⟨4, by simp⟩, (0 : Fin 1)⟩ ∨ a ∈ Set.range (toJoint c q hΔ hD n y v) := by
  obtain ⟨⟨a, ha⟩, i⟩ := a
  have ha' : a < 5 := ha
  interval_cases a
  · exact Or.inr ⟨⟨⟨0, by simp⟩, i⟩, rfl⟩
  · exact Or.inr ⟨⟨⟨1, by simp⟩, i⟩, rfl⟩
  · exact Or.inr ⟨⟨⟨2, by simp⟩, i⟩, rfl⟩
  · exact Or.inr ⟨⟨⟨3, by simp⟩, i⟩, rfl⟩
  · exact Or.inl (congrArg _ (Subsingleton.elim (α := Fin 1) i 0))

lemma toJoint_part (b : Idx (batches q.jet q.mu (uObs c q hΔ hD n y v))) :
    partOf .u (jL (jointBatches c q hΔ hD n y v) (toJoint c q hΔ hD n y v b)) = jL (batches q.jet q.mu (uObs c q hΔ hD n y v)) b := by
  have eq : ∀ (o : Out) (ho : Out.u ≠ o) (L : (q.P .u).Λ) (M : (q.P o).Λ), partOf .u (onComp q.P .u L - onComp q.P o M) = L := by
    intro o ho L M
    rw [partOf_sub, partOf_onComp_same, partOf_onComp_ne ho]
    exact sub_zero L
  obtain ⟨⟨a, ha⟩, i⟩ := b
  have ha' : a < 4 := ha
  interval_cases a
  · exact eq .qV (by decide) _ _
  · obtain rfl : i = (0 : Fin 1) := Subsingleton.elim (α := Fin 1) i 0
    exact eq .qA (by decide) _ _
  · obtain rfl : i = (0 : Fin 1) := Subsingleton.elim (α := Fin 1) i 0
    exact eq .qA (by decide) _ _
  · exact partOf_onComp_same (P := q.P) .u _

lemma joint_posDef (h : c.Ok) (hs : q.Strict) (hv : 0 ≤ v) : (jG (jointBatches c q hΔ hD n y v)).PosDef := by
  have hκ := h.kappa
  have hw := h.width
  have hkey : ∀ w ∈ uObs c q hΔ hD n y v, Keyed (kindOp1 q.jet.zero_mem hΔ hD) w.1 w.2 := by
    intro w hw
    simp only [List.mem_cons, List.not_mem_nil, or_false] at hw
    rcases hw with rfl | rfl | rfl | rfl
    · exact ⟨⟨1, one_ne_zero, (one_smul _ _).symm⟩, fun z hz => by cases hz⟩
    · exact ⟨⟨-c.kappa * 1, by simpa using hκ.ne', rfl⟩, fun z hz => by cases hz⟩
    · exact ⟨⟨-c.kappa * -1, by simpa using hκ.ne', rfl⟩, fun z hz => by cases hz⟩
    · refine ⟨⟨1, one_ne_zero, (one_smul _ _).symm⟩, ?_⟩
      rintro z hz
      obtain rfl := Option.some.inj hz
      exact hv
  have hnd : ∀ k, (keyPts (uObs c q hΔ hD n y v) k).Nodup := by
    intro k
    cases k
    · simp only [keyPts, List.filter_cons, List.filter_nil, reduceCtorEq, decide_false, decide_true, if_true, if_false, List.flatMap_cons, List.flatMap_nil, List.append_nil,
        Bool.false_eq_true]
      exact (centersX_nodup h).map pt1_injective
    · simp only [keyPts, List.filter_cons, List.filter_nil, reduceCtorEq, decide_false, decide_true, if_true, if_false, List.flatMap_cons, List.flatMap_nil, List.append_nil,
        Bool.false_eq_true]
      show ([fun _ => 0, fun _ => c.width] : List (Pt 1)).Nodup
      refine List.nodup_cons.mpr ⟨fun hm => ?_, List.nodup_singleton _⟩
      exact hw.ne (congrFun (List.mem_singleton.mp hm) 0)
    · simp only [keyPts, List.filter_cons, List.filter_nil, reduceCtorEq, decide_false, decide_true, if_true, if_false, List.flatMap_cons, List.flatMap_nil, List.append_nil,
        Bool.false_eq_true]
      exact pdeObs_nodup h n
  have hu := (nondegenerate_gram_iff (jet_regular q.jet q.mu) (jet_nondegenerate q.jet hs.u q.mu) _).mp
    ((ops_cov q.jet hs.u q.mu (fun i => jL_ops q.jet q.mu (uObs c q hΔ hD n y v) i)).mpr
      (ops_independent q.jet q.mu (kindOp1_indep hκ.ne' q.jet.zero_mem hΔ hD) _ hkey hnd))
  refine jG_posDef_of_cov _ ((nondegenerate_gram_iff (indep_regular (ufg_regular q))
    ((indep_nondegenerate_iff (ufg_regular q)).mpr (ufg_nondegenerate hs)) _).mpr fun g hg a =>
      joint_li .u _ _ hu (toJoint c q hΔ hD n y v) (toJoint_injective c q hΔ hD n y v) (toJoint_part c q hΔ hD n y v) _
        (toJoint_range c q hΔ hD n y v) (stat_part q) (stat_ne_zero h q) g hg a) ?_
  intro b hb
  simp only [List.mem_cons, List.not_mem_nil, or_false] at hb
  rcases hb with rfl | rfl | rfl | rfl | rfl
  · exact Matrix.PosSemidef.zero
  · exact Matrix.PosSemidef.zero
  · exact Matrix.PosSemidef.zero
  · exact Matrix.PosSemidef.one.smul hv
  · exact Matrix.PosSemidef.zero

end

lemma hasDerivAt_of_dd {f : Pt 1 → ℝ} {x z : ℝ} (hz : OpAt (.dd fun _ => 1) f (fun _ => x) z) : HasDerivAt (fun t => f fun _ => t) z x := by
  have hz : HasDerivAt (fun t : ℝ => f ((fun _ => x) + t • fun _ => 1)) z 0 := hz
  have hz2 := HasDerivAt.comp x (h₂ := fun t : ℝ => f ((fun _ => x) + t • fun _ => 1)) (h := fun t => t - x)
    (by rw [sub_self]; exact hz) ((hasDerivAt_id x).sub_const x)
  rw [mul_one] at hz2
  have e1 : (fun t => f fun _ => t) = (fun t : ℝ => f ((fun _ => x) + t • fun _ => 1)) ∘ fun t => t - x := by
    funext t
    show _ = f _
    congr 1
    funext j
    simp
  rw [e1]
  exact hz2

/-- C73: the process of the outputs `u`, `q_V` and `q_A` can be conditioned on the heat equation with source `q_V` at the grid points, on
the fluxes `q_A` through both ends, on noisy temperature readings and on stationarity. The posterior means `U`, `V`, `A` satisfy `-κ U'' = V` at
the grid points, `-κ U' = A` at the left and `κ U' = A` at the right end, and the power balance: what flows out through the ends, computed from the
derivatives of `U`, is the integral of `V`. None of these quantities is left uncertain. -/
theorem notebook_1d_joint (h : c.Ok) (hs : q.Strict) (e : Env) (he : e.CholOK) (hΔ : orders (diffop 1 c.kappa) ⊆ I)
    (hD : ∀ u : Fin 1 → ℝ, orders (.dd u) ⊆ I) (n : ℕ) (y : List ℝ) {v : ℝ} (hv : 0 ≤ v) :
    ∃ post, q.cond c hΔ hD e n y v = .ok post ∧
      (∀ x ∈ intervalGrid 0 c.width n (0.03 * c.width),
        OpAt (.wl fun _ => -c.kappa) (fun p => post.mean (.u, p)) (fun _ => x) (post.mean (.qV, fun _ => x))) ∧
      (∃ l r, HasDerivAt (fun t => post.mean (.u, fun _ => t)) l 0 ∧ HasDerivAt (fun t => post.mean (.u, fun _ => t)) r c.width ∧
        -c.kappa * l = post.mean (.qA, fun _ => 0) ∧ c.kappa * r = post.mean (.qA, fun _ => c.width) ∧
        c.kappa * (r - l) = -∫ t in (0 : ℝ)..c.width, post.mean (.qV, fun _ => t)) ∧
      (∀ b ∈ [q.pdeB c hΔ n, q.fluxB hD (bcs c).1, q.fluxB hD (bcs c).2, q.statB c], ∀ i : Fin b.n,
        post.functlCov e (fun _ : Fin 1 => b.L i) = .ok 0) := by
  have hP := indep_regular (ufg_regular q)
  have hG := joint_posDef c q hΔ hD n y v h hs hv
  obtain ⟨post, hc, hm, -⟩ := run_posterior e he hP (q.pdeB c hΔ n) [q.fluxB hD (bcs c).1, q.fluxB hD (bcs c).2, q.dtsB c y v, q.statB c] hG
  set F := postMeanF (jointBatches c q hΔ hD n y v) with hF
  have hmean : ∀ p, post.mean p = F.1 p := fun p => by rw [hm, postMeanF_apply]
  have row : ∀ b ∈ jointBatches c q hΔ hD n y v, (∀ i j, b.noiseCov i j = 0) → ∀ i : Fin b.n, (b.L i).1 F = b.Y i - b.bMean i := fun b hb hn i =>
    (deterministic_row hP hG hb i (hn i)).1
  have hu : ∀ (a : I →₀ ℝ) (x : Pt 1), (q.jet.op q.mu a x).1 (sel q.P .u F) = a.sum fun α t => t * jet (sel q.P .u F) α x := fun a x =>
    op_apply q.jet q.mu a x (sel q.P .u F)
  have hJ : HasJet I (fun p => post.mean (.u, p)) (jet (sel q.P .u F)) := by
    have := jet_spec (sel q.P .u F)
    rwa [show (sel q.P .u F).1 = fun p => post.mean (.u, p) from funext fun p => (hmean (.u, p)).symm] at this
  have flux : ∀ (x s : ℝ) (b : Dom × ℝ × ℝ), Chip.ptOf b.1 = x → b.2.1 = s → q.fluxB hD b ∈ jointBatches c q hΔ hD n y v →
      ∃ z, HasDerivAt (fun t => post.mean (.u, fun _ => t)) z x ∧ s * z = post.mean (.qA, fun _ => x) := by
    intro x s b hx hs hb
    have h1 := row _ hb (fun _ _ => rfl) (0 : Fin 1)
    have h1 : (q.jet.op q.mu (b.2.1 • coefs (.dd fun _ => 1) (hD _)) fun _ => Chip.ptOf b.1).1 (sel q.P .u F) -
      F.1 (.qA, fun _ => Chip.ptOf b.1) = 0 - 0 := h1
    rw [hu, hx, hs, ← hmean, sub_self, sub_eq_zero] at h1
    obtain ⟨z, hz, hz'⟩ := opAt_smul q.jet.lower (hD _) trivial hJ _ h1
    exact ⟨z, hasDerivAt_of_dd hz, hz'⟩
  obtain ⟨l, hl, hl'⟩ := flux 0 (-c.kappa * 1) (bcs c).1 rfl rfl (by simp)
  obtain ⟨r, hr, hr'⟩ := flux c.width (-c.kappa * -1) (bcs c).2 rfl rfl (by simp)
  have hst : (q.stat c).1 F = 0 := by
    have := row (q.statB c) (by simp) (fun _ _ => rfl) (0 : Fin 1)
    have : (q.stat c).1 F = 0 - 0 := this
    rwa [sub_self] at this
  rw [stat_apply h] at hst
  simp only [← hmean] at hst
  refine ⟨post, hc, fun x hx => ?_, ⟨l, r, hl, hr, by linarith, by linarith, ?_⟩, ?_⟩
  · obtain ⟨i, hi, rfl⟩ := List.getElem_of_mem hx
    have h1 := row (q.pdeB c hΔ n) (by simp) (fun _ _ => rfl) (⟨i, by simpa [Ufg.pdeB, equationBatch] using hi⟩)
    have h1 : (q.jet.op q.mu (coefs (diffop 1 c.kappa) hΔ) (((intervalGrid 0 c.width n (0.03 * c.width)).map fun (x : ℝ) (_ : Fin 1) => x)[i]'(by simpa using hi))).1 (sel q.P .u F) -
      F.1 (.qV, fun _ => (((intervalGrid 0 c.width n (0.03 * c.width)).map fun (x : ℝ) (_ : Fin 1) => x)[i]'(by simpa using hi)) 0) = 0 - 0 := h1
    rw [hu, List.getElem_map, ← hmean, sub_self, sub_eq_zero] at h1
    rw [← one_smul ℝ (coefs (diffop 1 c.kappa) hΔ)] at h1
    obtain ⟨z, hz, hz'⟩ := opAt_smul (s := 1) q.jet.lower hΔ trivial hJ _ h1
    rw [one_mul] at hz'
    rwa [hz'] at hz
  · have hh := h.height
    have : (∫ t in (0 : ℝ)..c.width, post.mean (.qV, fun _ => t)) + (post.mean (.qA, fun _ => c.width) + post.mean (.qA, fun _ => 0)) = 0 := by
      have e1 : c.height * ((∫ t in (0 : ℝ)..c.width, post.mean (.qV, fun _ => t)) + (post.mean (.qA, fun _ => c.width) + post.mean (.qA, fun _ => 0))) = 0 := by
        linarith
      exact (mul_eq_zero.mp e1).resolve_left hh.ne'
    linarith
  · intro b hb i
    have hb' : b ∈ jointBatches c q hΔ hD n y v := by
      simp only [List.mem_cons, List.not_mem_nil, or_false] at hb ⊢
      tauto
    have hn : ∀ j, b.noiseCov i j = 0 := by
      simp only [List.mem_cons, List.not_mem_nil, or_false] at hb
      rcases hb with rfl | rfl | rfl | rfl <;> exact fun _ => rfl
    exact (deterministic_reproduced e he hP _ _ hG post hc b hb' i hn).2

/-- C73: the prior of cell 55 is stationary in the mean: conditioning on `L_stat` alone (cell 66) leaves the mean as it is. -/
theorem stat_alone (h : c.Ok) (hs : q.Strict) (e : Env) (he : e.CholOK) {rel : List ℝ} (hrel : (rel.take c.nx).sum ≠ 0) {g : PW}
    (hg : c.rhs1D rel = .ok g) (hV : ∀ x ∈ Set.Icc 0 c.width, q.mV.1 x = val g x) (hA : ∀ x, q.mA.1 x = c.qA1D) :
    ∃ post, run e (q.statB c) [] = .ok post ∧ (∀ p, post.mean p = (indep q.P).m.1 p) ∧
      post.functlCov e (fun _ : Fin 1 => q.stat c) = .ok 0 ∧ (indep q.P).cov (q.stat c) (q.stat c) ≠ 0 := by
  have hP := indep_regular (ufg_regular q)
  have hne : (indep q.P).cov (q.stat c) (q.stat c) ≠ 0 := fun h0 =>
    stat_ne_zero h q ((indep_nondegenerate_iff (ufg_regular q)).mpr (ufg_nondegenerate hs) _ h0)
  have huniq : ∀ a : Idx [q.statB c], a = ⟨⟨0, by simp⟩, (0 : Fin 1)⟩ := by
    rintro ⟨⟨a, ha⟩, i⟩
    obtain rfl : a = 0 := by simpa using ha
    exact congrArg _ (Subsingleton.elim (α := Fin 1) i 0)
  have hG : (jG [q.statB c]).PosDef := by
    refine jG_posDef_of_cov _ ((nondegenerate_gram_iff hP ((indep_nondegenerate_iff (ufg_regular q)).mpr (ufg_nondegenerate hs)) _).mpr fun w hw a => ?_) ?_
    · rw [Fintype.sum_eq_single a fun b hb => absurd ((huniq b).trans (huniq a).symm) hb] at hw
      refine (smul_eq_zero.mp hw).resolve_right ?_
      rw [huniq a]
      exact stat_ne_zero h q
    · intro b hb
      obtain rfl := List.mem_singleton.mp hb
      exact Matrix.PosSemidef.zero
  obtain ⟨post, hc, hm, -⟩ := run_posterior e he hP (q.statB c) [] hG
  refine ⟨post, hc, fun p => ?_, (deterministic_reproduced e he hP _ _ hG post hc (q.statB c) (by simp) (0 : Fin 1) fun _ => rfl).2, hne⟩
  have hR : jR [q.statB c] = 0 := by
    funext a
    rw [huniq a]
    show (0 : ℝ) - (q.stat c).1 (indep q.P).m - 0 = 0
    rw [stat_apply h]
    obtain ⟨g', k1, -, k2⟩ := power_balance_1d h hrel
    obtain rfl := Except.ok.inj (hg.symm.trans k1)
    have e1 : (∫ t in (0 : ℝ)..c.width, (indep q.P).m.1 (.qV, fun _ => t)) = ∫ t in (0 : ℝ)..c.width, val g t := by
      refine intervalIntegral.integral_congr fun t ht => ?_
      rw [Set.uIcc_of_le h.width.le] at ht
      exact hV t ht
    have e2 : ∀ t, (indep q.P).m.1 (.qA, t) = c.qA1D := fun t => hA _
    rw [e1, e2, e2]
    have hd := h.depth
    have k3 : c.depth * (c.height * (∫ t in (0 : ℝ)..c.width, val g t) + c.height * (c.qA1D + c.qA1D)) = 0 := by linarith
    have k4 := (mul_eq_zero.mp k3).resolve_left hd.ne'
    linarith
  rw [hm, postMean, hR, Matrix.mulVec_zero]
  simp

/-! ### The prior of cell 55 -/

/-- `0.9² · Matern(nu=0.5, lengthscales=width)`. -/
noncomputable def kHalf (w : ℝ) (x y : ℝ) : ℝ := 0.9 ^ 2 * Matern.phi 0 0 (1 / w * (x - y))

lemma kHalf_strict {w : ℝ} (hw : 0 < w) : IStrict (kHalf w) := (istrict_phi 0 (one_div_pos.mpr hw).ne').smul (by norm_num)

/-- The mean of `q_V` extends to an admissible function. -/
lemma exists_meanV (h : c.Ok) {rel : List ℝ} (hrel : (rel.take c.nx).sum ≠ 0) :
    ∃ (g : PW) (m : lbF), c.rhs1D rel = .ok g ∧ ∀ x ∈ Set.Icc 0 c.width, m.1 x = val g x := by
  obtain ⟨s, g, pts, h1, h2, hI, x0, x1, -⟩ := rhs_interp h hrel c.sink1D
  have hc := hI.continuousOn
  rw [x0, x1] at hc
  refine ⟨g, ⟨Set.IccExtend h.width.le fun x => val g x, LB.of_continuous ?_⟩, ?_, fun x hx => ?_⟩
  · exact (continuousOn_iff_continuous_restrict.mp hc).Icc_extend'
  · unfold Chip.rhs1D
    simp only [h1, Bind.bind, Except.bind, h2]
  · exact Set.IccExtend_of_mem h.width.le (fun x : Set.Icc 0 c.width => val g x) hx

/-- The process of cell 55, up to the constant mean of `u`. -/
noncomputable def cell55 (m : lbF) : Ufg (box fun j => (((![2] : Fin 1 → ℕ) j : ℕ) : ℕ∞)) fun α x β y => 3 ^ 2 * matK ![2] ![√5 / (0.75 * 16.28)] α x β y where
  jet := smul_jet (matern_jet ![2] ![√5 / (0.75 * 16.28)]) (show (0 : ℝ) ≤ 3 ^ 2 by norm_num)
  mu := 0
  kV := kHalf 16.28
  featV := (kHalf_strict (by norm_num)).feature
  mV := m
  kA := kHalf 16.28
  featA := (kHalf_strict (by norm_num)).feature
  mA := ⟨fun _ => coffeeLake.qA1D, LB.of_continuous continuous_const⟩

lemma cell55_strict (m : lbF) : (cell55 m).Strict :=
  ⟨smul_strict (matern_strict _ fun j => by fin_cases j; simp; norm_num) (by norm_num), kHalf_strict (by norm_num), kHalf_strict (by norm_num)⟩

/-- Non-vacuity: the chip, the prior and the grid of the notebook. -/
example (e : Env) (he : e.CholOK) (m : lbF) (y : List ℝ) : ∃ post : Cond (indep (cell55 m).P),
    (cell55 m).cond coffeeLake (matern1_orders _) matern1_orders_dd e 17 y (0.5 ^ 2) = .ok post ∧
      ∃ l r, HasDerivAt (fun t => post.mean (.u, fun _ => t)) l 0 ∧ HasDerivAt (fun t => post.mean (.u, fun _ => t)) r 16.28 ∧
        15.6 * (r - l) = -∫ t in (0 : ℝ)..16.28, post.mean (.qV, fun _ => t) := by
  obtain ⟨post, h1, -, ⟨l, r, h2, h3, -, -, h4⟩, -⟩ := notebook_1d_joint (c := coffeeLake) coffeeLake_ok (cell55_strict m) e he
    (matern1_orders _) matern1_orders_dd 17 y (v := 0.5 ^ 2) (by norm_num)
  rw [show coffeeLake.kappa = 15.6 by norm_num [coffeeLake]] at h4
  exact ⟨post, h1, l, r, h2, h3, h4⟩

/-- Non-vacuity: cell 66. -/
example (e : Env) (he : e.CholOK) : ∃ (m : lbF) (post : Cond (indep (cell55 m).P)), run e ((cell55 m).statB coffeeLake) [] = .ok post ∧
    post.mean (.qA, fun _ => 1) = coffeeLake.qA1D := by
  obtain ⟨g, m, hg, hm⟩ := exists_meanV (c := coffeeLake) coffeeLake_ok (rel := [1, 1, 1]) (by norm_num [coffeeLake])
  obtain ⟨post, h1, h2, -⟩ := stat_alone (c := coffeeLake) (q := cell55 m) coffeeLake_ok (cell55_strict m) e he (rel := [1, 1, 1])
    (by norm_num [coffeeLake]) hg hm fun _ => rfl
  exact ⟨m, post, h1, h2 _⟩

end LinPDE.Cpu
