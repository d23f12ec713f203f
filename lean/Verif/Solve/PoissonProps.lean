import Verif.Solve.Grid

/-! # C69: the Poisson equation, from the problem to the posterior -/

namespace LinPDE.Solve
open LinPDE.Domains LinPDE.Pde LinPDE.GP LinPDE.Block Matrix
open LinPDE.Matern (DOp OpAt)

variable {d : ℕ} {I : Set (Ix d)} {K : Ix d → Pt d → Ix d → Pt d → ℝ}

/-- `-α Δ` (`_poisson.py:24`). -/
def poissonOp (d : ℕ) (α : ℝ) : DOp d := .wl fun _ => -α

lemma poisson_indep (h : JetKernel I K) {α : ℝ} (hα : α ≠ 0) (hd : d ≠ 0) (hI : orders (poissonOp d α) ⊆ I) :
    Indep h (coefs (poissonOp d α) hI) := by
  classical
  have hd' : Nonempty (Fin d) := ⟨⟨0, Nat.pos_of_ne_zero hd⟩⟩
  have hne : coefs (poissonOp d α) hI ≠ 0 := coefs_ne_zero _ _ fun h0 => by
    have := congrFun h0 hd'.some
    simp [hα] at this
  have h0 : coefs (poissonOp d α) hI ⟨0, h.zero_mem⟩ = 0 := by
    show (∑ j, Finsupp.single (⟨Pi.single j 2, hI ⟨j, rfl⟩⟩ : I) (-α)) ⟨0, h.zero_mem⟩ = 0
    rw [Finsupp.finsetSum_apply]
    refine Finset.sum_eq_zero fun j _ => Finsupp.single_eq_of_ne fun hj => ?_
    have := congrFun (congrArg Subtype.val hj) j
    simp at this
  unfold Indep
  rw [LinearIndependent.pair_iff]
  intro s t hst
  have h1 : s = 0 := by
    have := DFunLike.congr_fun hst ⟨0, h.zero_mem⟩
    simpa [h0] using this
  subst h1
  rw [zero_smul, zero_add] at hst
  exact ⟨rfl, (smul_eq_zero.mp hst).resolve_right hne⟩

lemma poisson_sum (h : JetKernel I K) {α : ℝ} (hI : orders (poissonOp d α) ⊆ I) {f : Pt d → ℝ} {J : Ix d → Pt d → ℝ} (hJ : HasJet I f J)
    (x : Pt d) {y : ℝ} (hy : ((opOf h (coefs (poissonOp d α) hI) true).sum fun β t => t * J β x) = y) : OpAt (poissonOp d α) f x y := by
  have hy : ((coefs (poissonOp d α) hI).sum fun β t => t * J β x) = y := hy
  rw [coefs_sum] at hy
  rw [← hy]
  exact opAt_of_jet h.lower _ hI trivial hJ x

/-! ## Intervals -/

/-- What the constructor does on an interval with two boundary values. -/
lemma mkPoissonProblem_interval {l r : ℝ} (h : l < r) {α : ℝ} (hα : α ≠ 0) (q sol : Option Fn) (ul ur : ℝ)
    (hq : ∀ s, q = some s → s.inS = [] ∧ s.outS = []) (hsol : ∀ s, sol = some s → s.inS = [] ∧ s.outS = []) :
    ∃ s, mkPoissonProblem (.dom (.interval l r)) q α (some (.array [2] [ul, ur])) sol = .ok
      ⟨⟨.interval l r, ⟨[], [], [], []⟩, q.getD (.zero [] [])⟩,
        [⟨.point0 l, ⟨[], [], [], []⟩, .const [] [] [ul]⟩, ⟨.point0 r, ⟨[], [], [], []⟩, .const [] [] [ur]⟩], s⟩ := by
  set f := q.getD (.zero [] []) with hf
  set pde : PDE := ⟨.interval l r, ⟨[], [], [], []⟩, f⟩ with hpde
  have hp : mkPoisson (.dom (.interval l r)) q = .ok pde := by
    show mkPDE (.dom (.interval l r)) ⟨[], [], [], []⟩ q = _
    rw [mkPDE_ok_iff]
    exact ⟨_, rfl, rfl, rfl, hq, rfl⟩
  obtain ⟨s, hs, hss⟩ : ∃ s : Option Fn, (match sol with
        | some s => .ok (some s)
        | none => autoSolution (.dom (.interval l r)) f [2] [ul, ur] α (.other [] [] fun _ => []) : Except Pde.Err (Option Fn)) = .ok s ∧
      ∀ u, s = some u → u.inS = [] ∧ u.outS = [] := by
    cases sol with
    | some s => exact ⟨_, rfl, hsol⟩
    | none =>
      unfold autoSolution
      cases f.constValue with
      | none => exact ⟨_, rfl, by simp⟩
      | some c =>
        refine ⟨some (ConstSol.fn ⟨l, r, [ul, (ur - ul) / (r - l), 0.5 * c / -α]⟩), ?_, fun u hu => by cases hu; exact ⟨rfl, rfl⟩⟩
        simp [mkConstSol, asdomain, hα, bind, Except.bind]
  refine ⟨s, ?_⟩
  set b0 : BC := ⟨.point0 l, ⟨[], [], [], []⟩, .const [] [] [ul]⟩ with hb0
  set b1 : BC := ⟨.point0 r, ⟨[], [], [], []⟩, .const [] [] [ur]⟩ with hb1
  have hbc : poissonConditions (.interval l r) (.array [2] [ul, ur]) = .ok [b0, b1] := by
    obtain ⟨D, hD⟩ : ∃ D : Dom, D = .interval l r := ⟨_, rfl⟩
    rw [← hD]
    show ((D.boundary.zip (rows 2 [] [ul, ur])).mapM _ : Except Pde.Err _) = _
    rw [show D.boundary = [.point0 l, .point0 r] by simp [hD, Dom.boundary]]
    have e : rows 2 [] [ul, ur] = [([], [ul]), ([], [ur])] := by simp [rows, List.range_succ]; rfl
    rw [e]
    have e0 : mkDirichlet (.dom (.point0 l)) (.array [] [ul]) = .ok b0 :=
      (mkDirichlet_ok_iff_partial _ _ _).mpr ⟨rfl, rfl, .inr ⟨[], [ul], rfl, rfl⟩⟩
    have e1 : mkDirichlet (.dom (.point0 r)) (.array [] [ur]) = .ok b1 :=
      (mkDirichlet_ok_iff_partial _ _ _).mpr ⟨rfl, rfl, .inr ⟨[], [ur], rfl, rfl⟩⟩
    simp only [List.zip_cons_cons, List.zip_nil_right, List.mapM_cons, List.mapM_nil, e0, e1]
    rfl
  have hbvp : mkBVP pde [b0, b1] s = .ok ⟨pde, [b0, b1], s⟩ :=
    (mkBVP_ok_iff _ _ _ _).mpr ⟨rfl, by simp [hb0, hb1, hpde, shapeOf, Dom.ndims], fun t ht => hss t ht⟩
  unfold mkPoissonProblem
  rw [hp]
  simp only [hpde, bind, Except.bind, Option.getD_some, shapeOf, Dom.ndims, if_true, endValues, hbc]
  cases sol with
  | some u =>
    cases hs
    exact hbvp
  | none =>
    simp only at hs
    simp only [hs]
    exact hbvp

/-- The observations of the script. -/
lemma poisson1Obs_eq {l r : ℝ} (q : Fn) (hq : q.inS = []) {g : ℝ → ℝ} (hg : ∀ x, q.ev [x] = [g x]) (ul ur : ℝ) (s : Option Fn) (n : ℕ) (δ : ℝ) :
    poisson1Obs ⟨⟨.interval l r, ⟨[], [], [], []⟩, q⟩,
        [⟨.point0 l, ⟨[], [], [], []⟩, .const [] [] [ul]⟩, ⟨.point0 r, ⟨[], [], [], []⟩, .const [] [] [ur]⟩], s⟩ n δ = .ok
      (⟨false, [(l, ul), (r, ur)].map fun z => ![z.1], [(l, ul), (r, ur)].map fun z => z.2, none⟩,
        ⟨true, (intervalGrid l r n δ).map fun x => ![x], (intervalGrid l r n δ).map g, none⟩) := by
  have hb : boundaryObservations [⟨.point0 l, ⟨[], [], [], []⟩, .const [] [] [ul]⟩, ⟨.point0 r, ⟨[], [], [], []⟩, .const [] [] [ur]⟩] =
      .ok ([l, r], [[ul], [ur]]) := by
    rw [boundaryObservations_ok_iff _ _ _ (by simp [Fn.inS, shapeOf, Dom.ndims])]
    exact ⟨_, _, l, r, rfl, rfl, rfl, rfl, rfl, rfl⟩
  have e1 := evalAt_ok hq (v := fun x => g (x.getD 0 0)) (xs := (intervalGrid l r n δ).map fun x => [x]) (by
    intro x hx
    obtain ⟨y, -, rfl⟩ := List.mem_map.mp hx
    exact hg y)
  have ept : ∀ x : ℝ, toPt 1 [x] = ![x] := fun x => by
    funext i
    fin_cases i
    rfl
  unfold poisson1Obs
  rw [hb]
  simp only [bind, Except.bind, uniformGrid, e1]
  simp [ept, Function.comp_def]

/-- C69: for the Poisson equation on an interval, with a process that is twice differentiable, both orders of conditioning of
the script (boundary values first or equation first) run through for every right-hand side, boundary values, number of points
and inset other than half the interval, and give the same posterior; its mean has the boundary values, solves the
equation at the grid points, and leaves neither uncertain. -/
theorem poisson1_solved {I : Set (Ix 1)} {K : Ix 1 → Pt 1 → Ix 1 → Pt 1 → ℝ} (h : JetKernel I K) (hs : Strict I K) (m : jetF I) (e : Env) (he : e.CholOK)
    {l r : ℝ} (hlr : l < r) {α : ℝ} (hα : α ≠ 0) (hI : orders (poissonOp 1 α) ⊆ I) (q sol : Option Fn) (ul ur : ℝ)
    (hq : ∀ s, q = some s → s.inS = [] ∧ s.outS = []) (hsol : ∀ s, sol = some s → s.inS = [] ∧ s.outS = []) {g : ℝ → ℝ}
    (hg : ∀ x, (q.getD (.zero [] [])).ev [x] = [g x]) (n : ℕ) {δ : ℝ} (hδ : 2 * δ ≠ r - l) :
    ∃ (P : BVP) (b o : Obs 1) (c c' : Cond (h.prior m)),
      mkPoissonProblem (.dom (.interval l r)) q α (some (.array [2] [ul, ur])) sol = .ok P ∧ poisson1Obs P n δ = .ok (b, o) ∧
      solve e h m (coefs (poissonOp 1 α) hI) b [o] = .ok c ∧ solve e h m (coefs (poissonOp 1 α) hI) o [b] = .ok c' ∧
      (∀ x, c.mean x = c'.mean x) ∧ (∀ x y, c.covfunc e x y = c'.covfunc e x y) ∧
      (∀ x u, (x, u) = (l, ul) ∨ (x, u) = (r, ur) → c.mean ![x] = u ∧
        c.functlCov e (fun _ : Fin 1 => h.op m (Finsupp.single ⟨0, h.zero_mem⟩ 1) ![x]) = .ok 0) ∧
      ∀ x ∈ intervalGrid l r n δ, OpAt (poissonOp 1 α) c.mean ![x] (g x) ∧
        c.functlCov e (fun _ : Fin 1 => h.op m (coefs (poissonOp 1 α) hI) ![x]) = .ok 0 := by
  obtain ⟨s, hP⟩ := mkPoissonProblem_interval hlr hα q sol ul ur hq hsol
  have hq' : (q.getD (.zero [] [])).inS = [] := by
    cases q with
    | none => rfl
    | some s => exact (hq s rfl).1
  have inj : Function.Injective fun x : ℝ => (![x] : Pt 1) := fun x y hxy => by simpa using congrFun hxy 0
  have hA := poisson_indep h hα one_ne_zero hI
  set b : Obs 1 := ⟨false, [(l, ul), (r, ur)].map fun z => ![z.1], [(l, ul), (r, ur)].map fun z => z.2, none⟩ with hb
  set o : Obs 1 := ⟨true, (intervalGrid l r n δ).map fun x => ![x], (intervalGrid l r n δ).map g, none⟩ with ho
  have hn : ∀ pde, (ptsOf pde [b, o]).Nodup := by
    intro pde
    cases pde
    · change ([![l], ![r]] ++ [] : List (Pt 1)).Nodup
      simp only [List.append_nil, List.nodup_cons, List.mem_singleton, List.not_mem_nil, not_false_eq_true, List.nodup_nil, and_true]
      exact fun hh => hlr.ne (inj hh)
    · change (((intervalGrid l r n δ).map fun x => (![x] : Pt 1)) ++ []).Nodup
      rw [List.append_nil]
      exact (intervalGrid_nodup (by intro hh; apply hδ; linarith) n).map inj
  obtain ⟨c, hc, J, hJ, hi⟩ := solve_spec h hs m e he hA b [o] hn (by
    intro w hw v hv
    simp only [List.mem_cons, List.not_mem_nil, or_false] at hw
    rcases hw with rfl | rfl <;> cases hv)
  have hG := (solvable_iff h hs m hA [b, o] (by simp [hb, ho])).mpr hn
  obtain ⟨c1, c', r1, r2, r3, r4⟩ := run_perm e he (jet_regular h m) (b.batch h m (coefs (poissonOp 1 α) hI))
    (o.batch h m (coefs (poissonOp 1 α) hI)) [o.batch h m (coefs (poissonOp 1 α) hI)] [b.batch h m (coefs (poissonOp 1 α) hI)]
    (List.Perm.swap _ _ _) hG
  obtain rfl : c = c1 := Except.ok.inj (hc.symm.trans r1)
  refine ⟨_, b, o, c, c', hP, poisson1Obs_eq _ hq' hg ul ur s n δ, hc, r2, r3, r4, fun x u hx => ?_, fun x hx => ?_⟩
  · have := obs_mem hi false [(l, ul), (r, ur)] (fun z => ![z.1]) (fun z => z.2) rfl (by simp [hb]) (z := (x, u)) (by
      simpa using hx)
    rw [value_sum h _ hJ] at this
    exact this
  · have := obs_mem hi true (intervalGrid l r n δ) (fun x => ![x]) g rfl (by simp [ho]) hx
    exact ⟨poisson_sum h hI hJ _ this.1, this.2⟩

/-- `0000_poisson_dirichlet_1d.ipynb`: a squared-exponential process and a constant right-hand side. -/
example (e : Env) (he : e.CholOK) : ∃ c : Cond ((smul_jet (expquad_jet (l := fun _ : Fin 1 => 1) fun _ => one_ne_zero) (by norm_num : (0 : ℝ) ≤ 2 ^ 2)).prior 0),
    c.mean ![-1] = 0 ∧ c.mean ![1] = 1 ∧ ∀ x ∈ intervalGrid (-1) 1 3 0.2, OpAt (poissonOp 1 1) c.mean ![x] 2 := by
  obtain ⟨P, b, o, c, c', -, -, -, -, -, -, k1, k2⟩ := poisson1_solved
    (smul_jet (expquad_jet (l := fun _ : Fin 1 => 1) fun _ => one_ne_zero) (by norm_num : (0 : ℝ) ≤ 2 ^ 2))
    (smul_strict (expquad_strict fun _ => one_ne_zero) (by norm_num)) 0 e he (l := -1) (r := 1) (by norm_num) (α := 1) one_ne_zero
    (orders_univ _) (some (.const [] [] [2])) none 0 1 (fun s hs => by cases hs; exact ⟨rfl, rfl⟩) (by simp) (g := fun _ => 2)
    (fun x => rfl) 3 (δ := 0.2) (by norm_num)
  exact ⟨c, (k1 _ _ (.inl rfl)).1, (k1 _ _ (.inr rfl)).1, fun x hx => (k2 x hx).1⟩

/-! ## Boxes -/

/-- The sides of a box, as boxes with one collapsed axis. -/
def faces : List (ℝ × ℝ) → List (List (ℝ × ℝ))
  | [] => []
  | b :: bs => [(b.1, b.1) :: bs, (b.2, b.2) :: bs] ++ (faces bs).map fun f => b :: f

/-- Points of a (possibly collapsed) box away from the ends of the axes that are not collapsed. -/
def Inside (bs : List (ℝ × ℝ)) (p : List ℝ) : Prop :=
  List.Forall₂ (fun b x => (b.1 = b.2 ∧ x = b.1) ∨ (b.1 < x ∧ x < b.2)) bs p

lemma boxBoundary_faces : ∀ {bs : List (ℝ × ℝ)}, (∀ b ∈ bs, b.1 < b.2) → boxBoundary bs = (faces bs).map fun f => f.map boxFactor
  | [], _ => rfl
  | b :: bs, h => by
    have hb := (h b List.mem_cons_self).ne
    simp only [boxBoundary, leafBoundary, if_pos hb, faces, List.map_append, List.map_map, List.map_cons, List.map_nil,
      boxBoundary_faces fun c hc => h c (List.mem_cons_of_mem _ hc)]
    simp [boxFactor, Function.comp_def]

/-- Every side has the number of axes of the box, one of them collapsed, and no new extents. -/
lemma faces_spec : ∀ {bs : List (ℝ × ℝ)}, (∀ b ∈ bs, b.1 < b.2) → ∀ f ∈ faces bs,
    f.length = bs.length ∧ (interior f).length = bs.length - 1 ∧ ∀ b ∈ f, b.1 = b.2 ∨ b ∈ bs
  | [], _, f, hf => by cases hf
  | b :: bs, h, f, hf => by
    have hi : interior bs = bs := List.filter_eq_self.mpr fun c hc => by simpa using (h c (List.mem_cons_of_mem _ hc)).ne
    have hb := (h b List.mem_cons_self).ne
    simp only [faces, List.cons_append, List.nil_append, List.mem_cons, List.mem_map] at hf
    rcases hf with rfl | rfl | ⟨g, hg, rfl⟩
    · refine ⟨rfl, ?_, fun c hc => ?_⟩
      · have : interior ((b.1, b.1) :: bs) = interior bs := by simp [Domains.interior]
        rw [this, hi]
        rfl
      · rcases List.mem_cons.mp hc with rfl | hc
        · exact .inl rfl
        · exact .inr (List.mem_cons_of_mem _ hc)
    · refine ⟨rfl, ?_, fun c hc => ?_⟩
      · have : interior ((b.2, b.2) :: bs) = interior bs := by simp [Domains.interior]
        rw [this, hi]
        rfl
      · rcases List.mem_cons.mp hc with rfl | hc
        · exact .inl rfl
        · exact .inr (List.mem_cons_of_mem _ hc)
    · obtain ⟨h1, h2, h3⟩ := faces_spec (fun c hc => h c (List.mem_cons_of_mem _ hc)) g hg
      refine ⟨by simp [h1], ?_, fun c hc => ?_⟩
      · have : interior (b :: g) = b :: interior g := by simp [Domains.interior, hb]
        rw [this, List.length_cons, h2, List.length_cons]
        have : bs ≠ [] := by
          rintro rfl
          cases hg
        have := List.length_pos_of_ne_nil this
        omega
      · rcases List.mem_cons.mp hc with rfl | hc
        · exact .inr List.mem_cons_self
        · exact (h3 c hc).imp_right (List.mem_cons_of_mem _)

/-- Different sides meet only at their ends. -/
lemma faces_disjoint : ∀ {bs : List (ℝ × ℝ)}, (∀ b ∈ bs, b.1 < b.2) → (faces bs).Pairwise fun f g => ∀ p, Inside f p → ¬ Inside g p
  | [], _ => List.Pairwise.nil
  | b :: bs, h => by
    have hb := h b List.mem_cons_self
    have ih := faces_disjoint fun c hc => h c (List.mem_cons_of_mem _ hc)
    have hcol : ∀ {c x : ℝ}, ((c, c).1 = (c, c).2 ∧ x = (c, c).1) ∨ ((c, c).1 < x ∧ x < (c, c).2) → x = c := by
      rintro c x (h | h)
      · exact h.2
      · exact absurd (h.1.trans h.2) (lt_irrefl _)
    have hfull : ∀ {x : ℝ}, (b.1 = b.2 ∧ x = b.1) ∨ (b.1 < x ∧ x < b.2) → b.1 < x ∧ x < b.2 := by
      rintro x (h | h)
      · exact absurd h.1 hb.ne
      · exact h
    simp only [faces, List.cons_append, List.nil_append, List.pairwise_cons, List.mem_cons, List.mem_map, List.pairwise_map]
    refine ⟨?_, ?_, ?_⟩
    · rintro g (rfl | ⟨g, -, rfl⟩) p hp hq
      · cases hp with
        | cons hx _ => cases hq with
          | cons hy _ => exact hb.ne ((hcol hx).symm.trans (hcol hy))
      · cases hp with
        | cons hx _ => cases hq with
          | cons hy _ => exact (hfull hy).1.ne' (hcol hx)
    · rintro g ⟨g, -, rfl⟩ p hp hq
      cases hp with
      | cons hx _ => cases hq with
        | cons hy _ => exact (hfull hy).2.ne (hcol hx)
    · refine ih.imp fun {f g} hfg p hp hq => ?_
      cases hp with
      | cons _ hp => cases hq with
        | cons _ hq => exact hfg _ hp hq

/-- The axes of a uniform grid. -/
lemma factors_spec {ε : ℝ} : ∀ (bs : List (ℝ × ℝ)) (shape : List ℕ) (inset : List ℝ) (fs : List (List ℝ)), (∀ x ∈ inset, x = ε) →
    boxGridFactors bs shape inset = .ok fs →
    List.Forall₂ (fun b g => (b.1 = b.2 ∧ g = [b.1]) ∨ (b.1 ≠ b.2 ∧ ∃ n, g = intervalGrid b.1 b.2 n ε)) bs fs
  | [], shape, inset, fs, _, e => by
    cases shape <;> cases inset <;> simp [boxGridFactors] at e
    subst e
    exact .nil
  | b :: bs, shape, inset, fs, hε, e => by
    by_cases hb : b.1 = b.2
    · rw [bgf_col hb] at e
      cases h3 : boxGridFactors bs shape inset with
      | error err => rw [h3] at e; cases e
      | ok r =>
        rw [h3] at e
        cases e
        exact .cons (.inl ⟨hb, rfl⟩) (factors_spec bs shape inset r hε h3)
    · cases shape with
      | nil => rw [bgf_nil hb] at e; cases e
      | cons n shape =>
        cases inset with
        | nil => simp only [boxGridFactors, if_neg hb] at e; cases e
        | cons x inset =>
          rw [bgf_int hb] at e
          cases h3 : boxGridFactors bs shape inset with
          | error err => rw [h3] at e; cases e
          | ok r =>
            rw [h3] at e
            cases e
            exact .cons (.inr ⟨hb, n, by rw [hε x List.mem_cons_self]⟩)
              (factors_spec bs shape inset r (fun y hy => hε y (List.mem_cons_of_mem _ hy)) h3)

lemma asShape_length {k : ℕ} {shape sh : List ℕ} (h : asShape k shape = .ok sh) : sh.length = k := by
  unfold asShape at h
  split at h
  · cases h
    simp
  · split_ifs at h with h1
    cases h
    exact h1

/-- The uniform grid of a box: distinct points, strictly inside if the inset is positive. -/
lemma boxUniform_spec {bs : List (ℝ × ℝ)} {shape sh : List ℕ} (hsh : asShape (interior bs).length shape = .ok sh) {ε : ℝ}
    (hε : ∀ b ∈ bs, b.1 ≠ b.2 → b.1 + ε ≠ b.2 - ε) :
    ∃ xs, boxUniform bs shape ε = .ok xs ∧ xs.length = sh.prod ∧ xs.Nodup ∧ (∀ x ∈ xs, x.length = bs.length) ∧
      ((∀ b ∈ bs, b.1 ≠ b.2 → 0 < ε ∧ ε < b.2 - b.1) → ∀ x ∈ xs, Inside bs x) := by
  obtain ⟨fs, e, hpr, hl⟩ := boxGridFactors_ok bs sh (List.replicate (interior bs).length ε) (asShape_length hsh) (by simp)
  have hF := factors_spec (ε := ε) bs sh _ fs (fun x hx => (List.mem_replicate.mp hx).2) e
  refine ⟨gridPoints fs, ?_, (gridPoints_length fs).trans hpr, ?_, ?_, ?_⟩
  · unfold boxUniform
    change (asShape (interior bs).length shape >>= fun s => liftDom (boxGrid bs s (List.replicate (interior bs).length ε)) : Except Pde.Err _) = _
    rw [hsh]
    show liftDom (boxGrid bs sh _) = _
    unfold boxGrid
    rw [e]
    rfl
  · refine gridPoints_nodup fun g hg => ?_
    obtain ⟨i, hi, rfl⟩ := List.getElem_of_mem hg
    rcases hF.get (i := i) (by omega) hi with ⟨-, h2⟩ | ⟨h1, n, h2⟩
    · simp only [List.get_eq_getElem] at h2
      rw [h2]
      exact List.nodup_singleton _
    · simp only [List.get_eq_getElem] at h1 h2
      rw [h2]
      exact intervalGrid_nodup (hε _ (List.getElem_mem _) h1) n
  · intro x hx
    rw [← hl]
    exact ((gridPoints_spec fs x).mp hx).length_eq.symm
  · intro hpos x hx
    rw [gridPoints_spec] at hx
    clear e hl hsh hε hpr
    induction hF generalizing x with
    | nil =>
      cases hx
      exact .nil
    | @cons b g bs gs hbg _ ih =>
      cases hx with
      | cons hy hx =>
        refine .cons ?_ (ih (fun c hc => hpos c (List.mem_cons_of_mem _ hc)) _ hx)
        rcases hbg with ⟨h1, rfl⟩ | ⟨h1, n, rfl⟩
        · exact .inl ⟨h1, List.mem_singleton.mp hy⟩
        · obtain ⟨h2, h3⟩ := hpos b List.mem_cons_self h1
          exact .inr (intervalGrid_inside h2 h3 hy)

/-- The product of the axes of a box is the box. -/
lemma uniformGrid_face {f : List (ℝ × ℝ)} (hne : f ≠ []) (hf : ∀ b ∈ f, b.1 ≤ b.2) (shape : List ℕ) (ε : ℝ) :
    uniformGrid (.prod (f.map boxFactor)) shape ε = boxUniform f shape ε := by
  have h1 : (f.map boxFactor).all Dom.boxLike = true := by
    rw [List.all_eq_true]
    intro x hx
    obtain ⟨b, -, rfl⟩ := List.mem_map.mp hx
    unfold boxFactor
    split_ifs <;> rfl
  have h2 : asBoxBounds (f.map boxFactor) = .ok f := by
    clear hne hf h1
    induction f with
    | nil => rfl
    | cons b f ih =>
      rw [List.map_cons]
      by_cases hb : b.1 = b.2
      · rw [boxFactor, if_neg (by simpa using hb)]
        simp only [asBoxBounds, ih]
        show Except.ok ((b.1, b.1) :: f) = _
        rw [show (b.1, b.1) = b from Prod.ext rfl hb]
      · rw [boxFactor, if_pos hb]
        simp only [asBoxBounds, ih]
        rfl
  have h3 : asBox (f.map boxFactor) = .ok (some (.box f)) := by
    unfold asBox
    rw [if_pos h1, h2]
    show (if f.isEmpty then _ else _ : Except Domains.Err _) = _
    rw [if_neg (by simpa using hne)]
    unfold mkBox
    rw [if_pos (by simpa using fun a b hab => hf (a, b) hab)]
    rfl
  simp only [uniformGrid, h3]
  rfl

lemma sizeL_factors : ∀ f : List (ℝ × ℝ), sizeL (f.map boxFactor) = f.length
  | [] => rfl
  | b :: f => by
    rw [List.map_cons, sizeL, sizeL_factors f, List.length_cons, add_comm]
    congr 1
    unfold boxFactor
    split_ifs <;> rfl

/-- The points of a grid, if there is one. -/
noncomputable def pointsOf (r : Except Pde.Err (List (List ℝ))) : List (List ℝ) :=
  match r with
  | .ok xs => xs
  | .error _ => []

/-- The observations of the script on a box. -/
lemma poissonObs_eq {bs : List (ℝ × ℝ)} (hbs : ∀ b ∈ bs, b.1 < b.2) (hd : bs.length = d) (α : ℝ) (f rhs : Fn)
    (hr : rhs.inS = [d] ∧ rhs.outS = []) (hf : f.inS = [d]) {u g : List ℝ → ℝ} (hu : ∀ x, f.ev x = [u x]) (hg : ∀ x, rhs.ev x = [g x])
    (nBc nPde : List ℕ) (ε : ℝ) (hB : ∀ F ∈ faces bs, ∃ xs, boxUniform F nBc ε = .ok xs) {xp : List (List ℝ)} (hP : boxUniform bs nPde 0 = .ok xp) :
    ∃ P, mkPoissonProblem (.dom (.box bs)) (some rhs) α (some (.fn f)) none = .ok P ∧ poissonObs d P nBc nPde ε = .ok
      ((faces bs).map (fun F => ⟨false, (pointsOf (boxUniform F nBc ε)).map (toPt d), (pointsOf (boxUniform F nBc ε)).map u, none⟩) ++
        [⟨true, xp.map (toPt d), xp.map g, none⟩]) := by
  obtain ⟨D, hD⟩ : ∃ D : Dom, D = .box bs := ⟨_, rfl⟩
  have hDb : D.boundary = (faces bs).map fun F => .prod (F.map boxFactor) := by
    rw [hD, Dom.boundary, boxBoundary_faces hbs, List.map_map]
    rfl
  have hsh : shapeOf D = [d] := by simp [hD, shapeOf, Dom.ndims, Dom.size, hd]
  have hle : ∀ F ∈ faces bs, F ≠ [] ∧ ∀ b ∈ F, b.1 ≤ b.2 := by
    intro F hF
    obtain ⟨h1, -, h3⟩ := faces_spec hbs F hF
    refine ⟨?_, fun b hb => ?_⟩
    · rintro rfl
      have : bs = [] := List.length_eq_zero_iff.mp h1.symm
      subst this
      cases hF
    · rcases h3 b hb with h | h
      · exact h.le
      · exact (hbs b h).le
  have hsF : ∀ b ∈ D.boundary, shapeOf b = shapeOf D := by
    intro b hb
    rw [hDb] at hb
    obtain ⟨F, hF, rfl⟩ := List.mem_map.mp hb
    rw [hsh]
    simp [shapeOf, Dom.ndims, Dom.size, sizeL_factors, (faces_spec hbs F hF).1, hd]
  obtain ⟨P, h1, h2, h3, h4⟩ := poissonProblem_fn D (by simp [hD, Dom.ndims]) α f rhs (by rw [hsh]; exact hr) hsF (by rw [hsh]; exact hf)
  refine ⟨P, hD ▸ h1, ?_⟩
  let G : Dom → Obs d := fun b => ⟨false, (pointsOf (uniformGrid b nBc ε)).map (toPt d), (pointsOf (uniformGrid b nBc ε)).map u, none⟩
  have hm : P.bcs.mapM (fun b => do
      let x ← uniformGrid b.boundary nBc ε
      let y ← evalAt b.values [d] x
      .ok (⟨false, x.map (toPt d), y, none⟩ : Obs d)) = (.ok (P.bcs.map fun b => G b.boundary) : Except Pde.Err _) := by
    refine mapM_ok _ _ _ fun b hb => ?_
    have hb' : (b.boundary, b.values) ∈ D.boundary.map fun b => (b, f) := h2 ▸ List.mem_map_of_mem (f := fun b : BC => (b.boundary, b.values)) hb
    obtain ⟨b0, hb0, hbe⟩ := List.mem_map.mp hb'
    obtain ⟨rfl, hv⟩ := Prod.mk.inj hbe
    rw [hDb] at hb0
    obtain ⟨F, hF, hFb⟩ := List.mem_map.mp hb0
    obtain ⟨xs, hxs⟩ := hB F hF
    have hgrid : uniformGrid b.boundary nBc ε = .ok xs := by
      rw [← hFb, uniformGrid_face (hle F hF).1 (hle F hF).2, hxs]
    have hev := evalAt_ok hf (v := u) (xs := xs) fun x _ => hu x
    rw [← hv]
    simp only [G, hgrid, bind, Except.bind, hev, pointsOf]
  have hmap : (P.bcs.map fun b => G b.boundary) =
      (faces bs).map (fun F => ⟨false, (pointsOf (boxUniform F nBc ε)).map (toPt d), (pointsOf (boxUniform F nBc ε)).map u, none⟩) := by
    have h5 : P.bcs.map (fun b => b.boundary) = D.boundary := by
      have := congrArg (List.map Prod.fst) h2
      simpa [List.map_map, Function.comp_def] using this
    have h6 : (P.bcs.map fun b => G b.boundary) = (P.bcs.map fun b => b.boundary).map G := by rw [List.map_map]; rfl
    rw [h6, h5, hDb, List.map_map]
    refine List.map_congr_left fun F hF => ?_
    simp only [Function.comp_def, G, uniformGrid_face (hle F hF).1 (hle F hF).2]
  have hp : uniformGrid P.pde.domain nPde 0 = .ok xp := by rw [h3, hD]; exact hP
  have hev := evalAt_ok (f := P.pde.rhs) (shape := [d]) (by rw [h4]; exact hr.1) (v := g) (xs := xp) fun x _ => by rw [h4]; exact hg x
  unfold poissonObs
  rw [hm]
  simp only [bind, Except.bind, hp, hev, hmap]

lemma pts_values {Z : Type} (zs : List Z) (φ : Z → List (Pt d)) (ψ : Z → List ℝ) (X : List (Pt d)) (Y : List ℝ) :
    ptsOf false (zs.map (fun z => (⟨false, φ z, ψ z, none⟩ : Obs d)) ++ [⟨true, X, Y, none⟩]) = zs.flatMap φ := by
  unfold ptsOf
  rw [List.filter_append, List.filter_eq_self.mpr (by simp)]
  simp [List.flatMap_map]

lemma pts_pde {Z : Type} (zs : List Z) (φ : Z → List (Pt d)) (ψ : Z → List ℝ) (X : List (Pt d)) (Y : List ℝ) :
    ptsOf true (zs.map (fun z => (⟨false, φ z, ψ z, none⟩ : Obs d)) ++ [⟨true, X, Y, none⟩]) = X := by
  unfold ptsOf
  rw [List.filter_append, List.filter_eq_nil_iff.mpr (by simp)]
  simp

/-- The observations of the script on a box: distinct points on the sides and in the domain. -/
lemma poissonObs_spec {bs : List (ℝ × ℝ)} (hbs : ∀ b ∈ bs, b.1 < b.2) (hd : bs.length = d) (h0 : d ≠ 0) (α : ℝ)
    (f rhs : Fn) (hr : rhs.inS = [d] ∧ rhs.outS = []) (hf : f.inS = [d]) {u g : List ℝ → ℝ} (hu : ∀ x, f.ev x = [u x]) (hg : ∀ x, rhs.ev x = [g x])
    (nBc nPde sB sP : List ℕ) (hB : asShape (d - 1) nBc = .ok sB) (hP : asShape d nPde = .ok sP) {ε : ℝ} (hε : 0 < ε)
    (hε' : ∀ b ∈ bs, ε < b.2 - b.1 ∧ 2 * ε ≠ b.2 - b.1) {O : List (ℝ × ℝ) → Obs d}
    (hOdef : O = fun F => ⟨false, (pointsOf (boxUniform F nBc ε)).map (toPt d), (pointsOf (boxUniform F nBc ε)).map u, none⟩) :
    ∃ (P : BVP) (xp : List (List ℝ)), mkPoissonProblem (.dom (.box bs)) (some rhs) α (some (.fn f)) none = .ok P ∧
      poissonObs d P nBc nPde ε = .ok ((faces bs).map O ++ [⟨true, xp.map (toPt d), xp.map g, none⟩]) ∧
      (∀ F ∈ faces bs, F ≠ [] ∧ (∀ b ∈ F, b.1 ≤ b.2) ∧ (interior F).length = d - 1 ∧ F.length = d ∧ ∀ b ∈ F, b.1 = b.2 ∨ b ∈ bs) ∧
      (∀ F ∈ faces bs, boxUniform F nBc ε = .ok (pointsOf (boxUniform F nBc ε)) ∧ (pointsOf (boxUniform F nBc ε)).length = sB.prod) ∧
      boxUniform bs nPde 0 = .ok xp ∧ xp.length = sP.prod ∧
      ∀ pde, (ptsOf pde ((faces bs).map O ++ [⟨true, xp.map (toPt d), xp.map g, none⟩])).Nodup := by
  have hii : interior bs = bs := List.filter_eq_self.mpr fun c hc => by simpa using (hbs c hc).ne
  have hface : ∀ F ∈ faces bs, F ≠ [] ∧ (∀ b ∈ F, b.1 ≤ b.2) ∧ (interior F).length = d - 1 ∧ F.length = d ∧ ∀ b ∈ F, b.1 = b.2 ∨ b ∈ bs := by
    intro F hF
    obtain ⟨h1, h2, h3⟩ := faces_spec hbs F hF
    refine ⟨?_, fun b hb => ?_, hd ▸ h2, h1.trans hd, h3⟩
    · rintro rfl
      exact h0 (hd.symm.trans h1.symm)
    · rcases h3 b hb with h | h
      · exact h.le
      · exact (hbs b h).le
  have hgrid : ∀ F ∈ faces bs, boxUniform F nBc ε = .ok (pointsOf (boxUniform F nBc ε)) ∧ (pointsOf (boxUniform F nBc ε)).length = sB.prod ∧
      (pointsOf (boxUniform F nBc ε)).Nodup ∧ (∀ x ∈ pointsOf (boxUniform F nBc ε), x.length = d) ∧
      ∀ x ∈ pointsOf (boxUniform F nBc ε), Inside F x := by
    intro F hF
    obtain ⟨-, -, h2, h3, h4⟩ := hface F hF
    obtain ⟨xs, k1, k2, k3, k4, k5⟩ := boxUniform_spec (bs := F) (shape := nBc) (sh := sB) (by rw [h2]; exact hB) (ε := ε) (by
      intro b hb hne hh
      have hb' := (h4 b hb).resolve_left hne
      exact (hε' b hb').2 (by linarith))
    rw [k1]
    exact ⟨rfl, k2, k3, fun x hx => (k4 x hx).trans h3, k5 fun b hb hne => ⟨hε, (hε' b ((h4 b hb).resolve_left hne)).1⟩⟩
  obtain ⟨xp, p1, p2, p3, p4, -⟩ := boxUniform_spec (bs := bs) (shape := nPde) (sh := sP) (by rw [hii, hd]; exact hP) (ε := 0) (by
    intro b hb _
    simpa using (hbs b hb).ne)
  obtain ⟨P, hPP, hO⟩ := poissonObs_eq hbs hd α f rhs hr hf hu hg nBc nPde ε (fun F hF => ⟨_, (hgrid F hF).1⟩) p1
  rw [← hOdef] at hO
  set o1 : Obs d := ⟨true, xp.map (toPt d), xp.map g, none⟩ with ho1
  have hn : ∀ pde, (ptsOf pde ((faces bs).map O ++ [o1])).Nodup := by
    intro pde
    cases pde
    · rw [hOdef, ho1, pts_values, List.nodup_flatMap]
      refine ⟨fun F hF => toPt_nodup (hgrid F hF).2.2.1 (hgrid F hF).2.2.2.1, ?_⟩
      have hpw := faces_disjoint hbs
      rw [List.pairwise_iff_get] at hpw ⊢
      intro i j hij
      have hFi : (faces bs).get i ∈ faces bs := List.get_mem _ _
      have hFj : (faces bs).get j ∈ faces bs := List.get_mem _ _
      intro z hz hz'
      obtain ⟨x, hx, rfl⟩ := List.mem_map.mp hz
      obtain ⟨y, hy, hxy⟩ := List.mem_map.mp hz'
      obtain rfl := toPt_inj ((hgrid _ hFj).2.2.2.1 y hy) ((hgrid _ hFi).2.2.2.1 x hx) hxy
      exact hpw i j hij y ((hgrid _ hFi).2.2.2.2 y hx) ((hgrid _ hFj).2.2.2.2 y hy)
    · rw [hOdef, ho1, pts_pde]
      exact toPt_nodup p3 fun x hx => (p4 x hx).trans hd
  exact ⟨P, xp, hPP, hO, hface, fun F hF => ⟨(hgrid F hF).1, (hgrid F hF).2.1⟩, p1, p2, hn⟩

/-- C69: for the Poisson equation on a box of any dimension with extent in every axis, with a process that is twice
differentiable in every axis, the script runs through for every boundary function, right-hand side, grid sizes and inset
strictly between zero and the extents other than their halves: the posterior mean has the boundary values at the grid points
of the sides and solves the equation at the grid points of the domain, and leaves neither uncertain. -/
theorem poisson_solved (h : JetKernel I K) (hs : Strict I K) (m : jetF I) (e : Env) (he : e.CholOK)
    {bs : List (ℝ × ℝ)} (hbs : ∀ b ∈ bs, b.1 < b.2) (hd : bs.length = d) (h0 : d ≠ 0) {α : ℝ} (hα : α ≠ 0) (hI : orders (poissonOp d α) ⊆ I)
    (f rhs : Fn) (hr : rhs.inS = [d] ∧ rhs.outS = []) (hf : f.inS = [d]) {u g : List ℝ → ℝ} (hu : ∀ x, f.ev x = [u x]) (hg : ∀ x, rhs.ev x = [g x])
    (nBc nPde sB sP : List ℕ) (hB : asShape (d - 1) nBc = .ok sB) (hP : asShape d nPde = .ok sP) {ε : ℝ} (hε : 0 < ε)
    (hε' : ∀ b ∈ bs, ε < b.2 - b.1 ∧ 2 * ε ≠ b.2 - b.1) :
    ∃ (P : BVP) (o : Obs d) (os : List (Obs d)) (c : Cond (h.prior m)),
      mkPoissonProblem (.dom (.box bs)) (some rhs) α (some (.fn f)) none = .ok P ∧ poissonObs d P nBc nPde ε = .ok (o :: os) ∧
      solve e h m (coefs (poissonOp d α) hI) o os = .ok c ∧
      (∀ b ∈ (Dom.box bs).boundary, ∃ xs, uniformGrid b nBc ε = .ok xs ∧ xs.length = sB.prod ∧ ∀ x ∈ xs, c.mean (toPt d x) = u x ∧
        c.functlCov e (fun _ : Fin 1 => h.op m (Finsupp.single ⟨0, h.zero_mem⟩ 1) (toPt d x)) = .ok 0) ∧
      ∃ xs, uniformGrid (.box bs) nPde 0 = .ok xs ∧ xs.length = sP.prod ∧ ∀ x ∈ xs, OpAt (poissonOp d α) c.mean (toPt d x) (g x) ∧
        c.functlCov e (fun _ : Fin 1 => h.op m (coefs (poissonOp d α) hI) (toPt d x)) = .ok 0 := by
  obtain ⟨O, hOdef⟩ : ∃ O : List (ℝ × ℝ) → Obs d,
      O = fun F => ⟨false, (pointsOf (boxUniform F nBc ε)).map (toPt d), (pointsOf (boxUniform F nBc ε)).map u, none⟩ := ⟨_, rfl⟩
  obtain ⟨P, xp, hPP, hO, hface, hgrid, p1, p2, hn⟩ := poissonObs_spec hbs hd h0 α f rhs hr hf hu hg nBc nPde sB sP hB hP hε hε' hOdef
  set o1 : Obs d := ⟨true, xp.map (toPt d), xp.map g, none⟩ with ho1
  obtain ⟨o, os, hos⟩ : ∃ o os, (faces bs).map O ++ [o1] = o :: os := by
    cases h : (faces bs).map O ++ [o1] with
    | nil => simp at h
    | cons o os => exact ⟨o, os, rfl⟩
  obtain ⟨c, hc, J, hJ, hi⟩ := solve_spec h hs m e he (poisson_indep h hα h0 hI) o os (by rw [← hos]; exact hn) (by
    intro w hw v hv
    rw [← hos, List.mem_append, List.mem_map, List.mem_singleton] at hw
    rcases hw with ⟨F, -, rfl⟩ | rfl
    · rw [hOdef] at hv
      cases hv
    · cases hv)
  rw [← hos] at hi
  refine ⟨P, o, os, c, hPP, hO.trans (by rw [hos]), hc, fun b hb => ?_, xp, p1, p2, fun x hx => ?_⟩
  · have hb : b ∈ (boxBoundary bs).map Dom.prod := by simpa only [Dom.boundary] using hb
    rw [boxBoundary_faces hbs, List.map_map] at hb
    obtain ⟨F, hF, rfl⟩ := List.mem_map.mp hb
    refine ⟨pointsOf (boxUniform F nBc ε), ?_, (hgrid F hF).2, fun x hx => ?_⟩
    · show uniformGrid (.prod (F.map boxFactor)) nBc ε = _
      rw [uniformGrid_face (hface F hF).1 (hface F hF).2.1]
      exact (hgrid F hF).1
    · have := obs_mem hi false (pointsOf (boxUniform F nBc ε)) (toPt d) u rfl (List.mem_append_left _ (List.mem_map.mpr ⟨F, hF, by rw [hOdef]⟩)) hx
      rw [value_sum h _ hJ] at this
      exact this
  · have := obs_mem hi true xp (toPt d) g rfl (List.mem_append_right _ (List.mem_singleton.mpr rfl)) hx
    exact ⟨poisson_sum h hI hJ _ this.1, this.2⟩

/-- `0001_poisson_dirichlet_2d.ipynb`: a tensor product of two Matérn-5/2 processes on the square `(-1, 1)²` with the right-hand
side `sin(π x₀) sin(π x₁)` and zero boundary values. -/
example (e : Env) (he : e.CholOK) (rhs : Fn) (hr : rhs = .other [2] [] fun x => [Real.sin (Real.pi * x.getD 0 0) * Real.sin (Real.pi * x.getD 1 0)]) :
    ∃ c : Cond ((matern_jet ![2, 2] ![1, 1]).prior 0),
      (∃ xs, uniformGrid (.prod [.point0 (-1), .interval (-1) 1]) [20] (1 / 1000000) = .ok xs ∧ xs.length = 20 ∧ ∀ x ∈ xs, c.mean (toPt 2 x) = 0) ∧
      ∃ xs, uniformGrid (.box [(-1, 1), (-1, 1)]) [10, 10] 0 = .ok xs ∧ xs.length = 100 ∧ ∀ x ∈ xs,
        OpAt (poissonOp 2 1) c.mean (toPt 2 x) (Real.sin (Real.pi * x.getD 0 0) * Real.sin (Real.pi * x.getD 1 0)) := by
  subst hr
  have hl : ∀ j : Fin 2, (![1, 1] : Fin 2 → ℝ) j ≠ 0 := fun j => by fin_cases j <;> simp
  obtain ⟨P, o, os, c, -, -, -, k1, xs, k2, k3, k4⟩ := poisson_solved (matern_jet ![2, 2] ![1, 1]) (matern_strict _ hl) 0 e he
    (bs := [(-1, 1), (-1, 1)]) (by simp) rfl two_ne_zero (α := 1) one_ne_zero (by
      rintro _ ⟨j, rfl⟩
      fin_cases j <;> intro k <;> fin_cases k <;> simp)
    (.const [2] [] [0]) (.other [2] [] fun x => [Real.sin (Real.pi * x.getD 0 0) * Real.sin (Real.pi * x.getD 1 0)]) ⟨rfl, rfl⟩ rfl
    (u := fun _ => 0) (g := fun x => Real.sin (Real.pi * x.getD 0 0) * Real.sin (Real.pi * x.getD 1 0)) (fun _ => rfl) (fun _ => rfl)
    [20] [10, 10] [20] [10, 10] rfl rfl (ε := 1 / 1000000) (by norm_num) (by
      intro b hb
      simp only [List.mem_cons, List.not_mem_nil, or_false, or_self] at hb
      subst hb
      norm_num)
  obtain ⟨ys, h1, h2, h3⟩ := k1 (.prod [.point0 (-1), .interval (-1) 1]) (by
    have h1 : ¬ (-1 : ℝ) = 1 := by norm_num
    simp [Dom.boundary, boxBoundary, leafBoundary, boxFactor, h1])
  exact ⟨c, ⟨ys, h1, h2, fun x hx => (h3 x hx).1⟩, xs, k2, k3, fun x hx => (k4 x hx).1⟩

/-- C69 (the inset is necessary): without inset, a corner of a rectangle is observed on two sides, and the Gram matrix of the
exact observations is not positive definite. -/
theorem poisson_corner_singular {I : Set (Ix 2)} {K : Ix 2 → Pt 2 → Ix 2 → Pt 2 → ℝ} (h : JetKernel I K) (hs : Strict I K) (m : jetF I)
    {a b c d : ℝ} (hab : a < b) (hcd : c < d) {α : ℝ} (hα : α ≠ 0) (hI : orders (poissonOp 2 α) ⊆ I)
    (f rhs : Fn) (hr : rhs.inS = [2] ∧ rhs.outS = []) (hf : f.inS = [2]) {u g : List ℝ → ℝ} (hu : ∀ x, f.ev x = [u x]) (hg : ∀ x, rhs.ev x = [g x])
    {n : ℕ} (hn : 1 ≤ n) (nPde sP : List ℕ) (hP : asShape 2 nPde = .ok sP) :
    ∃ (P : BVP) (os : List (Obs 2)), mkPoissonProblem (.dom (.box [(a, b), (c, d)])) (some rhs) α (some (.fn f)) none = .ok P ∧
      poissonObs 2 P [n] nPde 0 = .ok os ∧ ¬ (jG (os.map (Obs.batch h m (coefs (poissonOp 2 α) hI)))).PosDef := by
  have hbs : ∀ z ∈ [(a, b), (c, d)], z.1 < z.2 := by simp [hab, hcd]
  obtain ⟨xp, p1, -⟩ := boxUniform_spec (bs := [(a, b), (c, d)]) (shape := nPde) (sh := sP) (by
    simpa [Domains.interior, hab.ne, hcd.ne] using hP) (ε := 0) (by simp [hab.ne, hcd.ne])
  have g0 : ∀ z, boxUniform [(z, z), (c, d)] [n] 0 = .ok ((intervalGrid c d n 0).map fun y => [z, y]) := fun z => by
    simp [boxUniform, asShape, boxGrid, boxGridFactors, hcd.ne, gridPoints, liftDom, bind, Except.bind, List.map_eq_flatMap, List.flatMap_assoc]
  have g1 : ∀ z, boxUniform [(a, b), (z, z)] [n] 0 = .ok ((intervalGrid a b n 0).map fun x => [x, z]) := fun z => by
    simp [boxUniform, asShape, boxGrid, boxGridFactors, hab.ne, gridPoints, liftDom, bind, Except.bind, List.map_eq_flatMap]
  obtain ⟨P, hPP, hO⟩ := poissonObs_eq hbs rfl α f rhs hr hf hu hg [n] nPde 0 (by
    intro F hF
    simp only [faces, List.map_nil, List.append_nil, List.map_cons, List.cons_append, List.nil_append, List.mem_cons, List.not_mem_nil, or_false] at hF
    rcases hF with rfl | rfl | rfl | rfl
    · exact ⟨_, g0 a⟩
    · exact ⟨_, g0 b⟩
    · exact ⟨_, g1 c⟩
    · exact ⟨_, g1 d⟩) p1
  refine ⟨P, _, hPP, hO, fun hG => ?_⟩
  rw [solvable_iff h hs m (poisson_indep h hα two_ne_zero hI) _ (by
    intro o ho
    rw [List.mem_append, List.mem_map, List.mem_singleton] at ho
    rcases ho with ⟨F, -, rfl⟩ | rfl <;> rfl)] at hG
  have h1 := hG false
  rw [pts_values] at h1
  simp only [faces, List.map_nil, List.append_nil, List.map_cons, List.cons_append, List.nil_append, List.flatMap_cons, g0, g1, pointsOf] at h1
  rw [List.nodup_append'] at h1
  have e0 : a ∈ intervalGrid a b n 0 := by
    have := (intervalGrid_spec a b n 0).2.1 hn
    rw [add_zero] at this
    exact List.mem_of_mem_head? this
  have e1 : c ∈ intervalGrid c d n 0 := by
    have := (intervalGrid_spec c d n 0).2.1 hn
    rw [add_zero] at this
    exact List.mem_of_mem_head? this
  exact h1.2.2 (List.mem_map_of_mem (f := toPt 2) (List.mem_map_of_mem (f := fun y => [a, y]) e1))
    (List.mem_append_right _ (List.mem_append_left _ (List.mem_map_of_mem (f := toPt 2) (List.mem_map_of_mem (f := fun x => [x, c]) e0))))

end LinPDE.Solve
