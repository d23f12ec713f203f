import Verif.XCov.Spec

/-!
# The array view contains the covariances
-/

namespace LinPDE.XCov
open LinPDE.Nd LinPDE.Ops LinPDE.CovAlg LinPDE.Covar
variable {X : Type}

lemma perm4 {A B C D : List ℕ} {a b c d : ℕ} (ha : a = A.length) (hb : b = B.length) (hc : c = C.length) (hd : d = D.length) :
    ((rng 0 a).map fun ax => (A ++ B ++ C ++ D).getD ax 0) = A ∧ ((rng a b).map fun ax => (A ++ B ++ C ++ D).getD ax 0) = B ∧
    ((rng (a + b) c).map fun ax => (A ++ B ++ C ++ D).getD ax 0) = C ∧
    ((rng (a + b + c) d).map fun ax => (A ++ B ++ C ++ D).getD ax 0) = D := by
  refine ⟨rng_blk (P := []) (R := B ++ C ++ D) (by simp) rfl ha, rng_blk (P := A) (R := C ++ D) (by simp) ha hb,
    rng_blk (P := A ++ B) (R := D) (by simp) (by simp [ha, hb]) hc,
    rng_blk (P := A ++ B ++ C) (R := []) (by simp) (by simp [ha, hb, hc]; omega) hd⟩

lemma take_app {a b : List ℕ} {n : ℕ} (h : n = a.length) : (a ++ b).take n = a := by subst h; simp
lemma drop_app {a b : List ℕ} {n : ℕ} (h : n = a.length) : (a ++ b).drop n = b := by subst h; simp

/-- An entry of `covfunc(x0, x1)`. -/
lemma kCall_get (k : K X) (bs : Shp) (x0 x1 : List ℕ → X) {i p q : List ℕ} (hi : Fits bs i) (hp : Fits k.sh.out0 p) :
    (kCall k bs x0 x1).get (i ++ p ++ q) = k.eval (x0 i) (x1 i) (ravel k.sh.out0 p) (ravel k.sh.out1 q) := by
  have e1 := hi.length
  have e2 := hp.length
  show k.eval (x0 (List.take _ (i ++ p ++ q))) (x1 (List.take _ (i ++ p ++ q))) _ _ = _
  rw [List.append_assoc, take_app e1.symm, drop_app e1.symm, take_app e2.symm, ← List.append_assoc,
    drop_app (by simp [e1, e2])]

/-- `Point.T` at an entry. -/
lemma pointT_dirac (f : Point X) (hd : f.dirac = true) (g : Val X) {m q : List ℕ} (hm : Fits f.xs.batch m) (hq : Fits f.i.2 q) :
    f.T g (ravel f.out (m ++ q)) = g (f.xs.pt m) (ravel f.i.2 q) := by
  have ho : f.out = f.xs.batch ++ f.i.2 := by simp [Point.out, hd]
  have hf : Fits f.out (m ++ q) := by rw [ho]; exact (fits_append hm.length).mpr ⟨hm, hq⟩
  show (if f.dirac then _ else _) = _
  rw [if_pos hd, unravel_ravel hf, take_app hm.length.symm, drop_app hm.length.symm]

lemma pointT_eval (f : Point X) (hd : f.dirac = false) (g : Val X) {m q : List ℕ} (hm : Fits f.xs.batch m) (hq : Fits f.i.2 q) :
    f.T g (ravel f.out (q ++ m)) = g (f.xs.pt m) (ravel f.i.2 q) := by
  have ho : f.out = f.i.2 ++ f.xs.batch := by simp [Point.out, hd]
  have hf : Fits f.out (q ++ m) := by rw [ho]; exact (fits_append hq.length).mpr ⟨hq, hm⟩
  show (if f.dirac then _ else _) = _
  rw [if_neg (by simp [hd]), unravel_ravel hf, take_app hq.length.symm, drop_app hq.length.symm]

lemma mem4 {ax a b c d : ℕ} (h : ax < a + b + c + d) :
    ax ∈ rng 0 a ∨ ax ∈ rng a b ∨ ax ∈ rng (a + b) c ∨ ax ∈ rng (a + b + c) d := by
  simp only [mem_rng]; omega

/-- Evaluating the functional in argument 1. -/
lemma pointEval1_holds (k : K X) (f : Point X) (x : Pts X) (hw : (PV.point k f false).WF) (hx : x.inS = k.sh.in0) :
    ∃ a, pointEval1 k f x = .ok a ∧ Holds false f.out k.sh.out0 x (actF f.T false k.eval) a := by
  obtain ⟨h1, h2, h3⟩ := hw
  replace h3 : f.i.2 = k.sh.out1 := h3
  set kx := kCall k (x.batch ++ f.xs.batch) (fun i => x.pt (i.take x.batch.length)) (fun i => f.xs.pt (i.drop x.batch.length)) with hkx
  have hks : kx.shape = x.batch ++ f.xs.batch ++ k.sh.out0 ++ f.i.2 := by rw [h3]; rfl
  obtain ⟨s1, s2, s3, s4⟩ := perm4 (A := x.batch) (B := f.xs.batch) (C := k.sh.out0) (D := f.i.2) rfl rfl rfl rfl
  have key : ∀ n m p q, Fits x.batch n → Fits f.xs.batch m → Fits k.sh.out0 p → Fits f.i.2 q →
      kx.get (n ++ m ++ p ++ q) = k.eval (x.pt n) (f.xs.pt m) (ravel k.sh.out0 p) (ravel f.i.2 q) := by
    intro n m p q hn hm hp hq
    rw [hkx, kCall_get k _ _ _ ((fits_append hn.length).mpr ⟨hn, hm⟩) hp, h3, take_app hn.length.symm, drop_app hn.length.symm]
  unfold pointEval1
  rw [if_neg (by simpa using h1), if_neg (by simp [hx, h2])]
  dsimp only
  rw [← hkx, if_neg (by simpa using hks)]
  cases hd : f.dirac
  · have ho : f.out = f.i.2 ++ f.xs.batch := by simp [Point.out, hd]
    refine ⟨_, if_pos ?_, ?_, ?_⟩
    · show List.map _ _ = _
      simp only [hks, List.map_append, s1, s2, s3, s4, Bool.false_eq_true, if_false, ho]
      try simp only [List.append_assoc]
    · show List.map _ _ = _
      simp only [hks, List.map_append, s1, s2, s3, s4, Bool.false_eq_true, if_false, ho, layout]
      try simp only [List.append_assoc]
    · intro r n p hr hn hp
      rw [ho] at hr
      obtain ⟨q, m, rfl, hq, hm⟩ := fits_split hr
      obtain ⟨t1, t2, t3, t4⟩ := perm4 hn.length.symm hm.length.symm hp.length.symm hq.length.symm
      rw [permute_get (l := n ++ m ++ p ++ q)]
      · rw [key n m p q hn hm hp hq]
        show _ = f.T _ _
        rw [pointT_eval f hd _ hm hq]
      · rw [hks]; simp [hn.length, hm.length, hp.length, hq.length]
      · intro ax hax
        simp only [List.length_append, hn.length, hm.length, hp.length, hq.length] at hax
        have := mem4 hax
        simp only [Bool.false_eq_true, if_false, List.mem_append]
        tauto
      · simp only [List.map_append, t1, t2, t3, t4, Bool.false_eq_true, if_false, pos]
        try simp only [List.append_assoc]
  · have ho : f.out = f.xs.batch ++ f.i.2 := by simp [Point.out, hd]
    refine ⟨_, if_pos ?_, ?_, ?_⟩
    · show List.map _ _ = _
      simp only [hks, List.map_append, s1, s2, s3, s4, if_true, ho]
      try simp only [List.append_assoc]
    · show List.map _ _ = _
      simp only [hks, List.map_append, s1, s2, s3, s4, if_true, ho, layout, Bool.false_eq_true, if_false]
      try simp only [List.append_assoc]
    · intro r n p hr hn hp
      rw [ho] at hr
      obtain ⟨m, q, rfl, hm, hq⟩ := fits_split hr
      obtain ⟨t1, t2, t3, t4⟩ := perm4 hn.length.symm hm.length.symm hp.length.symm hq.length.symm
      rw [permute_get (l := n ++ m ++ p ++ q)]
      · rw [key n m p q hn hm hp hq]
        show _ = f.T _ _
        rw [pointT_dirac f hd _ hm hq]
      · rw [hks]; simp [hn.length, hm.length, hp.length, hq.length]
      · intro ax hax
        simp only [List.length_append, hn.length, hm.length, hp.length, hq.length] at hax
        have := mem4 hax
        simp only [if_true, List.mem_append]
        tauto
      · simp only [List.map_append, t1, t2, t3, t4, if_true, Bool.false_eq_true, if_false, pos]
        try simp only [List.append_assoc]

/-- Evaluating the functional in argument 0: the kernel is called with its points exchanged. -/
lemma pointEval0_swapped (k : K X) (f : Point X) (x : Pts X) (hw : (PV.point k f true).WF) (hx : x.inS = k.sh.in0) :
    ∃ a, pointEval0 k f x = .ok a ∧
      Holds true f.out k.sh.out1 x (actF f.T true fun y z p q => k.eval z y p q) a := by
  obtain ⟨h1, h2, h3⟩ := hw
  replace h3 : f.i.2 = k.sh.out0 := h3
  set kx := kCall k (f.xs.batch ++ x.batch) (fun i => x.pt (i.drop f.xs.batch.length)) (fun i => f.xs.pt (i.take f.xs.batch.length))
    with hkx
  have hks : kx.shape = f.xs.batch ++ x.batch ++ f.i.2 ++ k.sh.out1 := by rw [h3]; rfl
  obtain ⟨s1, s2, s3, s4⟩ := perm4 (A := f.xs.batch) (B := x.batch) (C := f.i.2) (D := k.sh.out1) rfl rfl rfl rfl
  have key : ∀ n m p q, Fits x.batch n → Fits f.xs.batch m → Fits k.sh.out1 p → Fits f.i.2 q →
      kx.get (m ++ n ++ q ++ p) = k.eval (x.pt n) (f.xs.pt m) (ravel f.i.2 q) (ravel k.sh.out1 p) := by
    intro n m p q hn hm hp hq
    rw [h3] at hq ⊢
    rw [hkx, kCall_get k _ _ _ ((fits_append hm.length).mpr ⟨hm, hn⟩) hq, take_app hm.length.symm, drop_app hm.length.symm]
  unfold pointEval0
  rw [if_neg (by simpa using h1), if_neg (by simp [hx, h2])]
  dsimp only
  rw [← hkx, if_neg (by simpa using hks)]
  cases hd : f.dirac
  · have ho : f.out = f.i.2 ++ f.xs.batch := by simp [Point.out, hd]
    refine ⟨_, if_pos ?_, ?_, ?_⟩
    · show List.map _ _ = _
      simp only [hks, List.map_append, s1, s2, s3, s4, Bool.false_eq_true, if_false, ho]
      try simp only [List.append_assoc]
    · show List.map _ _ = _
      simp only [hks, List.map_append, s1, s2, s3, s4, Bool.false_eq_true, if_false, if_true, ho, layout]
      try simp only [List.append_assoc]
    · intro r n p hr hn hp
      rw [ho] at hr
      obtain ⟨q, m, rfl, hq, hm⟩ := fits_split hr
      obtain ⟨t1, t2, t3, t4⟩ := perm4 hm.length.symm hn.length.symm hq.length.symm hp.length.symm
      rw [permute_get (l := m ++ n ++ q ++ p)]
      · rw [key n m p q hn hm hp hq]
        show _ = f.T _ _
        rw [pointT_eval f hd _ hm hq]
      · rw [hks]; simp [hn.length, hm.length, hp.length, hq.length]
      · intro ax hax
        simp only [List.length_append, hn.length, hm.length, hp.length, hq.length] at hax
        have := mem4 hax
        simp only [Bool.false_eq_true, if_false, List.mem_append]
        tauto
      · simp only [List.map_append, t1, t2, t3, t4, Bool.false_eq_true, if_false, if_true, pos]
        try simp only [List.append_assoc]
  · have ho : f.out = f.xs.batch ++ f.i.2 := by simp [Point.out, hd]
    refine ⟨_, if_pos ?_, ?_, ?_⟩
    · show List.map _ _ = _
      simp only [hks, List.map_append, s1, s2, s3, s4, if_true, ho]
      try simp only [List.append_assoc]
    · show List.map _ _ = _
      simp only [hks, List.map_append, s1, s2, s3, s4, if_true, ho, layout]
      try simp only [List.append_assoc]
    · intro r n p hr hn hp
      rw [ho] at hr
      obtain ⟨m, q, rfl, hm, hq⟩ := fits_split hr
      obtain ⟨t1, t2, t3, t4⟩ := perm4 hm.length.symm hn.length.symm hq.length.symm hp.length.symm
      rw [permute_get (l := m ++ n ++ q ++ p)]
      · rw [key n m p q hn hm hp hq]
        show _ = f.T _ _
        rw [pointT_dirac f hd _ hm hq]
      · rw [hks]; simp [hn.length, hm.length, hp.length, hq.length]
      · intro ax hax
        simp only [List.length_append, hn.length, hm.length, hp.length, hq.length] at hax
        have := mem4 hax
        simp only [if_true, List.mem_append]
        tauto
      · simp only [List.map_append, t1, t2, t3, t4, if_true, pos]
        try simp only [List.append_assoc]

end LinPDE.XCov
