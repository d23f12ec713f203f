import Verif.XCov.Model

/-!
# What the views should contain, and lemmas about the array operations
-/

namespace LinPDE.XCov
open LinPDE.Nd LinPDE.Ops LinPDE.CovAlg LinPDE.Covar
variable {X : Type}

/-- The functional `T` applied to the kernel in argument 0 (`rev`) or 1, at the point `x`, output entry `p` of the process
and entry `r` of the vector. -/
def actF (T : Fl X) (rev : Bool) (k : KVal X) : X → ℕ → ℕ → ℝ := fun x p r =>
  if rev then T (fun y q => k y x q p) r else T (fun y q => k x y p q) r

/-- The entries of `T f` in the shape `o` depend only on the entries of `f` in the codomain shape `s`. -/
def FLoc (s o : Shp) (T : Fl X) : Prop :=
  ∀ f g : Val X, (∀ x, ∀ p < s.prod, f x p = g x p) → ∀ r < o.prod, T f r = T g r

mutual
/-- The covariance between entry `p` of the process at `x` and entry `r` of the vector. -/
noncomputable def PV.den : PV X → X → ℕ → ℕ → ℝ
  | .base _ _ _ _ ev => ev
  | .point k f rev => actF f.T rev k.eval
  | .quad k _ T rev => actF T rev k.eval
  | .scaled c s => fun x p r => s * PV.den c x p r
  | .sum _ _ _ _ cs => fun x p r => ((denAll cs).map fun d => d x p r).sum
  | .linop A c => fun x p r => ∑ j ∈ Finset.range A.cols, A.a r j * PV.den c x p j
  | .stack _ _ _ _ cs => fun x p r => (((denAll cs)[p]?).map fun d => d x 0 r).getD 0
  | .zero .. => fun _ _ _ => 0
  | .param _ C b n rev => fun x _ r => ∑ j ∈ Finset.range n, (if rev then C.a r j else C.a j r) * b x j
/-- Every part. -/
noncomputable def denAll : List (PV X) → List (X → ℕ → ℕ → ℝ)
  | [] => []
  | c :: cs => PV.den c :: denAll cs
end

mutual
/-- Invariants of the constructors. -/
def PV.WF : PV X → Prop
  | .base .. => True
  | .point k f rev => k.sh.in1 = k.sh.in0 ∧ f.xs.inS = k.sh.in0 ∧ f.i.2 = k.sh.outA (!rev)
  | .quad k o T _ => k.sh.out0 = [] ∧ k.sh.out1 = [] ∧ FLoc [] o T
  | .scaled c _ => PV.WF c
  | .sum i o r rev cs => cs ≠ [] ∧ (∀ c ∈ cs, c.inS = i ∧ c.outS = o ∧ c.rv = r ∧ c.rev = rev) ∧ pvAll cs
  | .linop A c => c.rv = [A.cols] ∧ PV.WF c
  | .stack i r rev s cs => cs ≠ [] ∧ cs.length = s.prod ∧ (∀ c ∈ cs, c.inS = i ∧ c.outS = [] ∧ c.rv = r ∧ c.rev = rev) ∧ pvAll cs
  | .zero .. => True
  | .param _ C _ n rev => if rev then C.cols = n else C.rows = n
/-- Every part. -/
def pvAll : List (PV X) → Prop
  | [] => True
  | c :: cs => PV.WF c ∧ pvAll cs
end

/-- Exchanging the points leaves the kernel unchanged, entry by entry. -/
def Swap (k : K X) : Prop := ∀ x y p q, p < k.sh.out0.prod → q < k.sh.out1.prod → k.eval x y p q = k.eval y x p q

mutual
/-- Where the array view is right: kernels with a functional in argument 0 do not change when the points are exchanged,
and the matrices of parametric cross-covariances in the other order are symmetric. -/
def PV.Sym : PV X → Prop
  | .base .. => True
  | .point k _ rev => rev = true → Swap k
  | .quad k _ _ rev => rev = true → Swap k
  | .scaled c _ => PV.Sym c
  | .sum _ _ _ _ cs => symAll cs
  | .linop _ c => PV.Sym c
  | .stack _ _ _ _ cs => symAll cs
  | .zero .. => True
  | .param _ C _ _ rev => rev = false → C.rows = C.cols ∧ ∀ i < C.rows, ∀ j < C.rows, C.a i j = C.a j i
/-- Every part. -/
def symAll : List (PV X) → Prop
  | [] => True
  | c :: cs => PV.Sym c ∧ symAll cs
end

lemma pvAll_iff : ∀ cs : List (PV X), pvAll cs ↔ ∀ c ∈ cs, c.WF
  | [] => by simp [pvAll]
  | c :: cs => by simp [pvAll, pvAll_iff cs]

lemma symAll_iff : ∀ cs : List (PV X), symAll cs ↔ ∀ c ∈ cs, c.Sym
  | [] => by simp [symAll]
  | c :: cs => by simp [symAll, symAll_iff cs]

lemma denAll_eq : ∀ cs : List (PV X), denAll cs = cs.map PV.den
  | [] => by simp [denAll]
  | c :: cs => by simp [denAll, denAll_eq cs]

/-- Position of an entry in the documented layout. -/
def pos (rev : Bool) (r n p : List ℕ) : List ℕ := if rev then r ++ n ++ p else n ++ p ++ r

/-- The array has the documented layout and contains the numbers `d`. -/
def Holds (rev : Bool) (rv out : Shp) (x : Pts X) (d : X → ℕ → ℕ → ℝ) (a : Arr ℝ) : Prop :=
  a.shape = layout rev rv x.batch out ∧ ∀ r n p, Fits rv r → Fits x.batch n → Fits out p →
    a.get (pos rev r n p) = d (x.pt n) (ravel out p) (ravel rv r)

/-- The matrix has the vector along one axis and (outputs, batch) along the other, and contains the numbers `d`. -/
def HoldsMat (rev : Bool) (rv out : Shp) (x : Pts X) (d : X → ℕ → ℕ → ℝ) (m : Arr ℝ) : Prop :=
  m.shape = (if rev then [rv.prod, out.prod * x.batch.prod] else [out.prod * x.batch.prod, rv.prod]) ∧
    ∀ r n p, Fits rv r → Fits x.batch n → Fits out p →
      m.get (if rev then [ravel rv r, ravel (out ++ x.batch) (p ++ n)] else [ravel (out ++ x.batch) (p ++ n), ravel rv r]) =
        d (x.pt n) (ravel out p) (ravel rv r)

/-! ## Lemmas -/

lemma fits_split {s t : Shp} {i : List ℕ} (h : Fits (s ++ t) i) : ∃ a b, i = a ++ b ∧ Fits s a ∧ Fits t b := by
  have hl : (i.take s.length).length = s.length := by
    have := h.length; simp only [List.length_append] at this; simp; omega
  refine ⟨i.take s.length, i.drop s.length, (List.take_append_drop _ _).symm, ?_⟩
  rw [← fits_append hl, List.take_append_drop]
  exact h

lemma rng_blk {P Q R l : List ℕ} {off len : ℕ} (hl : l = P ++ (Q ++ R)) (ho : off = P.length) (hn : len = Q.length) :
    (rng off len).map (fun ax => l.getD ax 0) = Q := by
  subst hl; subst ho; subst hn
  apply List.ext_getElem
  · simp
  · intro t h1 h2
    simp only [List.getElem_map, List.getElem_range', one_mul]
    rw [List.getD_eq_getElem?_getD, List.getElem?_append_right (by omega)]
    have : P.length + t - P.length = t := by omega
    rw [this, List.getElem?_append_left h2, List.getElem?_eq_getElem h2]
    rfl

lemma permute_get {a : Arr ℝ} {axes i l : List ℕ} (hl : l.length = a.shape.length) (hm : ∀ ax < l.length, ax ∈ axes)
    (h : axes.map (fun ax => l.getD ax 0) = i) : (permute a axes).get i = a.get l := by
  show a.get _ = a.get l
  congr 1
  apply List.ext_getElem
  · simp [hl]
  · intro ax h1 h2
    simp only [List.getElem_map, List.getElem_range]
    have hx := hm ax h2
    subst h
    rw [List.getD_eq_getElem?_getD, List.getElem?_map, List.getElem?_eq_getElem (List.idxOf_lt_length_iff.mpr hx)]
    simp only [Option.map_some, Option.getD_some, List.getElem_idxOf]
    rw [List.getD_eq_getElem?_getD, List.getElem?_eq_getElem h2]
    rfl

lemma mem_rng {ax off len : ℕ} : ax ∈ rng off len ↔ off ≤ ax ∧ ax < off + len := by
  simp [rng, List.mem_range'_1]

lemma bind_ok' {α β : Type} {e : Except Err α} {f : α → Except Err β} {b : β} (h : (e >>= f) = .ok b) :
    ∃ a, e = .ok a ∧ f a = .ok b := by
  cases e with
  | error e => cases h
  | ok a => exact ⟨a, rfl, h⟩

lemma layArr_holds (rev : Bool) (rv out : Shp) (x : Pts X) (g : List ℕ → List ℕ → List ℕ → ℝ) (d : X → ℕ → ℕ → ℝ)
    (h : ∀ r n p, Fits rv r → Fits x.batch n → Fits out p → g r n p = d (x.pt n) (ravel out p) (ravel rv r)) :
    Holds rev rv out x d (layArr rev rv x.batch out g) := by
  refine ⟨rfl, fun r n p hr hn hp => ?_⟩
  rw [← h r n p hr hn hp]
  have e1 := hr.length
  have e2 := hn.length
  have e3 := hp.length
  cases rev
  · show g (List.drop _ (n ++ p ++ r)) (List.take _ (n ++ p ++ r)) (List.take _ (List.drop _ (n ++ p ++ r))) = _
    congr 1
    · rw [List.append_assoc]; simp [← e2, ← e3, List.drop_append]
    · simp [← e2]
    · rw [List.append_assoc, ← e2, ← e3]; simp
  · show g (List.take _ (r ++ n ++ p)) (List.take _ (List.drop _ (r ++ n ++ p))) (List.drop _ (r ++ n ++ p)) = _
    congr 1
    · simp [← e1]
    · rw [List.append_assoc, ← e1, ← e2]; simp
    · rw [List.append_assoc]; simp [← e1, ← e2, List.drop_append]

end LinPDE.XCov
