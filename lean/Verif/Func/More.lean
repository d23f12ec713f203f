import Verif.Func.Props
import Mathlib.Tactic.FinCases

/-!
# Constructors, refused arguments, point evaluation, and what goes wrong on batches
-/

namespace LinPDE.Func
open LinPDE.Nd
variable {K : Type} [Ring K]

lemma normAxis_isOk {axis : ℤ} {n : ℕ} : (∃ k, normAxis axis n = .ok k) ↔ -(n : ℤ) ≤ axis ∧ axis < n := by
  unfold normAxis
  split_ifs with h1 h2
  · exact ⟨fun _ => by omega, fun _ => ⟨_, rfl⟩⟩
  · exact ⟨fun _ => by omega, fun _ => ⟨_, rfl⟩⟩
  · constructor
    · rintro ⟨k, h⟩; cases h
    · intro h; omega

/-- Which arguments the constructors accept: a scalar, vector or matrix with an offset of the right shape; at least one
function, functions of the same shapes, an axis in range. -/
theorem mk_accepts : (∀ A b : Arr K, (∃ f, mkAffine A b = .ok f) ↔
      (A.shape = [] ∧ b.shape = []) ∨ (∃ m, A.shape = [m] ∧ b.shape = [m]) ∨ ∃ m n, A.shape = [m, n] ∧ b.shape = [m]) ∧
    (∀ (fs : List (FE K)) axis, (∃ f, mkStack fs axis = .ok f) ↔ ∃ i s, fs ≠ [] ∧ (∀ f ∈ fs, f.inS = i ∧ f.outS = s) ∧
      -((s.length : ℤ) + 1) ≤ axis ∧ axis < s.length + 1) ∧
    (∀ fs : List (FE K), (∃ f, mkSum fs = .ok f) ↔ ∃ i s, fs ≠ [] ∧ ∀ f ∈ fs, f.inS = i ∧ f.outS = s) := by
  refine ⟨fun A b => ?_, fun fs axis => ?_, fun fs => ?_⟩
  · obtain ⟨s, hs⟩ : ∃ s, A.shape = s := ⟨_, rfl⟩
    have key : ∀ o, (FE.affine A b).outS = o → A.shape.length ≤ 2 → ((∃ f, mkAffine A b = .ok f) ↔ b.shape = o) := by
      intro o ho hl
      rw [mkAffine, if_neg (by omega), ho]
      constructor
      · rintro ⟨f, h⟩
        by_contra hc
        rw [if_pos hc] at h; cases h
      · intro h; rw [if_neg (not_not.mpr h)]; exact ⟨_, rfl⟩
    rcases s with _ | ⟨m, _ | ⟨n, _ | ⟨k, s⟩⟩⟩
    · rw [key [] (by simp [FE.outS, hs]) (by simp [hs])]; simp [hs]
    · rw [key [m] (by simp [FE.outS, hs]) (by simp [hs])]; simp [hs]
    · rw [key [m] (by simp [FE.outS, hs]) (by simp [hs])]; simp [hs]
    · simp [mkAffine, hs]
  · constructor
    · rintro ⟨f, h⟩
      cases fs with
      | nil => simp [mkStack] at h
      | cons g rest =>
        simp only [mkStack, List.map_cons, npStack] at h
        split_ifs at h with h1 h2
        refine ⟨g.inS, g.outS, by simp, fun f hf => ⟨of_decide_eq_true (List.all_eq_true.mp h1 f hf), ?_⟩, ?_⟩
        · have := List.all_eq_true.mp h2 ⟨f.outS, fun _ => 0⟩ (by
            rw [← List.map_cons (f := fun g : FE K => (⟨g.outS, fun _ => (0 : K)⟩ : Arr K))]
            exact List.mem_map_of_mem hf)
          exact of_decide_eq_true this
        · have : ∃ k, normAxis axis (g.outS.length + 1) = .ok k := by
            cases hk : normAxis axis (g.outS.length + 1) with
            | ok k => exact ⟨k, rfl⟩
            | error e => simp only [hk] at h; cases h
          simpa using normAxis_isOk.mp this
    · rintro ⟨i, s, hne, hf, hax⟩
      cases fs with
      | nil => exact absurd rfl hne
      | cons g rest =>
        obtain ⟨k, hk⟩ := normAxis_isOk (axis := axis) (n := s.length + 1) |>.mpr (by push_cast; exact hax)
        have h1 : ((g :: rest).all fun f => decide (f.inS = g.inS)) = true :=
          List.all_eq_true.mpr fun f h => decide_eq_true (by rw [(hf f h).1, (hf g (by simp)).1])
        have h2 : (((⟨g.outS, fun _ => (0 : K)⟩ : Arr K) :: rest.map fun g => (⟨g.outS, fun _ => (0 : K)⟩ : Arr K)).all
            fun b => decide (b.shape = g.outS)) = true := by
          rw [List.all_eq_true]
          intro a ha
          rw [← List.map_cons (f := fun g : FE K => (⟨g.outS, fun _ => (0 : K)⟩ : Arr K))] at ha
          obtain ⟨f, hf', rfl⟩ := List.mem_map.mp ha
          exact decide_eq_true (by simp only; rw [(hf f hf').2, (hf g (by simp)).2])
        rw [← (hf g (by simp)).2] at hk
        simp only [mkStack, h1, if_true, List.map_cons, npStack, h2, hk]
        exact ⟨_, rfl⟩
  · constructor
    · rintro ⟨f, h⟩
      cases fs with
      | nil => simp [mkSum] at h
      | cons g rest =>
        simp only [mkSum] at h
        split_ifs at h with h1 h2
        exact ⟨g.inS, g.outS, by simp, fun f hf => ⟨of_decide_eq_true (List.all_eq_true.mp h1 f hf),
          of_decide_eq_true (List.all_eq_true.mp h2 f hf)⟩⟩
    · rintro ⟨i, s, hne, hf⟩
      cases fs with
      | nil => exact absurd rfl hne
      | cons g rest =>
        have h1 : ((g :: rest).all fun f => decide (f.inS = g.inS)) = true :=
          List.all_eq_true.mpr fun f h => decide_eq_true (by rw [(hf f h).1, (hf g (by simp)).1])
        have h2 : ((g :: rest).all fun f => decide (f.outS = g.outS)) = true :=
          List.all_eq_true.mpr fun f h => decide_eq_true (by rw [(hf f h).2, (hf g (by simp)).2])
        rw [mkSum, if_pos h1, if_pos h2]
        exact ⟨_, rfl⟩

/-- A sum of functions is their pointwise sum, also after nested sums were flattened. -/
theorem mkSum_den (fs : List (FE K)) (f : FE K) (h : mkSum fs = .ok f) (p : List ℕ → K) (o : List ℕ) :
    f.den p o = (fs.map fun g => g.den p o).sum := by
  cases fs with
  | nil => simp [mkSum] at h
  | cons g rest =>
    simp only [mkSum] at h
    split_ifs at h with h1 h2
    injection h with h
    subst h
    rw [FE.den, denAll_eq]
    generalize g :: rest = gs
    induction gs with
    | nil => simp
    | cons q gs ih =>
      rw [List.flatMap_cons, List.map_append, List.map_append, List.sum_append, ih, List.map_cons, List.sum_cons]
      congr 1
      cases q with
      | sum i s hs => simp only [FE.den]; rw [denAll_eq]
      | _ => simp

/-- The stack of functions with outputs of shape `s`: the output has a new axis `k`, counted from the back for negative
axes, and its entry `j` along that axis is the `j`-th function. -/
theorem mkStack_den (fs : List (FE K)) (axis : ℤ) (f : FE K) (h : mkStack fs axis = .ok f) : ∃ (s : Shp) (k : ℕ), f.outS = s.insertIdx k fs.length ∧
    k ≤ s.length ∧ (k : ℤ) = (if 0 ≤ axis then axis else axis + (s.length + 1)) ∧ (∀ g ∈ fs, g.outS = s ∧ g.inS = f.inS) ∧
    ∀ (p : List ℕ → K) (o : List ℕ) (j : ℕ) (hj : j < fs.length), o.length = s.length →
      f.den p (o.insertIdx k j) = fs[j].den p o := by
  obtain ⟨i, s, hne, hf, _⟩ := (mk_accepts.2.1 fs axis).mp ⟨f, h⟩
  cases fs with
  | nil => exact absurd rfl hne
  | cons g rest =>
    simp only [mkStack, List.map_cons, npStack] at h
    split_ifs at h with h1 h2
    have hgs : g.outS = s := (hf g (by simp)).2
    cases hk : normAxis axis (g.outS.length + 1) with
    | error e => simp only [hk] at h; cases h
    | ok k =>
      simp only [hk] at h
      injection h with h
      subst h
      have hkl : k ≤ s.length := by have := normAxis_lt hk; rw [hgs] at this; omega
      refine ⟨s, k, by simp [FE.outS, hgs], hkl, ?_, fun q hq => ⟨(hf q hq).2, ?_⟩, ?_⟩
      · rw [hgs] at hk
        unfold normAxis at hk
        split_ifs at hk with h3 h4
        · injection hk with hk; rw [if_pos h3.1]; omega
        · injection hk with hk; rw [if_neg (by omega)]; omega
      · rw [FE.inS, (hf q hq).1, (hf g (by simp)).1]
      · intro p o j hj ho
        rw [FE.den, hgs, length_insert hkl, ← hgs, hk]
        simp only
        have hg : (o.insertIdx k j).getD k 0 = j := by
          rw [List.getD_eq_getElem?_getD, List.getElem?_insertIdx_self, if_pos (by omega)]; rfl
        rw [hg, List.eraseIdx_insertIdx_self, denAll_eq, getD_lt (by simpa using hj), List.getElem_map]

/-- NumPy refuses every argument whose last axes are not the input shape, and what it returns has the batch's shape. -/
theorem call_shapes (f : FE K) (x : Arr K) : ((¬∃ b, x.shape = b ++ f.inS) → f.call false x = .error .valueError) ∧
    ∀ a, f.call false x = .ok a → ∃ b, x.shape = b ++ f.inS ∧ a.shape = b ++ f.outS := by
  have key : checkIn false f.inS x.shape = true ↔ ∃ b, x.shape = b ++ f.inS := by
    simp only [checkIn, Bool.false_eq_true, if_false, decide_eq_true_eq]
    constructor
    · intro h
      unfold tailFrom at h
      split_ifs at h with h1
      · exact ⟨x.shape.take (x.shape.length - f.inS.length), by
          conv_lhs => rw [← List.take_append_drop (x.shape.length - f.inS.length) x.shape, h]⟩
      · exfalso
        have := congrArg List.length h
        rw [List.length_drop] at this
        omega
    · rintro ⟨b, hb⟩; rw [hb, tailFrom_append]
  constructor
  · intro h
    rw [FE.call, if_neg (fun hc => h (key.mp hc))]
  · intro a h
    rw [FE.call] at h
    split_ifs at h with hc
    obtain ⟨b, hb⟩ := key.mp hc
    refine ⟨b, hb, ?_⟩
    cases he : FE.eval false f x with
    | error e => simp only [he] at h; cases h
    | ok c =>
      simp only [he, hb, headTo_append, checkOut] at h
      split_ifs at h with h2
      injection h with h
      subst h
      exact h2

lemma callAll_congr {x : Arr K} : ∀ fs : List (FE K), (∀ f ∈ fs, f.call true x = f.call false x) →
    FE.callAll true fs x = FE.callAll false fs x
  | [], _ => by simp [FE.callAll]
  | f :: fs, h => by
    rw [FE.callAll, FE.callAll, h f (by simp), callAll_congr fs fun g hg => h g (by simp [hg])]

/-- On arguments NumPy accepts, `f.jax(x)` and `f(x)` are the same: the same array or the same exception. -/
theorem jax_eq_numpy {f : FE K} (hf : WF f) {b : Shp} {x : Arr K} (hx : x.shape = b ++ f.inS) :
    f.call true x = f.call false x := by
  have key : ∀ g : FE K, x.shape = b ++ g.inS → FE.eval true g x = FE.eval false g x → g.call true x = g.call false x := by
    intro g hg he
    rw [FE.call, FE.call, he, hg, checkIn_append, checkIn_append]
  induction hf with
  | affine _ _ => exact key _ hx (by rw [FE.eval, FE.eval])
  | const => exact key _ hx (by rw [FE.eval, FE.eval])
  | zero => exact key _ hx (by rw [FE.eval, FE.eval])
  | lam _ => exact key _ hx (by rw [FE.eval, FE.eval])
  | stack _ hi _ _ _ _ ih =>
    refine key _ hx ?_
    rw [FE.eval, FE.eval, callAll_congr _ fun f hf => ih f hf (by rw [hi f hf]; exact hx)]
  | scaled _ ih => exact key _ hx (by rw [FE.eval, FE.eval, ih hx])
  | sum _ hi _ _ ih =>
    refine key _ hx ?_
    rw [FE.eval, FE.eval, callAll_congr _ fun f hf => ih f hf (by rw [hi f hf]; exact hx)]

omit [Ring K] in
lemma bat_nil {f : FE K} (hf : WF f) : Bat [] f := by
  induction hf with
  | affine _ _ => exact .affine (Or.inl rfl)
  | const => exact .const
  | zero => exact .zero
  | lam _ => exact .lam
  | stack _ _ _ _ _ _ ih => exact .stack (Or.inl rfl) ih
  | scaled _ ih => exact .scaled ih
  | sum _ _ _ _ ih => exact .sum ih

/-- At a single point every function the constructors return can be evaluated and gives its value. -/
theorem call_point (jx : Bool) {f : FE K} (hf : WF f) {x : Arr K} (hx : x.shape = f.inS) :
    ∃ a, f.call jx x = .ok a ∧ a.shape = f.outS ∧ ∀ o, Fits f.outS o → a.get o = f.den x.get o := by
  obtain ⟨a, h1, h2, h3⟩ := call_correct jx hf (bat_nil hf) (b := []) hx
  exact ⟨a, h1, h2, fun o ho => h3 [] o trivial ho⟩

/-- `Affine` with a vector `A` never evaluates on a batch. -/
theorem affine_vector_batch (jx : Bool) {A c x : Arr K} {m : ℕ} (hA : A.shape = [m]) (hc : c.shape = [m])
    (hx : x.shape ≠ []) :
    ∃ e, (FE.affine A c).call jx x = .error e := by
  cases h : (FE.affine A c).call jx x with
  | error e => exact ⟨e, rfl⟩
  | ok a =>
    exfalso
    have hlen : ∀ {s t r : Shp}, Coeff.bcastRev s t = some r → r.length = max s.length t.length := by
      intro s
      induction s with
      | nil => intro t r h; rw [bcastRev_nil] at h; injection h with h; subst h; simp
      | cons a s ih =>
        intro t r h
        cases t with
        | nil => rw [Coeff.bcastRev] at h; injection h with h; subst h; simp; simp
        | cons d t =>
          rw [Coeff.bcastRev, Option.bind_eq_some_iff] at h
          obtain ⟨q, _, h⟩ := h
          obtain ⟨r', h', rfl⟩ := Option.map_eq_some_iff.mp h
          simp [ih h']
    have hlen' : ∀ {s t r : Shp}, Coeff.bcast s t = some r → r.length = max s.length t.length := by
      intro s t r h
      obtain ⟨r', h', rfl⟩ := Option.map_eq_some_iff.mp h
      simpa using hlen h'
    rw [FE.call, FE.eval, affineEval, hA] at h
    split_ifs at h with hin
    simp only [zipB, hA, FE.inS, FE.outS, List.length_nil, headTo, Nat.zero_le, if_true, Nat.sub_zero, List.take_length] at h
    cases h1 : Coeff.bcast [m] x.shape with
    | none => simp [h1, bind, Except.bind] at h
    | some s =>
      simp only [h1, bind, Except.bind] at h
      cases h2 : Coeff.bcast s c.shape with
      | none => simp [h2] at h
      | some t =>
        simp only [h2, checkOut] at h
        split_ifs at h with h3
        have e1 := hlen' h1
        have e2 := hlen' h2
        have e3 := congrArg List.length h3
        have hp : 0 < x.shape.length := List.length_pos_iff.mpr hx
        simp only [List.length_append, List.length_cons, List.length_nil] at e1 e3
        rw [hc, List.length_singleton] at e2
        omega

end LinPDE.Func
