import Verif.Func.LebProps
import Verif.Func.More

/-!
# Exceptions of function calls depend on shapes only
-/

namespace LinPDE.Func
open LinPDE.Nd

variable {K : Type} [CommRing K]

/-- The same exception, or results of the same shape. -/
def Same (r s : Except Err (Arr K)) : Prop := r.map (fun a => a.shape) = s.map fun a => a.shape

/-- The same exception, or lists of results of the same shapes. -/
def SameL (r s : Except Err (List (Arr K))) : Prop := r.map (List.map fun a => a.shape) = s.map (List.map fun a => a.shape)

lemma Same.ok {a b : Arr K} (h : a.shape = b.shape) : Same (.ok a) (.ok b) := by simp [Same, Except.map, h]

lemma Same.bind {r s : Except Err (Arr K)} {f g : Arr K → Except Err (Arr K)} (h : Same r s) (hf : ∀ a b, a.shape = b.shape → Same (f a) (g b)) :
    Same (r >>= f) (s >>= g) := by
  cases r <;> cases s <;> simp only [Same, Except.map, Except.error.injEq, Except.ok.injEq, reduceCtorEq] at h
  · rw [h]; rfl
  · exact hf _ _ h

lemma zip_shapes (f : K → K → K) {a b c d : Arr K} (h1 : a.shape = c.shape) (h2 : b.shape = d.shape) : Same (zipB f a b) (zipB f c d) := by
  unfold zipB
  rw [h1, h2]
  split
  · rfl
  · exact Same.ok rfl

lemma matmul_same (A : Arr K) (m n : ℕ) {x y : Arr K} (h : x.shape = y.shape) : Same (matmul A m n x) (matmul A m n y) := by
  unfold matmul
  rw [h]
  split
  · rfl
  · split_ifs
    · exact Same.ok rfl
    · rfl
  · split_ifs
    · exact Same.ok rfl
    · rfl

lemma firstLast_same {x y : Arr K} (h : x.shape = y.shape) : Same (firstLast x) (firstLast y) := by
  unfold firstLast
  rw [h]
  split
  · rfl
  · rfl
  · exact Same.ok (by simp [h])

lemma affine_same (A b : Arr K) {x y : Arr K} (h : x.shape = y.shape) : Same (affineEval A b x) (affineEval A b y) := by
  unfold affineEval
  split
  · exact (matmul_same _ _ _ (by simp [newAxis, h])).bind fun _ _ h1 => (firstLast_same h1).bind fun _ _ h2 => zip_shapes _ h2 rfl
  · exact (zip_shapes _ rfl h).bind fun _ _ h1 => zip_shapes _ h1 rfl

lemma lam_same (k o : ℕ) (osh : Shp → Shp) (val : Arr K → List ℕ → K) {x y : Arr K} (h : x.shape = y.shape) :
    Same (lamEval k o osh val x) (lamEval k o osh val y) := by
  unfold lamEval
  rw [h]
  split_ifs
  · rfl
  · rfl
  · exact Same.ok rfl

lemma fold_same : ∀ (as bs : List (Arr K)) (a b : Arr K), a.shape = b.shape → as.map (fun a => a.shape) = bs.map (fun a => a.shape) →
    Same (as.foldlM (fun acc b => zipB (· + ·) acc b) a) (bs.foldlM (fun acc b => zipB (· + ·) acc b) b)
  | [], [], a, b, h, _ => Same.ok h
  | [], _ :: _, _, _, _, h => by simp at h
  | _ :: _, [], _, _, _, h => by simp at h
  | c :: as, e :: bs, a, b, h, hs => by
    simp only [List.map_cons, List.cons.injEq] at hs
    rw [List.foldlM_cons, List.foldlM_cons]
    exact (zip_shapes _ h hs.1).bind fun _ _ h1 => fold_same as bs _ _ h1 hs.2

lemma reduce_shapes {as bs : List (Arr K)} (h : as.map (fun a => a.shape) = bs.map fun a => a.shape) : Same (reduceAdd as) (reduceAdd bs) := by
  match as, bs, h with
  | [], [], _ => rfl
  | a :: as, b :: bs, h =>
    simp only [List.map_cons, List.cons.injEq] at h
    exact fold_same as bs a b h.1 h.2

lemma stack_same (axis : ℤ) {as bs : List (Arr K)} (h : as.map (fun a => a.shape) = bs.map fun a => a.shape) : Same (npStack as axis) (npStack bs axis) := by
  match as, bs, h with
  | [], [], _ => rfl
  | a :: as, b :: bs, h =>
    have hl : (a :: as).length = (b :: bs).length := by simpa using congrArg List.length h
    have ha : ((a :: as).all fun c => decide (c.shape = a.shape)) = ((b :: bs).all fun c => decide (c.shape = b.shape)) := by
      have e1 : ((a :: as).all fun c => decide (c.shape = a.shape)) = (((a :: as).map fun c => c.shape).all fun s => decide (s = a.shape)) := by
        rw [List.all_map]; rfl
      have e2 : ((b :: bs).all fun c => decide (c.shape = b.shape)) = (((b :: bs).map fun c => c.shape).all fun s => decide (s = b.shape)) := by
        rw [List.all_map]; rfl
      simp only [List.map_cons, List.cons.injEq] at h
      rw [e1, e2, List.map_cons, List.map_cons, h.1, h.2]
    simp only [List.map_cons, List.cons.injEq] at h
    unfold npStack
    dsimp only
    rw [ha, h.1]
    split_ifs
    · split
      · rfl
      · exact Same.ok (by simp only [hl])
    · rfl

lemma SameL.bind {r s : Except Err (List (Arr K))} {f : List (Arr K) → Except Err (Arr K)} (h : SameL r s)
    (hf : ∀ as bs : List (Arr K), as.map (fun a => a.shape) = bs.map (fun a => a.shape) → Same (f as) (f bs)) : Same (r >>= f) (s >>= f) := by
  cases r <;> cases s <;> simp only [SameL, Except.map, Except.error.injEq, Except.ok.injEq, reduceCtorEq] at h
  · rw [h]; rfl
  · exact hf _ _ h

mutual
/-- C59: whether a call raises, which exception it raises, and the shape of its result depend on the shape of the argument only, for all functions, also for those
whose parts do not fit together. -/
theorem call_same (jx : Bool) (f : FE K) {x y : Arr K} (h : x.shape = y.shape) : Same (f.call jx x) (f.call jx y) := by
  rw [FE.call, FE.call, h]
  split_ifs
  · have := eval_same jx f h
    generalize FE.eval jx f x = r at this
    generalize FE.eval jx f y = s at this
    cases r <;> cases s <;> simp only [Same, Except.map, Except.error.injEq, Except.ok.injEq, reduceCtorEq] at this
    · rw [this]; rfl
    · simp only [checkOut, this]
      split_ifs
      · exact Same.ok this
      · rfl
  · rfl
  termination_by (sizeOf f, 1)
theorem eval_same (jx : Bool) (f : FE K) {x y : Arr K} (h : x.shape = y.shape) : Same (FE.eval jx f x) (FE.eval jx f y) := by
  match f with
  | .affine A b => rw [FE.eval, FE.eval]; exact affine_same A b h
  | .const i v => rw [FE.eval, FE.eval, h]; rfl
  | .zero i o => rw [FE.eval, FE.eval, h]; rfl
  | .lam i o osh val => rw [FE.eval, FE.eval]; exact lam_same _ _ _ _ h
  | .stack i o fs axis =>
    rw [FE.eval, FE.eval]
    exact (callAll_same jx fs h).bind fun _ _ h1 => stack_same axis h1
  | .scaled f c =>
    rw [FE.eval, FE.eval]
    exact (call_same jx f h).bind fun _ _ h1 => Same.ok h1
  | .sum i o fs =>
    rw [FE.eval, FE.eval]
    exact (callAll_same jx fs h).bind fun _ _ h1 => reduce_shapes h1
  termination_by (sizeOf f, 0)
theorem callAll_same (jx : Bool) (fs : List (FE K)) {x y : Arr K} (h : x.shape = y.shape) : SameL (FE.callAll jx fs x) (FE.callAll jx fs y) := by
  match fs with
  | [] => rw [FE.callAll, FE.callAll]; rfl
  | f :: fs =>
    have h1 := call_same jx f h
    have h2 := callAll_same jx fs h
    rw [FE.callAll, FE.callAll]
    generalize FE.call jx f x = r at h1
    generalize FE.call jx f y = s at h1
    generalize FE.callAll jx fs x = r' at h2
    generalize FE.callAll jx fs y = s' at h2
    cases r <;> cases s <;> simp only [Same, Except.map, Except.error.injEq, Except.ok.injEq, reduceCtorEq] at h1
    · rw [h1]; rfl
    · cases r' <;> cases s' <;> simp only [SameL, Except.map, Except.error.injEq, Except.ok.injEq, reduceCtorEq] at h2
      · rw [h2]; rfl
      · simp [SameL, bind, Except.bind, Except.map, h1, h2]
  termination_by (sizeOf fs, 0)
end

/-- C60: the integrand of `quad` never raises once it has been evaluated at one point. -/
theorem quad_integrand {f : FE ℝ} {a b : ℝ} {v : Arr ℝ} (h : quad f a b = .ok v) (t : ℝ) : ∃ w, f.call false ⟨[], fun _ => t⟩ = .ok w ∧ w.shape.prod = 1 := by
  have hs := call_same false f (x := (⟨[], fun _ => a⟩ : Arr ℝ)) (y := ⟨[], fun _ => t⟩) rfl
  unfold quad at h
  cases ha : f.call false ⟨[], fun _ => a⟩ with
  | error e => rw [ha] at h; cases h
  | ok w =>
    rw [ha] at h hs
    cases ht : f.call false ⟨[], fun _ => t⟩ with
    | error e => rw [ht] at hs; cases hs
    | ok w' =>
      rw [ht] at hs
      have e : w.shape = w'.shape := Except.ok.inj hs
      dsimp only at h
      split_ifs at h with hp
      exact ⟨w', rfl, by rw [← e]; exact not_not.mp hp⟩

/-- A sum of arrays whose shapes do not fit raises for every argument, and a scalar function for none. -/
example (x y : ℚ) : Same ((FE.sum [] [] [.const [] ⟨[2], fun _ => 1⟩, .const [] ⟨[3], fun _ => 1⟩] : FE ℚ).call false ⟨[], fun _ => x⟩)
    ((FE.sum [] [] [.const [] ⟨[2], fun _ => 1⟩, .const [] ⟨[3], fun _ => 1⟩] : FE ℚ).call false ⟨[], fun _ => y⟩) := call_same _ _ rfl

example (t : ℝ) : ∃ w, (FE.affine ⟨[], fun _ => 1⟩ ⟨[], fun _ => 0⟩ : FE ℝ).call false ⟨[], fun _ => t⟩ = .ok w ∧ w.shape.prod = 1 :=
  quad_integrand (a := 0) (b := 2) (quad_ok (.affine (by simp) (by simp [FE.outS])) (by simp [FE.inS]) (by simp [FE.outS]) 0 2) t

end LinPDE.Func
