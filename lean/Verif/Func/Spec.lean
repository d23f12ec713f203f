import Verif.Func.Model

/-!
# What the functions mean

`den f p o` is the entry `o` of the value of `f` at the point with entries `p`; `WF` describes the objects the constructors
return, `Bat b` the functions that can be evaluated on a batch of shape `b`.
-/

namespace LinPDE.Func
open LinPDE.Nd
variable {K : Type} [Ring K]

mutual
/-- The mathematical function: `A p + b`, a constant, the given callable, the stack of functions along an axis of the
output, a multiple, a sum. -/
def FE.den : FE K → (List ℕ → K) → List ℕ → K
  | .affine A b, p, o => match A.shape with
    | [_, n] => (∑ j ∈ Finset.range n, A.get [o.getD 0 0, j] * p [j]) + b.get o
    | _ => A.get o * p [] + b.get o
  | .const _ v, _, o => v.get o
  | .zero _ _, _, _ => 0
  | .lam i _ _ val, p, o => val ⟨i, p⟩ o
  | .stack _ s fs axis, p, o => match normAxis axis s.length with
    | .ok k => (denAll fs).getD (o.getD k 0) (fun _ _ => 0) p (o.eraseIdx k)
    | .error _ => 0
  | .scaled f c, p, o => c * f.den p o
  | .sum _ _ fs, p, o => ((denAll fs).map fun g => g p o).sum
/-- The functions of a list. -/
def denAll : List (FE K) → List ((List ℕ → K) → List ℕ → K)
  | [] => []
  | f :: fs => f.den :: denAll fs
end

/-- Functions that the constructors return. -/
inductive WF : FE K → Prop
  | affine {A b} (hA : A.shape.length ≤ 2) (hb : b.shape = (FE.affine A b).outS) : WF (.affine A b)
  | const {i v} : WF (.const i v)
  | zero {i o} : WF (.zero i o)
  | lam {i o osh val} (h : osh i = o) : WF (.lam i o osh val)
  | stack {i s o k fs axis} (hne : fs ≠ []) (hi : ∀ f ∈ fs, f.inS = i) (hs : ∀ f ∈ fs, f.outS = s)
      (hk : normAxis axis (s.length + 1) = .ok k) (ho : o = s.insertIdx k fs.length) (h : ∀ f ∈ fs, WF f) :
      WF (.stack i o fs axis)
  | scaled {f c} (h : WF f) : WF (.scaled f c)
  | sum {i o fs} (hne : fs ≠ []) (hi : ∀ f ∈ fs, f.inS = i) (ho : ∀ f ∈ fs, f.outS = o) (h : ∀ f ∈ fs, WF f) :
      WF (.sum i o fs)

/-- A single point, or no `Affine` with a vector `A` and no stack along an axis counted from the front. -/
inductive Bat (b : Shp) : FE K → Prop
  | affine {A c} (h : b = [] ∨ A.shape.length ≠ 1) : Bat b (.affine A c)
  | const {i v} : Bat b (.const i v)
  | zero {i o} : Bat b (.zero i o)
  | lam {i o osh val} : Bat b (.lam i o osh val)
  | stack {i o fs axis} (h : b = [] ∨ axis < 0) (hf : ∀ f ∈ fs, Bat b f) : Bat b (.stack i o fs axis)
  | scaled {f c} (h : Bat b f) : Bat b (.scaled f c)
  | sum {i o fs} (h : ∀ f ∈ fs, Bat b f) : Bat b (.sum i o fs)

/-- `a` has the shape `b + output_shape` and contains the value of `f` at every point of the batch. -/
def IsVal (b : Shp) (f : FE K) (x a : Arr K) : Prop :=
  a.shape = b ++ f.outS ∧ ∀ i o, Fits b i → Fits f.outS o → a.get (i ++ o) = f.den (fun p => x.get (i ++ p)) o

end LinPDE.Func
