import Verif.DiffFn.Model

/-!
# What a differential operator should do to a function
-/

namespace LinPDE.DiffFn
open LinPDE.Nd LinPDE.Coeff LinPDE.Calc

variable {d : ℕ}

/-- Position in C order of the output entry selected by an index; negative entries count from the end. -/
def outPos (cod : Shp) (k : List ℤ) : ℕ :=
  ravel cod (List.zipWith (fun (n : ℕ) (j : ℤ) => (if j < 0 then j + n else j).toNat) cod k)

/-- `Σ_{k,m} c_{k,m} ∂^m f_k`. -/
noncomputable def den (L : DiffOp) (v : ℕ → Smooth d) : Smooth d :=
  L.coeffs.apply fun k m => dpow m.data (v (outPos L.codShape k))

/-- The table of coefficients fits the shapes and the dimension. -/
structure OpWF (d : ℕ) (L : DiffOp) : Prop where
  table : L.coeffs.WF
  dom : L.coeffs.domShape = L.domShape
  cod : L.coeffs.codShape = L.codShape
  dim : L.domShape.prod = d
  size : ∀ kv ∈ L.coeffs.dict, ∀ mc ∈ kv.2, mc.1.data.length = d

/-- What the constructors of the classes return: the operator agrees with the class's parameters. -/
def KindWF (d : ℕ) (L : DOp) : Prop :=
  match L.kind with
  | .pdv m => m.data.length = d ∧ partialDerivative m = .ok L.op
  | .noJax m => m.data.length = d ∧ partialDerivative m = .ok L.op
  | .directional v => v.length = d ∧ directionalDerivative L.op.domShape v = .ok L.op
  | .weighted w => w.length = d ∧ weightedLaplacian L.op.domShape w = .ok L.op
  | .laplace w => w.length = d ∧ weightedLaplacian L.op.domShape w = .ok L.op
  | .general => True

/-- A differential operator on functions on `ℝ^d`. -/
structure DOp.WF (d : ℕ) (L : DOp) : Prop where
  op : OpWF d L.op
  kind : KindWF d L

/-- No term of order zero. -/
def NoZeroOrder (L : DiffOp) : Prop := ∀ kv ∈ L.coeffs.dict, ∀ mc ∈ kv.2, mc.1.order ≠ 0

mutual
/-- The function is neither a non-zero constant nor a sum with such a summand. -/
def ConstFree : SF d → Prop
  | .const _ _ _ => False
  | .sum _ _ fs => constFreeAll fs
  | _ => True
/-- All of a list. -/
def constFreeAll : List (SF d) → Prop
  | [] => True
  | f :: fs => ConstFree f ∧ constFreeAll fs
end

mutual
/-- What the constructors of sums guarantee. -/
def SF.WF : SF d → Prop
  | .sum i o fs => fs ≠ [] ∧ wfAll (i, o) fs
  | _ => True
/-- All functions of a list have the given shapes. -/
def wfAll (s : Shp × Shp) : List (SF d) → Prop
  | [] => True
  | f :: fs => f.sh = s ∧ f.WF ∧ wfAll s fs
end

end LinPDE.DiffFn
