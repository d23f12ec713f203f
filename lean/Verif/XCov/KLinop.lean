import Verif.XCov.LinopProps

/-!
# Operator view of covariance functions

`linop(x0, x1)` of the classes of `randprocs/covfuncs/`.  ProbNum's own contracts: the operator of a class without its own
rule is the dense matrix with rows over outputs, then points (`kLinop`); a scaled covariance function and a sum multiply and
add the operators of their parts; `linop` flattens the batch axes before it calls `_evaluate_linop`;
`BlockDiagonalMatrix(*ms)` is the block-diagonal matrix; `linop(x0)` means `linop(x0, x0)`.  Tensor products on grids:
`Verif.Tensor`.
-/

namespace LinPDE.XCov
open LinPDE.Nd LinPDE.Ops LinPDE.CovAlg LinPDE.Covar
variable {X : Type}

/-- `pn.linops.BlockDiagonalMatrix(*ms)`, dense, for blocks of equal shape. -/
noncomputable def blockDiagArr (ms : List (Arr ℝ)) : Except Err (Arr ℝ) :=
  match ms with
  | [] => .error .indexError
  | m :: _ =>
    if ms.all fun n => n.shape = m.shape then
      let h := m.shape.getD 0 0
      let w := m.shape.getD 1 0
      .ok ⟨[ms.length * h, ms.length * w], fun i => if i.getD 0 0 / h = i.getD 1 0 / w then
        ((ms[i.getD 0 0 / h]?).map fun n => n.get [i.getD 0 0 % h, i.getD 1 0 % w]).getD 0 else 0⟩
    else .error .valueError

mutual
/-- `k.linop(x0, x1)`: `covfuncs/_stack.py:88-105` (one block column for `output_idx = 0`, one block row otherwise),
`_independent_multi_output.py:72-77`, `_zero.py:32-40`. -/
noncomputable def kview : K X → Pts X → Option (Pts X) → Except Err (Arr ℝ)
  | .base sh c j ev, x0, x1 => kLinop (.base sh c j ev) x0 (x1.getD x0)
  | .scaled k c, x0, x1 => do
    let m ← kview k x0 x1
    .ok (smulArr c m)
  | .sum _ ks, x0, x1 => do
    let ms ← kviewAll ks x0 x1
    matSum ms
  | .stack _ _ _ idx ks, x0, x1 => do
    let ms ← kviewAll ks x0 x1
    blockRowCol idx ms
  | .imo _ ks, x0, x1 => do
    let ms ← kviewAll ks x0 x1
    blockDiagArr ms
  | .zero sh, x0, x1 =>
    if x0.inS ≠ sh.in0 ∨ (x1.getD x0).inS ≠ sh.in1 then .error .valueError
    else .ok ⟨[sh.out0.prod * x0.batch.prod, sh.out1.prod * ((x1.map fun y => y.batch.prod).getD x0.batch.prod)],
      fun _ => 0⟩
/-- Every part. -/
noncomputable def kviewAll : List (K X) → Pts X → Option (Pts X) → Except Err (List (Arr ℝ))
  | [], _, _ => .ok []
  | k :: ks, x0, x1 => do
    let m ← kview k x0 x1
    let ms ← kviewAll ks x0 x1
    .ok (m :: ms)
end

end LinPDE.XCov
