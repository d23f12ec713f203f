import Verif.XCov.Bases

/-!
# C56: the base classes of transformed covariance functions refuse operators and functionals of other shapes
-/

namespace LinPDE.XCov.Bases
open LinPDE.CovAlg LinPDE.Nd

/-- C56: an operator is accepted in the chosen argument exactly if its input matches that argument; that argument and its output
are replaced, the others are kept. -/
theorem identityOp_ok_iff (k k' : KSh) (L : OpSh) :
    (identityOp k L true = .ok k' ↔ L.inDom = k.in0 ∧ L.inCod = k.out0 ∧
      k'.in0 = L.outDom ∧ k'.in1 = k.in1 ∧ k'.out0 = L.outCod ∧ k'.out1 = k.out1) ∧
    (identityOp k L false = .ok k' ↔ L.inDom = k.in1 ∧ L.inCod = k.out1 ∧
      k'.in0 = k.in0 ∧ k'.in1 = L.outDom ∧ k'.out0 = k.out0 ∧ k'.out1 = L.outCod) := by
  obtain ⟨a, b, c, d⟩ := k'
  constructor <;> unfold identityOp <;> constructor
  · intro h
    split_ifs at h with h1 h2 <;> simp_all
  · rintro ⟨h1, h2, h3, h4, h5, h6⟩
    simp_all
  · intro h
    split_ifs at h with h1 h2 <;> simp_all
  · rintro ⟨h1, h2, h3, h4, h5, h6⟩
    simp_all

/-- C56: operators in both arguments are accepted exactly if each is accepted in its argument, and give the same covariance
function as either after the other. -/
theorem bothOps_spec (k : KSh) (L0 L1 : OpSh) :
    bothOps k L0 L1 = (identityOp k L0 true >>= fun k' => identityOp k' L1 false) ∧
    bothOps k L0 L1 = (identityOp k L1 false >>= fun k' => identityOp k' L0 true) := by
  constructor
  all_goals
    unfold bothOps identityOp
    by_cases h1 : L0.inDom = k.in0 <;> by_cases h2 : L0.inCod = k.out0 <;> by_cases h3 : L1.inDom = k.in1 <;>
      by_cases h4 : L1.inCod = k.out1 <;> simp [h1, h2, h3, h4, bind, Except.bind]

/-- C56: a functional is accepted in the chosen argument exactly if its input matches that argument; the process is that of the
other argument. -/
theorem functlPV_ok_iff (k : KSh) (f : FunctlSh) (c : PVSh) :
    (functlPV k f true = .ok c ↔ f.inDom = k.in0 ∧ f.inCod = k.out0 ∧
      c.inS = k.in1 ∧ c.outS = k.out1 ∧ c.rv = f.out ∧ c.rev = true) ∧
    (functlPV k f false = .ok c ↔ f.inDom = k.in1 ∧ f.inCod = k.out1 ∧
      c.inS = k.in0 ∧ c.outS = k.out0 ∧ c.rv = f.out ∧ c.rev = false) := by
  obtain ⟨a, b, e, d⟩ := c
  constructor <;> unfold functlPV <;> constructor
  · intro h
    split_ifs at h with h1 h2 <;> simp_all
  · rintro ⟨h1, h2, h3, h4, h5, h6⟩
    simp_all
  · intro h
    split_ifs at h with h1 h2 <;> simp_all
  · rintro ⟨h1, h2, h3, h4, h5, h6⟩
    simp_all

/-- A functional of a two-output process on the plane in the second argument of a covariance function with a process on the line
in the first. -/
example : functlPV ⟨[], [2], [3], [2]⟩ ⟨[2], [2], [7]⟩ false = .ok ⟨[], [3], [7], false⟩ ∧
    functlPV ⟨[], [2], [3], [2]⟩ ⟨[2], [2], [7]⟩ true = .error .valueError ∧
    identityOp ⟨[], [2], [3], [2]⟩ ⟨[2], [2], [], [5]⟩ false = .ok ⟨[], [], [3], [5]⟩ := ⟨rfl, rfl, rfl⟩

end LinPDE.XCov.Bases
