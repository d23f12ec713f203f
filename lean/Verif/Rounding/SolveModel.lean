import Verif.Rounding.UpdateModel
import Verif.Rounding.DerivModel

/-!
# Model of a whole history of observations in floating point

`from_observations`, `condition_on_observations` and the evaluation of the posterior mean (`_gaussian_process/_conditional.py`) on floats only:
the Gram matrices, cross-covariances and prior means are the computed ones. In contrast to `Rounding.UpdateModel` the state contains no exact
quantities (apart from `err`, which is a specification). Measurements are described by addresses `α`, e.g. an operator and a point.
-/

namespace LinPDE.Rounding
open Finset Matrix LinPDE.Block

variable {X α : Type}

/-- The computed covariances of measurements, cross-covariances, means of measurements and prior means. -/
structure FlKer (X α : Type) where
  g : α → α → ℝ
  k : X → α → ℝ
  p : α → ℝ
  m : X → ℝ

/-- One call of `condition_on_observations(Y, …, b)` with noise `b` given by its mean and covariance. -/
structure FlObs (α : Type) where
  n : ℕ
  at_ : Fin n → α
  Y : Fin n → ℝ
  bm : Fin n → ℝ
  bc : Matrix (Fin n) (Fin n) ℝ

/-- `_conditional.py:355, 389-396`: `gram + b.cov`, flagged symmetric positive definite. -/
def FlObs.gram (F : Fmt) (K : FlKer X α) (o : FlObs α) : Op (.leaf o.n) :=
  .dense (Matrix.of fun i j : Fin o.n => F.rd (K.g (o.at_ i) (o.at_ j) + o.bc i j)) { symm := true, pd := true }

/-- `_conditional.py:350-353, 386-388`: `Y - pred_mean` with `pred_mean = L(prior.mean) + b.mean`. -/
def rhsFl (F : Fmt) (y p b : ℝ) : ℝ := F.rd (y - F.rd (p + b))

/-- The state: `_conditional.py:56-88` in floats, and a bound `err` on the residual of the weights (specification). -/
structure FlSt (α : Type) where
  s : Shape
  at_ : s.Idx → α
  gram : Op s
  w : s.Idx → ℝ
  Y : s.Idx → ℝ
  b : s.Idx → ℝ
  err : ℝ

/-- `from_observations` (`_conditional.py:26-54`). -/
noncomputable def FlSt.start (F : Fmt) (slv : Solver) (K : FlKer X α) (o : FlObs α) : FlSt α :=
  let G := o.gram F K
  let r : Fin o.n → ℝ := fun i => rhsFl F (o.Y i) (K.p (o.at_ i)) (o.bm i)
  let w : Fin o.n → ℝ := slv (.leaf o.n) G.toMat r
  { s := .leaf o.n, at_ := o.at_, gram := G, w := w, Y := o.Y, b := o.bm,
    err := ∑ i : Fin o.n, |(G.toMat *ᵥ w) i - r i| }

/-- `condition_on_observations` (`_conditional.py:253-294`): `L(self._kLas)` is the row of the new measurements, the Gram operator is
extended, the weights are updated by `schur_update` (`linops/_block.py:226-231`). -/
noncomputable def FlSt.step (F : Fmt) (slv : Solver) (tr : ∀ s : Shape, Option (Tree s.Idx)) (K : FlKer X α) (c : FlSt α) (o : FlObs α) : Except Err (FlSt α) := do
  let lower : Matrix (Fin o.n) c.s.Idx ℝ := Matrix.of fun i j => K.g (o.at_ i) (c.at_ j)
  let gram ← mk2x2 c.gram (some lowerᵀ) none (o.gram F K) true
  let A := c.gram.toMat
  let D : Matrix (Fin o.n) (Fin o.n) ℝ := (o.gram F K).toMat
  let r : Fin o.n → ℝ := fun i => rhsFl F (o.Y i) (K.p (o.at_ i)) (o.bm i)
  let solveS : (Fin o.n → ℝ) → Fin o.n → ℝ := slv (.leaf o.n) (D - lower * A⁻¹ * lowerᵀ)
  let solveA := slv c.s A
  let tB : Option (Tree (Fin o.n)) := tr (.leaf o.n)
  return { s := .node c.s (.leaf o.n), at_ := Sum.elim c.at_ o.at_, gram := gram,
           w := updateFl F (tr c.s) tB lowerᵀ lower solveS solveA c.w r, Y := Sum.elim c.Y o.Y, b := Sum.elim c.b o.bm,
           err := c.err + stepErr F (tr c.s) tB A lowerᵀ lower D solveS solveA c.w r }

/-- A whole history. -/
noncomputable def FlSt.run (F : Fmt) (slv : Solver) (tr : ∀ s : Shape, Option (Tree s.Idx)) (K : FlKer X α) (o : FlObs α) (os : List (FlObs α)) : Except Err (FlSt α) :=
  os.foldlM (fun c o => c.step F slv tr K o) (FlSt.start F slv K o)

/-- `_conditional.py:193-197` (`Mean._evaluate`). -/
def FlSt.mean (F : Fmt) (K : FlKer X α) (f : FlSt α) (t : Tree f.s.Idx) (x : X) : ℝ :=
  postMean F t (K.m x) (fun j => K.k x (f.at_ j)) f.w

/-! ## Squared exponential kernels -/

/-- `kLa = L1(k, argnum=1)`, then `L0(kLa, argnum=0)` (`_conditional.py:352-355, 420-429`). -/
def ekPair {d : ℕ} (l : Fin d → ℝ) (L0 L1 : Matern.DOp d) : Except ExpQuad.Err (ExpQuad.EK d) :=
  ExpQuad.apply L1 false (.expquad l) >>= fun k => ExpQuad.apply L0 true k

/-- The computed covariances of operators of a squared exponential process at points (`_registry.py`, `diffops/_expquad.py`) with the scale factors `s`; pairs without a
closed form are left out. -/
noncomputable def ekKer {d : ℕ} (F : Fmt) (T : ℕ → Tree (Fin d)) (s l : Fin d → ℝ) (p : Matern.DOp d × (Fin d → ℝ) → ℝ) (m : (Fin d → ℝ) → ℝ) :
    FlKer (Fin d → ℝ) (Matern.DOp d × (Fin d → ℝ)) where
  g a b := match ekPair l a.1 b.1 with
    | .ok k => ekFl F T s k a.2 b.2
    | .error _ => 0
  k x a := match ExpQuad.apply a.1 false (.expquad l) with
    | .ok k => ekFl F T s k x a.2
    | .error _ => 0
  p := p
  m := m

/-! ## Matérn kernels in one dimension -/

/-- As `ekPair`. -/
def mkPair (m : Matern.Par 1) (L0 L1 : Matern.DOp 1) : Except Matern.Err (Matern.MK 1) :=
  Matern.apply L1 false (.matern m) >>= fun k => Matern.apply L0 true k

/-- As `ekKer`, for a Matérn process with `p` derivatives (`_registry.py`, `diffops/_matern.py`); `Q` restricts the operators (to order `p`). -/
noncomputable def mkKer (F : Fmt) (T : ℕ → Tree (Fin 1)) (s : Fin 1 → ℝ) (m : Matern.Par 1) {Q : Matern.DOp 1 → Prop} (pm : {L // Q L} × (Fin 1 → ℝ) → ℝ)
    (mf : (Fin 1 → ℝ) → ℝ) : FlKer (Fin 1 → ℝ) ({L // Q L} × (Fin 1 → ℝ)) where
  g a b := match mkPair m a.1 b.1 with
    | .ok k => mkFl F T s k a.2 b.2
    | .error _ => 0
  k x a := match Matern.apply a.1.1 false (.matern m) with
    | .ok k => mkFl F T s k x a.2
    | .error _ => 0
  p := pm
  m := mf

end LinPDE.Rounding
