import Verif.Block.Model2x2
import Mathlib.Algebra.Module.LinearMap.Defs
import Mathlib.Algebra.Module.Submodule.Basic
import Mathlib.LinearAlgebra.Span.Defs

/-!
# Model of Gaussian-process conditioning (`randprocs/_gaussian_process/_conditional.py`)

A Gaussian-process prior is a mean function and a covariance function on an input set `X`
(for vector-valued processes `X` also contains the output index).  Linear functionals act on a space
`F` of admissible functions (e.g. the sufficiently smooth ones); `Λ` are the functionals the code can
apply to both arguments of the covariance function.
-/

namespace LinPDE.GP
open Matrix LinPDE.Block

/-- A Gaussian process prior (`pn.randprocs.GaussianProcess(mean, cov)`) together with the function
space its linear functionals act on. -/
structure Prior (X : Type) where
  /-- admissible functions -/
  F : Submodule ℝ (X → ℝ)
  /-- mean function -/
  m : F
  /-- covariance function -/
  k : X → X → ℝ
  /-- sections `k(x, ·)` are admissible -/
  sec_mem : ∀ x, k x ∈ F
  /-- functionals that can be applied to the covariance function -/
  Λ : Submodule ℝ (F →ₗ[ℝ] ℝ)
  /-- `x ↦ L(k(x, ·))` is admissible again -/
  cross_mem : ∀ L ∈ Λ, (fun x => L ⟨k x, sec_mem x⟩) ∈ F

variable {X : Type}

/-- `L(prior.cov, argnum=1)` (`_conditional.py:352`, `_lintransforms.py:12`): the cross-covariance
`x ↦ cov(f(x), L f)`. -/
def Prior.cross (P : Prior X) (L : P.Λ) : P.F := ⟨fun x => L.1 ⟨P.k x, P.sec_mem x⟩, P.cross_mem L.1 L.2⟩

/-- `L(crosscov)` (`_lintransforms.py:13`): `cov(L f, L' f)`. -/
def Prior.cov (P : Prior X) (L L' : P.Λ) : ℝ := L.1 (P.cross L')

/-- One call of `condition_on_observations`: `n` scalar measurements (the flattened functional), an
optional noise random variable (`None`, or mean and covariance of a `Normal`; a `Constant` has zero
covariance) and the flattened observations. -/
structure Batch (P : Prior X) where
  n : ℕ
  L : Fin n → P.Λ
  noise : Option ((Fin n → ℝ) × Matrix (Fin n) (Fin n) ℝ)
  Y : Fin n → ℝ

/-- A conditional Gaussian process (`_conditional.py:56-88`): cross-covariances `kLas`, Gram operator
and representer weights.  (The prior is the parameter `P`.) -/
structure Core (P : Prior X) where
  s : Shape
  kLas : s.Idx → P.F
  gram : Op s
  w : Matrix s.Idx Unit ℝ

/-- The conditional process together with the stored observations `_Ls`, `_Ys`, `_bs`. -/
structure Cond (P : Prior X) extends Core P where
  Ls : s.Idx → P.Λ
  Ys : s.Idx → ℝ
  /-- flattened noise means; `0` for `None` (lines 100-104 do not subtract anything then) -/
  bs : s.Idx → ℝ

/-- `_conditional.py:350-393`: `pred_mean` returned by `_preprocess_observations`. -/
def Batch.predMean {P : Prior X} (b : Batch P) : Fin b.n → ℝ :=
  match b.noise with
  | none => fun i => (b.L i).1 P.m
  | some (mean, _) => fun i => (b.L i).1 P.m + mean i

/-- `_conditional.py:355,389-396`: `gram` returned by `_preprocess_observations`, flagged symmetric
positive definite. -/
def Batch.gramOp {P : Prior X} (b : Batch P) : Op (.leaf b.n) :=
  match b.noise with
  | none => .dense (Matrix.of fun i j => P.cov (b.L i) (b.L j)) { symm := true, pd := true }
  | some (_, cov) =>
    .dense ((Matrix.of fun i j => P.cov (b.L i) (b.L j) : Matrix (Fin b.n) (Fin b.n) ℝ) + cov)
      { symm := true, pd := true }

/-- The stored noise mean of a batch. -/
def Batch.bMean {P : Prior X} (b : Batch P) : Fin b.n → ℝ :=
  match b.noise with
  | none => 0
  | some (mean, _) => mean

/-- A vector as one column. -/
def col {ι : Type} (v : ι → ℝ) : Matrix ι Unit ℝ := fun i _ => v i

/-- `_conditional.py:26-54` (`from_observations`). -/
noncomputable def Core.fromObservations (e : Env) {P : Prior X} (b : Batch P) : Except Err (Core P) := do
  let w ← b.gramOp.solve e (col fun i => b.Y i - b.predMean i)
  return { s := .leaf b.n, kLas := fun i => P.cross (b.L i), gram := b.gramOp, w := w }

/-- `_conditional.py:253-294` (`condition_on_observations`) on the numerical part of the state.
`L(self._kLas).linop` (lines 269, 420-429) is the row of blocks `L (kLa_j)`. -/
noncomputable def Core.condition (e : Env) {P : Prior X} (c : Core P) (b : Batch P) :
    Except Err (Core P) := do
  let lower : Matrix (Fin b.n) c.s.Idx ℝ := Matrix.of fun i j => (b.L i).1 (c.kLas j)
  let gram ← mk2x2 c.gram (some lowerᵀ) none b.gramOp true
  let w ← gram.schurUpdate e c.w (col fun i => b.Y i - b.predMean i)
  return { s := .node c.s (.leaf b.n), kLas := Sum.elim c.kLas fun i => P.cross (b.L i),
           gram := gram, w := w }

/-- `from_observations` with the stored observations. -/
noncomputable def Cond.fromObservations (e : Env) {P : Prior X} (b : Batch P) : Except Err (Cond P) := do
  let w ← b.gramOp.solve e (col fun i => b.Y i - b.predMean i)
  return { s := .leaf b.n, kLas := fun i => P.cross (b.L i), gram := b.gramOp, w := w,
           Ls := b.L, Ys := b.Y, bs := b.bMean }

/-- `condition_on_observations` with the stored observations (`_Ys + (Y,)` etc., lines 286-288). -/
noncomputable def Cond.condition (e : Env) {P : Prior X} (c : Cond P) (b : Batch P) :
    Except Err (Cond P) := do
  let lower : Matrix (Fin b.n) c.s.Idx ℝ := Matrix.of fun i j => (b.L i).1 (c.kLas j)
  let gram ← mk2x2 c.gram (some lowerᵀ) none b.gramOp true
  let w ← gram.schurUpdate e c.w (col fun i => b.Y i - b.predMean i)
  return { s := .node c.s (.leaf b.n), kLas := Sum.elim c.kLas fun i => P.cross (b.L i),
           gram := gram, w := w,
           Ls := Sum.elim c.Ls b.L, Ys := Sum.elim c.Ys b.Y, bs := Sum.elim c.bs b.bMean }

/-- A whole history: `prior.condition_on_observations(b₀).condition_on_observations(b₁)…`. -/
noncomputable def run (e : Env) {P : Prior X} (b : Batch P) (l : List (Batch P)) : Except Err (Cond P) := do
  let c ← Cond.fromObservations e b
  l.foldlM (fun c b => c.condition e b) c

/-- `_conditional.py:95-110` (`representer_weights`) when nothing is cached. -/
noncomputable def Cond.lazyWeights (e : Env) {P : Prior X} (c : Cond P) :
    Except Err (Matrix c.s.Idx Unit ℝ) :=
  c.gram.solve e (col fun i => c.Ys i - (c.Ls i).1 P.m - c.bs i)

/-- `_conditional.py:193-197` (`Mean._evaluate`). -/
def Core.mean {P : Prior X} (c : Core P) (x : X) : ℝ :=
  P.m.1 x + ∑ j, (c.kLas j).1 x * c.w j ()

/-- `_conditional.py:223-231` (`CovarianceFunction._evaluate`) for a scalar output at a pair of
points. -/
noncomputable def Core.covfunc (e : Env) {P : Prior X} (c : Core P) (x0 x1 : X) : Except Err ℝ := do
  let z ← c.gram.solve e (col fun j => (c.kLas j).1 x1)
  return P.k x0 x1 - ∑ j, (c.kLas j).1 x0 * z j ()

/-- `_conditional.py:453-467`: a functional (given by its scalar components) applied to a conditional
process: the mean. -/
def Core.functlMean {P : Prior X} (c : Core P) {n : ℕ} (L : Fin n → P.Λ) (i : Fin n) : ℝ :=
  (L i).1 P.m + ∑ j, (L i).1 (c.kLas j) * c.w j ()

/-- `_conditional.py:453-467`: the covariance `cov - crosscov @ gram.inv() @ crosscov.T`. -/
noncomputable def Core.functlCov (e : Env) {P : Prior X} (c : Core P) {n : ℕ} (L : Fin n → P.Λ) :
    Except Err (Matrix (Fin n) (Fin n) ℝ) := do
  let crosscov : Matrix (Fin n) c.s.Idx ℝ := Matrix.of fun i j => (L i).1 (c.kLas j)
  let z ← c.gram.solve e crosscovᵀ
  return (Matrix.of fun i j => P.cov (L i) (L j)) - crosscov * z

/-! ### Linear function operators -/

/-- A linear function operator defined on the admissible functions of the process: it maps them to
functions on `X'`, and `f ↦ (D f)(x')` can be applied to both arguments of the covariance function. -/
structure FuncOp (P : Prior X) (X' : Type) where
  F' : Submodule ℝ (X' → ℝ)
  D : P.F →ₗ[ℝ] F'
  ev_mem : ∀ x', ((LinearMap.proj x' : (X' → ℝ) →ₗ[ℝ] ℝ) ∘ₗ F'.subtype ∘ₗ D) ∈ P.Λ

/-- `f ↦ (D f)(x')`. -/
def FuncOp.ev {P : Prior X} {X' : Type} (D : FuncOp P X') (x' : X') : P.Λ := ⟨_, D.ev_mem x'⟩

/-- Functionals on `F'` whose composition with `D` can be applied to the covariance function. -/
def FuncOp.Λ' {P : Prior X} {X' : Type} (D : FuncOp P X') : Submodule ℝ (D.F' →ₗ[ℝ] ℝ) where
  carrier := {L | L ∘ₗ D.D ∈ P.Λ}
  add_mem' {a b} ha hb := by
    show (a + b) ∘ₗ D.D ∈ P.Λ
    rw [LinearMap.add_comp]; exact P.Λ.add_mem ha hb
  zero_mem' := by
    show (0 : D.F' →ₗ[ℝ] ℝ) ∘ₗ D.D ∈ P.Λ
    rw [LinearMap.zero_comp]; exact P.Λ.zero_mem
  smul_mem' c a ha := by
    show (c • a) ∘ₗ D.D ∈ P.Λ
    rw [LinearMap.smul_comp]; exact P.Λ.smul_mem c ha

/-- Composition of a functional with the operator. -/
def FuncOp.pull {P : Prior X} {X' : Type} (D : FuncOp P X') (L : D.Λ') : P.Λ := ⟨L.1 ∘ₗ D.D, L.2⟩

/-- `_lintransforms.py:26-32` (`LinearFunctionOperator.__call__(GaussianProcess)`): mean `D m`,
covariance function `D` applied to the second and then to the first argument.  (Symmetry of the
covariance makes the sections admissible again.) -/
def Prior.map (P : Prior X) (hs : ∀ L L' : P.Λ, P.cov L L' = P.cov L' L) {X' : Type} (D : FuncOp P X') :
    Prior X' where
  F := D.F'
  m := D.D P.m
  k x' y' := (D.D (P.cross (D.ev y'))).1 x'
  sec_mem x' := by
    have : (fun y' => (D.D (P.cross (D.ev y'))).1 x') = (D.D (P.cross (D.ev x'))).1 := by
      funext y'; exact hs (D.ev x') (D.ev y')
    rw [this]; exact (D.D _).2
  Λ := D.Λ'
  cross_mem L hL := by
    have h : ∀ x', (fun y' => (D.D (P.cross (D.ev y'))).1 x') = (D.D (P.cross (D.ev x'))).1 := by
      intro x'; funext y'; exact hs (D.ev x') (D.ev y')
    have h2 : (fun x' => L ⟨fun y' => (D.D (P.cross (D.ev y'))).1 x', (h x').symm ▸ (D.D _).2⟩) =
        (D.D (P.cross (D.pull ⟨L, hL⟩))).1 := by
      funext x'
      have : L ⟨fun y' => (D.D (P.cross (D.ev y'))).1 x', (h x').symm ▸ (D.D _).2⟩ =
          L (D.D (P.cross (D.ev x'))) := congrArg L (Subtype.ext (h x'))
      rw [this]
      exact hs (D.pull ⟨L, hL⟩) (D.ev x')
    rw [h2]; exact (D.D _).2

/-- A batch of measurements of `D f` as a batch of measurements of `f`. -/
def Batch.pull {P : Prior X} (hs : ∀ L L' : P.Λ, P.cov L L' = P.cov L' L) {X' : Type} (D : FuncOp P X')
    (b : Batch (P.map hs D)) : Batch P where
  n := b.n
  L i := D.pull (b.L i)
  noise := b.noise
  Y := b.Y

/-- `_conditional.py:432-450` (`LinearFunctionOperator.__call__(ConditionalGaussianProcess)`): the
operator is applied to the prior and to the cross-covariances; Gram operator and weights are kept. -/
def Core.map {P : Prior X} (c : Core P) (hs : ∀ L L' : P.Λ, P.cov L L' = P.cov L' L) {X' : Type}
    (D : FuncOp P X') : Core (P.map hs D) where
  s := c.s
  kLas j := D.D (c.kLas j)
  gram := c.gram
  w := c.w

end LinPDE.GP
