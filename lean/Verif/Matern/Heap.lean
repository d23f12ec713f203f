import Verif.Matern.Model

/-!
# Shared state behind derivative kernels (C25)

`linfuncops/diffops/_matern.py`: all derivative kernels of one Matérn kernel keep a reference to its `_scale_factors`
(`:36, 155, 287, 381, 459, 533`). Derived quantities are `functools.cached_property`s, computed at their first use.
`_scaled_direction` (`:54-62`) multiplies the referenced scale factors in place, so that for array lengthscales the shared
array is overwritten and the cached direction is that same array; for scalar lengthscales the scale factors are an
immutable NumPy scalar and `*=` binds a new object. The other cached quantities are fresh objects (`:173-183, 294-298,
397-401, 470-474, 548-555`).
-/

namespace LinPDE.Matern
open LinPDE.Polys

/-- A cached property: the shared array itself, or data computed from the scale factors at the time of the first use. -/
inductive Cache (d : ℕ)
  | alias
  | own (s : Fin d → ℝ)

/-- A kernel object; the parameters inside `k` fix `p` only, the scale factors are looked up in the shared state. -/
structure Obj (d : ℕ) where
  k : MK d
  cache : Option (Cache d)

/-- The state: the scale factors of the Matérn kernel, whether they are an array, and the objects created from it. -/
structure St (d : ℕ) where
  s : Fin d → ℝ
  isArray : Bool
  objs : List (Obj d)

variable {d : ℕ}

/-- Evaluation with current scale factors `s` for the differences and `c` for the cached quantities
(`_matern.py:64-85, 190-209, 295-316, 401-408, 472-479, 557-570`). For `idDD` the cached vector is the direction itself. -/
noncomputable def evalWith (k : MK d) (s c x0 x1 : Fin d → ℝ) : ℝ :=
  let v := sdiff s x0 x1
  match k with
  | .matern m => pev (derivPoly m.p 0) (norm v) * Real.exp (-norm v)
  | .idDD _ _ _ poly => pev poly (norm v) * Real.exp (-norm v) * dot c v
  | .ddDD _ dir0 dir1 negDeriv diff =>
    let u0 := fun i => c i * dir0 i
    let u1 := fun i => c i * dir1 i
    (dot u0 u1 * pev negDeriv (norm v) - dot u0 v * dot u1 v * pev diff (norm v)) * Real.exp (-norm v)
  | .uniDDDD _ dir0 dir1 poly => (∑ i, dir0 i * dir1 i * c i ^ 2) * pev poly (norm v) * Real.exp (-norm v)
  | .idWL _ w _ poly => (∑ i, w i * c i * c i) * Real.exp (-norm v) * pev poly (norm v)
  | .wlWL _ w0 w1 poly => (∑ i, w0 i * w1 i * c i ^ 4) * Real.exp (-norm v) * pev poly (norm v)
  | .ddWL _ dir w reverse poly =>
    Real.exp (-norm v) * pev poly (norm v) * dot (fun i => w i * c i ^ 3 * dir i * (if reverse then -1 else 1)) v

/-- First use or reuse of the cached quantity of an object: the quantity, the new cache and the new scale factors. -/
def useCache (o : Obj d) (s : Fin d → ℝ) (isArray : Bool) : (Fin d → ℝ) × Cache d × (Fin d → ℝ) :=
  match o.cache with
  | some .alias => (s, .alias, s)
  | some (.own c) => (c, .own c, s)
  | none =>
    match o.k with
    | .idDD _ dir reverse _ =>
      let u := fun i => s i * dir i * (if reverse then 1 else -1)
      if isArray then (u, .alias, u) else (u, .own u, s)
    | _ => (s, .own s, s)

/-- Evaluation of object number `i` at a pair of points; the differences are scaled before the cached property is
accessed (`:71-75`). -/
noncomputable def St.evalAt (σ : St d) (i : ℕ) (x0 x1 : Fin d → ℝ) : Option ℝ × St d :=
  match σ.objs[i]? with
  | none => (none, σ)
  | some o =>
    let r := useCache o σ.s σ.isArray
    (some (evalWith o.k σ.s r.1 x0 x1), { σ with s := r.2.2, objs := σ.objs.set i { o with cache := some r.2.1 } })

/-- Evaluation of the Matérn kernel itself. -/
noncomputable def St.base (σ : St d) (p : ℕ) (x0 x1 : Fin d → ℝ) : ℝ :=
  (MK.matern ⟨p, σ.s⟩).eval x0 x1

/-- A history of evaluations. -/
noncomputable def St.run (σ : St d) : List (ℕ × (Fin d → ℝ) × (Fin d → ℝ)) → St d
  | [] => σ
  | (i, x0, x1) :: h => (σ.evalAt i x0 x1).2.run h

/-- The state after constructing derivative kernels of the Matérn kernel `m`, none evaluated yet. -/
def fresh (m : Par d) (isArray : Bool) (ks : List (MK d)) : St d := ⟨m.s, isArray, ks.map fun k => ⟨k, none⟩⟩

end LinPDE.Matern
