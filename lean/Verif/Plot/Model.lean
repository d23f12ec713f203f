import Verif.Piecewise.Model
import Verif.Domain.Model
import Mathlib.Probability.CDF
import Mathlib.Probability.Distributions.Gaussian.Real

/-!
# Plotting

Model of `utils/plotting.py`.  Axes are the list of what has been drawn on them: lines, bands and, in three dimensions,
surfaces, polygons, line collections and the limits of the vertical axis.  Colours and labels are kept; transparency, line
widths, stacking order and the other keyword arguments handed to matplotlib are not.

Outside contracts: `ax.plot(x, y)` draws one line for every column and takes the next colour of the cycle for a line without a
colour; `ax.fill_between` fills between two curves; `scipy.stats.norm.ppf` is the quantile function of the standard normal
distribution with the infinite values at `0` and `1` and NaN outside `[0, 1]`; `numpy.flip` along an axis that does not exist
raises `AxisError`; `Axes3D.set_zlim` raises `ValueError` for limits that are not finite; a sample drawn without a generator
raises `AttributeError`.
-/

namespace LinPDE.Plot
open LinPDE.Piecewise (PW)
open LinPDE.Domains (linspace)

/-- Exceptions. -/
inductive Err
  | valueError
  | typeError
  | indexError
  | axisError
  | attributeError
  | assertionError
  deriving DecidableEq

/-- A colour given by name or taken from the cycle. -/
inductive Color
  | named (s : String)
  | cyc (n : ℕ)
  deriving DecidableEq

/-- Floating point numbers with infinities and NaN. -/
inductive Num
  | fin (r : ℝ)
  | pinf
  | ninf
  | nan

/-- A line; `marks` are the positions of its markers. -/
structure Line where
  pts : List (ℝ × ℝ)
  color : Color
  label : Option String
  marks : List ℕ

/-- A filled band: for every position its two ends; `vertical` is `fill_betweenx`. -/
structure Band where
  vertical : Bool
  rows : List (ℝ × Num × Num)
  color : Color

/-- Two-dimensional axes. -/
structure Ax where
  cycle : ℕ
  lines : List Line
  bands : List Band

/-- `markevery=(start, step)` on a line of `n` points. -/
def markevery (n : ℕ) (m : Option (ℕ × ℕ)) : List ℕ :=
  match m with
  | none => []
  | some (s, k) => (List.range n).filter fun i => s ≤ i ∧ (i - s) % k = 0

/-- `ax.plot` with one curve. -/
def Ax.plot (ax : Ax) (pts : List (ℝ × ℝ)) (color : Option Color) (label : Option String) (m : Option (ℕ × ℕ)) : Ax × Line :=
  match color with
  | some c => let l : Line := ⟨pts, c, label, markevery pts.length m⟩; (⟨ax.cycle, ax.lines ++ [l], ax.bands⟩, l)
  | none =>
    let l : Line := ⟨pts, .cyc ax.cycle, label, markevery pts.length m⟩
    (⟨ax.cycle + 1, ax.lines ++ [l], ax.bands⟩, l)

/-- `ax.plot` with several curves: one line after the other. -/
def Ax.plotMany (ax : Ax) (color : Option Color) (m : Option (ℕ × ℕ)) : List (List (ℝ × ℝ)) → Ax × List Line
  | [] => (ax, [])
  | p :: ps =>
    let r := ax.plot p color none m
    let s := r.1.plotMany color m ps
    (s.1, r.2 :: s.2)

/-- A function that can be plotted: an instance of `PiecewiseLinear` has a method of its own. -/
inductive PFn
  | fn (f : ℝ → ℝ)
  | pl (p : PW)

/-- Evaluation at an array of points. -/
noncomputable def PFn.call (f : PFn) (xs : List ℝ) : Except Err (List ℝ) :=
  match f with
  | .fn f => .ok (xs.map f)
  | .pl p => xs.mapM fun x => match p.evaluate x with
    | .ok y => .ok y
    | .error _ => .error .indexError

/-- `plotting.py:21-28` (`plot_function`). -/
noncomputable def plotFunction (f : PFn) (ax : Ax) (xs : List ℝ) (color : Option Color) (label : Option String)
    (m : Option (ℕ × ℕ)) : Except Err (Ax × List Line) := do
  let ys ← f.call xs
  let r := ax.plot (xs.zip ys) color label m
  .ok (r.1, [r.2])

/-- `plotting.py:45-54`, the loop of `plot_piecewise_linear_function`: `idx`, the remaining pieces with their ends, the colour
and the lines so far. -/
noncomputable def plLoop (label : Option String) (m : Option (ℕ × ℕ)) :
    ℕ → List (LinPDE.Piecewise.Piece × ℝ × ℝ) → Ax → Option Color → List Line → Ax × List Line
  | _, [], ax, _, lines => (ax, lines)
  | idx, (p, l, r) :: rest, ax, color, lines =>
    let d := ax.plot [(l, p.ev l), (r, p.ev r)] color (if idx = 0 then label else none) m
    let lines' := lines ++ [d.2]
    plLoop label m (idx + 1) rest d.1 (lines'.head?.map (·.color)) lines'

/-- `plotting.py:34-56` (`plot_piecewise_linear_function`): the points `xs` are not used. -/
noncomputable def plotPiecewiseLinear (f : PW) (ax : Ax) (color : Option Color) (label : Option String)
    (m : Option (ℕ × ℕ)) : Ax × List Line :=
  plLoop label m 0 (f.fns.zip (f.xs.dropLast.zip f.xs.tail)) ax color []

/-- `f.plot(ax, xs, …)`: `plotting.py:31, 59` attach the two functions above to the classes. -/
noncomputable def PFn.plot (f : PFn) (ax : Ax) (xs : List ℝ) (color : Option Color) (label : Option String)
    (m : Option (ℕ × ℕ)) : Except Err (Ax × List Line) :=
  match f with
  | .fn g => plotFunction (.fn g) ax xs color label m
  | .pl p => if p.kind = .linear then .ok (plotPiecewiseLinear p ax color label m) else plotFunction (.pl p) ax xs color label m

open ProbabilityTheory in
/-- The quantile function of the standard normal distribution. -/
noncomputable def quantile (p : ℝ) : ℝ := sInf {x | p ≤ cdf (gaussianReal 0 1) x}

open Classical in
/-- `scipy.stats.norm.ppf`. -/
noncomputable def ppf (p : ℝ) : Num :=
  if p < 0 ∨ 1 < p then .nan else if p = 0 then .ninf else if p = 1 then .pinf else .fin (quantile p)

/-- `-x`. -/
def Num.neg : Num → Num
  | .fin r => .fin (-r)
  | .pinf => .ninf
  | .ninf => .pinf
  | .nan => .nan

open Classical in
/-- `x * s`. -/
noncomputable def Num.mul (x : Num) (s : ℝ) : Num :=
  match x with
  | .fin r => .fin (r * s)
  | .pinf => if 0 < s then .pinf else if s < 0 then .ninf else .nan
  | .ninf => if 0 < s then .ninf else if s < 0 then .pinf else .nan
  | .nan => .nan

/-- `m + x`. -/
def Num.addTo (m : ℝ) : Num → Num
  | .fin r => .fin (m + r)
  | .pinf => .pinf
  | .ninf => .ninf
  | .nan => .nan

/-- `std_factor = -scipy.stats.norm.ppf((1.0 - cred_int) / 2.0)` (`plotting.py:122, 254, 619`). -/
noncomputable def stdFactor (credInt : ℝ) : Num := (ppf ((1 - credInt) / 2)).neg

/-- `mean - fill_delta, mean + fill_delta` with `fill_delta = std_factor * std` (`plotting.py:124-131, 620-630`). -/
noncomputable def bandRow (credInt x m s : ℝ) : ℝ × Num × Num :=
  (x, Num.addTo m ((stdFactor credInt).mul s).neg, Num.addTo m ((stdFactor credInt).mul s))

/-- A random process on the real line: `det` is `DeterministicProcess`; `std` is `none` if `std(xs)` raises
`NotImplementedError`; `sample` is `randproc.sample(rng, xs, size=(n,))`. -/
structure Proc1 where
  det : Bool
  mean : PFn
  std : Option (ℝ → ℝ)
  sample : ℕ → (xs : List ℝ) → (n : ℕ) → Fin n → Fin xs.length → ℝ

/-- Keyword arguments of `_plot_1d_random_process`. -/
structure Opts where
  credInt : ℝ := 0.95
  numSamples : ℕ := 0
  rng : Option ℕ := none
  color : Option Color := none
  label : Option String := none
  marks : Option (ℕ × ℕ) := none
  vertical : Bool := false

/-- `plotting.py:164-183` (`plot_random_process_samples`): `xs_plt` repeats the points in every column, the samples are
transposed, matplotlib draws the columns. -/
noncomputable def plotSamples (P : Proc1) (ax : Ax) (xs : List ℝ) (rng : ℕ) (n : ℕ) (vertical : Bool) (color : Option Color) :
    Ax × List Line :=
  let samplesT : Fin xs.length → Fin n → ℝ := fun i j => P.sample rng xs n j i
  let xsPlt : Fin xs.length → Fin n → ℝ := fun i _ => xs.get i
  let X := if vertical then samplesT else xsPlt
  let Y := if vertical then xsPlt else samplesT
  ax.plotMany color none (List.ofFn fun j => List.ofFn fun i => (X i j, Y i j))

/-- What `_plot_1d_random_process` returns, with the axes. -/
structure Drawn where
  ax : Ax
  mean : List Line
  band : Option Band
  samples : List Line

/-- `plotting.py:132, 155, 538`: the first line of the mean gives the colour. -/
def firstColor (ls : List Line) : Except Err Color :=
  match ls with
  | [] => .error .indexError
  | l :: _ => .ok l.color

/-- `plotting.py:115-137`: the shaded region. -/
noncomputable def drawBand (P : Proc1) (ax : Ax) (ml : List Line) (xs : List ℝ) (o : Opts) :
    Except Err (Ax × Option Band) :=
  match P.std with
  | none => .ok (ax, none)
  | some std => do
    let ms ← P.mean.call xs
    let c ← firstColor ml
    let b : Band := ⟨o.vertical, (xs.zip ms).map fun q => bandRow o.credInt q.1 q.2 (std q.1), c⟩
    .ok (⟨ax.cycle, ax.lines, ax.bands ++ [b]⟩, some b)

/-- `plotting.py:139-159`: the samples. -/
noncomputable def drawSamples (P : Proc1) (ax : Ax) (ml : List Line) (xs : List ℝ) (o : Opts) : Except Err (Ax × List Line) :=
  if 0 < o.numSamples then
    match o.rng with
    | none => .error .valueError
    | some g => do
      let c ← firstColor ml
      .ok (plotSamples P ax xs g o.numSamples o.vertical (some c))
  else .ok (ax, [])

/-- `plotting.py:76-161` (`_plot_1d_random_process`): the mean is drawn without `vertical`. -/
noncomputable def plot1d (P : Proc1) (ax : Ax) (xs : List ℝ) (o : Opts) : Except Err Drawn := do
  let r ← P.mean.plot ax xs o.color o.label o.marks
  if P.det then .ok ⟨r.1, r.2, none, []⟩
  else do
    let b ← drawBand P r.1 r.2 xs o
    let s ← drawSamples P b.1 r.2 xs o
    .ok ⟨s.1, r.2, b.2, s.2⟩

/-! ## Three dimensions -/

/-- Arrays with at most one axis. -/
inductive A1 (α : Type)
  | scalar (a : α)
  | vec (l : List α)

/-- Entries. -/
def A1.toList {α : Type} : A1 α → List α
  | .scalar a => [a]
  | .vec l => l

/-- Application to every entry. -/
def A1.map {α β : Type} (f : α → β) : A1 α → A1 β
  | .scalar a => .scalar (f a)
  | .vec l => .vec (l.map f)

/-- `np.stack(np.broadcast_arrays(a, b), axis=-1)`: an array of pairs. -/
def stack2 {α β : Type} : A1 α → A1 β → Except Err (A1 (α × β))
  | .scalar a, .scalar b => .ok (.scalar (a, b))
  | .scalar a, .vec l => .ok (.vec (l.map fun b => (a, b)))
  | .vec l, .scalar b => .ok (.vec (l.map fun a => (a, b)))
  | .vec l, .vec r =>
    if l.length = r.length then .ok (.vec (l.zip r))
    else match l, r with
      | [a], r => .ok (.vec (r.map fun b => (a, b)))
      | l, [b] => .ok (.vec (l.map fun a => (a, b)))
      | _, _ => .error .valueError

/-- The two axes a slice can run along (`axis not in ("x", "y")` raises `ValueError`). -/
inductive Axis
  | x
  | y
  | other
  deriving DecidableEq

/-- A filled polygon in the plane orthogonal to `zdir` at `zs`. -/
structure Poly3 where
  verts : List (ℝ × ℝ)
  zs : A1 ℝ
  zdir : Axis
  color : Color

/-- A collection of line segments chains. -/
structure Lines3 where
  chunks : List (List (ℝ × ℝ))
  zs : A1 ℝ
  zdir : Axis
  above : Bool

/-- Three-dimensional axes. -/
structure Ax3 where
  cycle : ℕ
  surfs : List (List ((ℝ × ℝ) × ℝ))
  polys : List Poly3
  lines : List Lines3
  zlim : Option (ℝ × ℝ)

/-- `np.flip(a, axis=-2)` and `np.concatenate((a, b), axis=-2)` need an axis besides the last. -/
def needVec {α : Type} : A1 α → Except Err (List α)
  | .scalar _ => .error .axisError
  | .vec l => .ok l

/-- `plotting.py:436-486` (`fill_between_3d`) with a colour. -/
def fillBetween3d (ax : Ax3) (xs ys z1 z2 : A1 ℝ) (axis : Axis) (color : Color) : Except Err (Ax3 × Poly3) :=
  if axis = .other then .error .valueError
  else do
    let xs2d := if axis = .x then xs else ys
    let upper ← stack2 xs2d z2
    let lower ← stack2 xs2d z1
    let lower ← needVec lower
    let upper ← needVec upper
    let p : Poly3 := ⟨upper ++ lower.reverse, if axis = .x then ys else xs, if axis = .x then .y else .x, color⟩
    .ok ({ ax with polys := ax.polys ++ [p] }, p)

open Classical in
/-- `plotting.py:370-381` (`line_chunks`): the loop, with the finished chunks and the last one. -/
noncomputable def chunkLoop (above : Bool) : List (ℝ × ℝ × ℝ) → List (List (ℝ × ℝ)) → List (ℝ × ℝ) → List (List (ℝ × ℝ))
  | [], done, cur => done ++ [cur]
  | (x, yl, ys) :: rest, done, cur =>
    if (above = true ∧ ys ≤ yl) ∨ (above = false ∧ yl < ys) then chunkLoop above rest done (cur ++ [(x, yl)])
    else chunkLoop above rest (done ++ [cur]) []

/-- `plotting.py:370-381` (`line_chunks`): the chunks that are not empty. -/
noncomputable def lineChunks (above : Bool) (pts : List (ℝ × ℝ × ℝ)) : List (List (ℝ × ℝ)) :=
  (chunkLoop above pts [] []).filter fun c => 0 < c.length

/-- `plotting.py:359-409` (`_plot_line_zbuffered_wrt_surface`): the part below the surface, then the part above. -/
noncomputable def plotLineZ (ax : Ax3) (pts : List (ℝ × ℝ × ℝ)) (z : A1 ℝ) (zdir : Axis) : Ax3 :=
  { ax with lines := ax.lines ++ [⟨lineChunks false pts, z, zdir, false⟩, ⟨lineChunks true pts, z, zdir, true⟩] }

/-- A random process on the plane; `sample` is `f.sample(rng, xys, size=n)`. -/
structure Proc2 where
  mean : ℝ × ℝ → ℝ
  std : ℝ × ℝ → ℝ
  sample : ℕ → (n : ℕ) → List (ℝ × ℝ) → List (List ℝ)

/-- Keyword arguments of `_plot_2d_random_process`. -/
structure Opts3 where
  xs : Option (A1 ℝ) := none
  ys : Option (A1 ℝ) := none
  axis : Axis := .x
  color : Option Color := none
  padding : ℝ := 0
  credInt : ℝ := 0.95
  credColor : Option Color := none
  numSamples : ℕ := 0
  rng : Option ℕ := none

/-- `np.min` and `np.max`: `ValueError` without entries. -/
noncomputable def npMinMax (l : List ℝ) : Except Err (ℝ × ℝ) :=
  match l with
  | [] => .error .valueError
  | a :: r => .ok (r.foldl min a, r.foldl max a)

/-- `plotting.py:256-260`: the colour of the credible interval. -/
def credColor (ax : Ax3) (o : Opts3) : Ax3 × Color :=
  match o.credColor with
  | some c => (ax, c)
  | none => ({ ax with cycle := ax.cycle + 1 }, .cyc ax.cycle)

open Classical in
/-- `plotting.py:262-294`: the two polygons of the credible interval if the factor is positive; the lower and upper values of the
interval and the range of the vertical axis. -/
noncomputable def drawSlice (P : Proc2) (ax : Ax3) (o : Opts3) (xs ys : A1 ℝ) (xys : A1 (ℝ × ℝ)) (c : Color) (z : ℝ × ℝ) :
    Except Err (Ax3 × A1 ℝ × A1 ℝ × (ℝ × ℝ)) :=
  match stdFactor o.credInt with
  | .fin k =>
    if 0 < k then do
      let lower := xys.map fun q => P.mean q - k * P.std q
      let upper := xys.map fun q => P.mean q + k * P.std q
      let r ← fillBetween3d ax xs ys lower (xys.map P.mean) o.axis c
      let s ← fillBetween3d r.1 xs ys (xys.map P.mean) upper o.axis r.2.color
      let a ← npMinMax lower.toList
      let b ← npMinMax upper.toList
      .ok (s.1, lower, upper, (min z.1 a.1, max z.2 b.2))
    else .ok (ax, xys.map P.mean, xys.map P.mean, z)
  | .pinf => .error .valueError
  | .ninf => .ok (ax, xys.map P.mean, xys.map P.mean, z)
  | .nan => .ok (ax, xys.map P.mean, xys.map P.mean, z)

/-- `zip(xs, ys_line, ys_surf)` (`plotting.py:373`): iterating over a scalar raises `TypeError`. -/
def zip3 (xs : A1 ℝ) (yl : List ℝ) (ys : A1 ℝ) : Except Err (List (ℝ × ℝ × ℝ)) :=
  match xs, ys with
  | .vec l, .vec s => .ok (l.zip (yl.zip s))
  | _, _ => .error .typeError

/-- `plotting.py:312-325`: one pair of collections for every sample. -/
noncomputable def sampleLoop (o : Opts3) (xs ys : A1 ℝ) (mean : A1 ℝ) : List (List ℝ) → Ax3 → Except Err Ax3
  | [], ax => .ok ax
  | s :: rest, ax => do
    let pts ← zip3 (if o.axis = .x then xs else ys) s mean
    sampleLoop o xs ys mean rest (plotLineZ ax pts (if o.axis = .x then ys else xs) (if o.axis = .x then .y else .x))

/-- `plotting.py:296-328`: the samples and the range of the vertical axis. -/
noncomputable def drawSamples3 (P : Proc2) (ax : Ax3) (o : Opts3) (xs ys : A1 ℝ) (xys : A1 (ℝ × ℝ)) (z : ℝ × ℝ) :
    Except Err (Ax3 × (ℝ × ℝ)) :=
  if 0 < o.numSamples then
    match o.rng with
    | none => .error .attributeError
    | some g => do
      let samples := P.sample g o.numSamples xys.toList
      let ax ← sampleLoop o xs ys (xys.map P.mean) samples ax
      let m ← npMinMax samples.flatten
      .ok (ax, (min z.1 m.1, max z.2 m.2))
  else .ok (ax, z)

/-- `plotting.py:330-354`: the remaining part of the slice, drawn without `axis=slice_axis`. -/
noncomputable def drawRest (ax : Ax3) (o : Opts3) (xs ys lower upper : A1 ℝ) (z : ℝ × ℝ) : Except Err (Ax3 × (ℝ × ℝ)) :=
  match o.color with
  | none => .ok (ax, z)
  | some c => do
    let z' := (z.1 - o.padding, z.2 + o.padding)
    let r ← fillBetween3d ax xs ys (.scalar z'.1) lower .x c
    let s ← fillBetween3d r.1 xs ys upper (.scalar z'.2) .x c
    .ok (s.1, z')

/-- `plotting.py:189-356` (`_plot_2d_random_process`). -/
noncomputable def plot2d (P : Proc2) (ax : Ax3) (xy : List (ℝ × ℝ)) (o : Opts3) : Except Err Ax3 := do
  let ax : Ax3 := { ax with surfs := ax.surfs ++ [xy.map fun q => (q, P.mean q)] }
  let z ← npMinMax (xy.map P.mean)
  match o.xs, o.ys with
  | some xs, some ys => do
    let xys ← stack2 xs ys
    let c := credColor ax o
    let b ← drawSlice P c.1 o xs ys xys c.2 z
    let s ← drawSamples3 P b.1 o xs ys xys b.2.2.2
    let r ← drawRest s.1 o xs ys b.2.1 b.2.2.1 s.2
    .ok { r.1 with zlim := some r.2 }
  | _, _ => .ok ax

/-- The process given to `plot_random_process`, by its `input_shape`. -/
inductive ProcAny
  | one (P : Proc1)
  | two (P : Proc2)
  | shape (s : List ℕ)

/-- `plotting.py:62-69` (`plot_random_process`). -/
noncomputable def plotRandomProcess (P : ProcAny) (ax : Ax) (ax3 : Ax3) (xs : List ℝ) (xy : List (ℝ × ℝ)) (o : Opts)
    (o3 : Opts3) : Except Err (Drawn ⊕ Ax3) :=
  match P with
  | .one P => (plot1d P ax xs o).map .inl
  | .two P => (plot2d P ax3 xy o3).map .inr
  | .shape _ => .error .typeError

/-! ## Local Taylor polynomials -/

/-- A scalar normal random variable: mean and variance. -/
structure N1 where
  mean : ℝ
  var : ℝ

/-- `Normal.std`. -/
noncomputable def N1.std (n : N1) : ℝ := Real.sqrt n.var

/-- `plotting.py:588-596`: `f_x + df_x * h + ddf_x[None] / 2.0 @ h[None] ** 2` at one point `h` of the grid. -/
noncomputable def taylor2 (f df : ℝ) (ddf : N1) (h : ℝ) : N1 :=
  ⟨f + df * h + ddf.mean / 2 * h ^ 2, ddf.var / 2 ^ 2 * (h ^ 2) ^ 2⟩

/-- The lines and bands of `plot_local_curvature`. -/
structure Curv where
  ax : Ax
  means : List Line
  fills : List Band

open Classical in
/-- `plotting.py:541-639` (`plot_local_curvature`) for arrays of the lengths `N` that the assertions demand. -/
noncomputable def plotLocalCurvature (ax : Ax) (xs fs dfs : List ℝ) (ddfs : List N1) (radius : ℝ) (gridsize : ℕ) (credInt : ℝ)
    (color : Option Color) : Except Err Curv :=
  if fs.length ≠ xs.length ∨ dfs.length ≠ xs.length ∨ ddfs.length ≠ xs.length then .error .assertionError
  else
    let gridsize := 2 * (gridsize / 2) + 1
    let centered := linspace (-radius) radius gridsize
    let data := xs.zip (fs.zip (dfs.zip ddfs))
    let row := fun (q : ℝ × ℝ × ℝ × N1) => centered.map fun h => (q.1 + h, taylor2 q.2.1 q.2.2.1 q.2.2.2 h)
    let r := ax.plotMany color (some (gridsize / 2, gridsize)) (data.map fun q => (row q).map fun p => (p.1, p.2.mean))
    if 0 < credInt then
      let fills := (data.zip (r.2.map (·.color))).map fun q =>
        (⟨false, (row q.1).map fun p => bandRow credInt p.1 p.2.mean p.2.std, q.2⟩ : Band)
      .ok ⟨⟨r.1.cycle, r.1.lines, r.1.bands ++ fills⟩, r.2, fills⟩
    else .ok ⟨r.1, r.2, []⟩

/-- Taylor coefficients: a normal random vector. -/
structure NVec where
  n : ℕ
  mean : ℕ → ℝ
  cov : ℕ → ℕ → ℝ

/-- `plotting.py:512-522`: the parametric process `Σ wₖ (x - x₀)ᵏ`; mean and covariance function of a parametric Gaussian
process are those of `_gaussian_process/_parametric.py` and `covfuncs/_parametric.py` (module `Param`). No samples are drawn
here. -/
noncomputable def taylorProc (x0 : ℝ) (w : NVec) : Proc1 where
  det := false
  mean := .fn fun x => ∑ k ∈ Finset.range w.n, (x - x0) ^ k * w.mean k
  std := some fun x => Real.sqrt (∑ k ∈ Finset.range w.n, ∑ l ∈ Finset.range w.n, (x - x0) ^ k * w.cov k l * (x - x0) ^ l)
  sample := fun _ _ _ _ _ => 0

/-- `plotting.py:489-538` (`plot_local_taylor_processes`), the loop. -/
noncomputable def taylorLoop (radius : ℝ) (gridsize : ℕ) (label : Option String) :
    ℕ → List (ℝ × NVec) → Ax → Option Color → Except Err Ax
  | _, [], ax, _ => .ok ax
  | idx, (x0, w) :: rest, ax, color =>
    if w.n = 0 then .error .indexError
    else do
      let d ← plot1d (taylorProc x0 w) ax ((linspace (-radius) radius gridsize).map fun h => x0 + h)
        { color := color, label := if idx = 0 then label else none, marks := some (gridsize / 2, gridsize) }
      let c ← firstColor d.mean
      taylorLoop radius gridsize label (idx + 1) rest d.ax (some (color.getD c))

/-- `plotting.py:489-538` (`plot_local_taylor_processes`). -/
noncomputable def plotLocalTaylor (ax : Ax) (xs : List ℝ) (ws : List NVec) (radius : ℝ) (gridsize : ℕ) (label : Option String)
    (color : Option Color) : Except Err Ax := taylorLoop radius gridsize label 0 (xs.zip ws) ax color

open ProbabilityTheory in
/-- `plotting.py:412-430` (`plot_gaussian_pdf`) for a normal random variable of size one with positive variance. -/
noncomputable def plotGaussianPdf (rv : N1) (ax : Ax) (color : Option Color) : Ax × Line :=
  ax.plot ((linspace (rv.mean - 3 * rv.std) (rv.mean + 3 * rv.std) (2 * (60 / 2) + 1)).map fun x =>
    (x, gaussianPDFReal rv.mean (Real.toNNReal rv.var) x)) color none none

/-! ## Animations -/

/-- An output file: text with or without one replacement field; `format` writes the number in decimal notation. -/
inductive OutFile
  | literal (s : String)
  | field (pre post : String)

/-- A file name, the number kept as a number. -/
inductive FileName
  | plain (s : String)
  | numbered (pre : String) (n : ℕ) (post : String)
  deriving DecidableEq

/-- `str(self.outfile).format(n)`. -/
def OutFile.format : OutFile → ℕ → FileName
  | .literal s, _ => .plain s
  | .field a b, n => .numbered a n b

/-- State of a `PDFWriter`: output file, frame counter, contents of the files (the pictures, as numbers). -/
structure Writer where
  out : OutFile
  idx : ℕ
  files : FileName → Option ℕ

/-- `plotting.py:648-653` (`setup`). -/
def Writer.setup (files : FileName → Option ℕ) (out : OutFile) : Writer := ⟨out, 0, files⟩

/-- `plotting.py:655-662` (`grab_frame`): the picture is saved, an existing file is overwritten. -/
def Writer.grab (w : Writer) (pic : ℕ) : Writer :=
  ⟨w.out, w.idx + 1, fun f => if f = w.out.format w.idx then some pic else w.files f⟩

end LinPDE.Plot
