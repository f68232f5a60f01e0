import Verif.Np
import Verif.NpReduce
import Verif.Py

/-!
# Model of `active_subspaces/utils/plotters.py`

What pyplot is asked to draw is recorded.  Simplified: the order of title, labels and ticks within a panel, grids, ticks without labels, margins, the appearance of lines, colour bars and the
aspect ratio are left out; the directory part of a file name is always `figs/`, so labels are taken to contain no `/`; `os.mkdir` succeeds.
-/

open Py

namespace Model.Plotters

/-- One thing drawn in a figure, in data coordinates. -/
inductive Draw where
  /-- `plt.subplot(code)` -/
  | subplot (code : ℕ)
  /-- `plt.rc('font', ...)` -/
  | font (f : List (String × String))
  /-- `plt.plot` or, with `log`, `plt.semilogy` of points -/
  | line (log : Bool) (pts : List (ℝ × ℝ))
  /-- `plt.fill_between`: abscissa, lower and upper ordinate -/
  | band (pts : List (ℝ × ℝ × ℝ))
  /-- `plt.scatter` of points with colours from `vmin` to `vmax` -/
  | points (pts : List (ℝ × ℝ)) (color : List ℝ) (vmin vmax : ℝ)
  /-- `convex_hull_plot_2d` -/
  | hull (pts : List (ℝ × ℝ))
  /-- `delaunay_plot_2d` -/
  | mesh (pts : List (ℝ × ℝ))
  /-- `plt.axis([xmin, xmax, ymin, ymax])` -/
  | window (xmin xmax ymin ymax : ℝ)
  /-- `plt.xticks` with labels -/
  | ticks (labels : List String)
  /-- `plt.title` -/
  | title (s : String)
  /-- `plt.xlabel`, `plt.ylabel` -/
  | xlabel (s : String)
  | ylabel (s : String)

/-- The directory and pyplot. -/
structure Plt where
  /-- `os.path.isdir('figs')` -/
  figsDir : Bool
  /-- with an interactive backend `plt.show()` returns after the windows have been closed, which destroys the figures; otherwise it does
  nothing -/
  interactive : Bool
  /-- the open figures, the current one first -/
  figures : List (List Draw)
  /-- files written, the last one first, each with what was in the figure at that time -/
  files : List (String × List Draw)
  /-- figures that have been shown -/
  shown : List (List Draw)

/-- The `opts` dictionary; `none` is an absent key. -/
structure Opts where
  figtype : Option String
  savefigs : Option Bool
  myfont : Option (List (String × String))
  /-- the key named in the documentation of `plot_opts` (22-24) -/
  font : Option (List (String × String))

/-- `opts[key]` -/
def key {α : Type} : Option α → PyM Plt α
  | some a => pure a
  | none => PyM.raise .keyError

/-- `if bad: raise Exception(...)` -/
def raiseIf (bad : Prop) [Decidable bad] (e : Err := .exception) : PyM Plt Unit := if bad then PyM.raise e else pure ()

/-- `plt.figure` -/
def figure : PyM Plt Unit := PyM.modify fun w => { w with figures := [] :: w.figures }

/-- A drawing command; it opens a figure if none is open. -/
def draw (d : Draw) : PyM Plt Unit := PyM.modify fun w =>
  { w with figures := match w.figures with | [] => [[d]] | f :: fs => (f ++ [d]) :: fs }

/-- `plt.savefig`: the current figure, a new one if none is open. -/
def savefig (name : String) : PyM Plt Unit := fun w =>
  if w.figsDir then
    match w.figures with
    | [] => (.ok (), { w with figures := [[]], files := (name, []) :: w.files })
    | f :: fs => (.ok (), { w with figures := f :: fs, files := (name, f) :: w.files })
  else (.error .ioError, w)

/-- plotters.py 487-488 `show_plot` -/
def show_plot : PyM Plt Unit := PyM.modify fun w =>
  { w with figures := if w.interactive then [] else w.figures, shown := w.figures ++ w.shown }

/-- plotters.py 33-35 -/
def myfont : List (String × String) := [("family", "arial"), ("weight", "normal"), ("size", "14")]

/-- plotters.py 9-41 `plot_opts` -/
def plot_opts (savefigs : Bool := true) (figtype : String := ".eps") : PyM Plt Opts := do
  if savefigs then
    let w ← PyM.get
    if !w.figsDir then PyM.modify fun w => { w with figsDir := true }
  return ⟨some figtype, some savefigs, some myfont, none⟩

/-- `if opts == None: opts = plot_opts()` -/
def optsOr : Option Opts → PyM Plt Opts
  | none => plot_opts
  | some o => pure o

/-- `if opts['savefigs']: plt.savefig('figs/' + stem + out_label + opts['figtype'])` -/
def saveAs (opts : Opts) (stem label : String) : PyM Plt Unit := do
  let s ← key opts.savefigs
  if s then
    let t ← key opts.figtype
    savefig ("figs/" ++ stem ++ label ++ t)

/-- `A[:,j]` -/
def column (A : NpMat) (j : ℕ) : Except Err (Fin A.rows → ℝ) :=
  if h : j < A.cols then .ok fun i => A.val i ⟨j, h⟩ else .error .indexError

/-- The points over `range(1, k+1)`. -/
noncomputable def curve {k : ℕ} (v : Fin k → ℝ) : List (ℝ × ℝ) := List.ofFn fun i => (((i : ℕ) : ℝ) + 1, v i)

/-- `plt.fill_between(range(1, k+1), B[:,a], B[:,b])` -/
noncomputable def fillBetween (k : ℕ) (B : NpMat) (a b : ℕ) : PyM Plt Unit := do
  let lo ← PyM.lift (column B a)
  let hi ← PyM.lift (column B b)
  if B.rows = k then
    draw (.band (List.ofFn fun i => (((i : ℕ) : ℝ) + 1, lo i, hi i)))
  else PyM.raise .valueError

/-- plotters.py 43-90 `eigenvalues` -/
noncomputable def eigenvalues (e : NpMat) (e_br : Option NpMat := none) (out_label : Option String := none) (opts : Option Opts := none) :
    PyM Plt Unit := do
  let opts ← optsOr opts
  let k := e.rows
  let label := out_label.getD "Output"
  figure
  let f ← key opts.myfont
  draw (.font f)
  (List.finRange e.cols).forM fun j => draw (.line true (curve fun i => e.val i j))
  match e_br with
  | some b => fillBetween k b 0 1
  | none => pure ()
  draw (.xlabel "Index")
  draw (.ylabel "Eigenvalues")
  draw (.title label)
  match e_br with
  | none => do
    let lo ← PyM.lift (Np.amin (Np.ravel e.val))
    let hi ← PyM.lift (Np.amax (Np.ravel e.val))
    draw (.window 0 (k + 1) (0.1 * lo) (10 * hi))
  | some b => do
    let l ← PyM.lift (column b 0)
    let lo ← PyM.lift (Np.amin l)
    let h ← PyM.lift (column b 1)
    let hi ← PyM.lift (Np.amax h)
    draw (.window 0 (k + 1) (0.1 * lo) (10 * hi))
  saveAs opts "evals_" label
  show_plot

/-- plotters.py 91-132 `subspace_errors` -/
noncomputable def subspace_errors (sub_br : NpMat) (out_label : Option String := none) (opts : Option Opts := none) : PyM Plt Unit := do
  let opts ← optsOr opts
  let kk := sub_br.rows
  let label := out_label.getD "Output"
  figure
  let f ← key opts.myfont
  draw (.font f)
  let mid ← PyM.lift (column sub_br 1)
  draw (.line true (curve mid))
  fillBetween kk sub_br 0 2
  draw (.xlabel "Subspace dimension")
  draw (.ylabel "Subspace distance")
  draw (.title label)
  let l ← PyM.lift (column sub_br 0)
  let lo ← PyM.lift (Np.amin l)
  draw (.window 0 (kk + 1) (0.1 * lo) 1)
  saveAs opts "subspace_" label
  show_plot

/-- One panel of plotters.py 176-318: component `i` of the eigenvectors. -/
noncomputable def panel (W : NpMat) (W_br : Option NpMat) (in_labels : Option (List String)) (opts : Opts) (i : ℕ) (title : String) :
    PyM Plt Unit := do
  let f ← key opts.myfont
  draw (.font f)
  let w ← PyM.lift (column W i)
  draw (.line false (curve w))
  match W_br with
  | some b => fillBetween W.rows b (2 * i) (2 * i + 1)
  | none => pure ()
  draw (.title title)
  match in_labels with
  | some l => draw (.ticks l)
  | none => pure ()
  draw (.window 1 W.rows (-1) 1)

/-- plotters.py 167-170 -/
def checkRanges (W : NpMat) : Option NpMat → PyM Plt Unit
  | some b => raiseIf (b.cols ≠ 2 * W.cols)
  | none => pure ()

/-- plotters.py 176-318 without `plt.figure`, which every branch begins with -/
noncomputable def panels (W : NpMat) (W_br : Option NpMat) (in_labels : Option (List String)) (label : String) (opts : Opts) :
    PyM Plt Unit :=
  if W.cols = 1 then do
    panel W W_br in_labels opts 0 label
    draw (.ylabel "Eigenvector 1 components")
  else if W.cols = 2 then do
    draw (.subplot 211)
    panel W W_br none opts 0 (label ++ ", evec 1")
    draw (.subplot 212)
    panel W W_br in_labels opts 1 (label ++ ", evec 2")
  else if W.cols = 3 then do
    draw (.subplot 221)
    panel W W_br none opts 0 (label ++ ", evec 1")
    draw (.subplot 222)
    panel W W_br in_labels opts 1 (label ++ ", evec 2")
    draw (.subplot 223)
    panel W W_br in_labels opts 2 (label ++ ", evec 3")
  else do
    draw (.subplot 221)
    panel W W_br none opts 0 (label ++ ", evec 1")
    draw (.subplot 222)
    panel W W_br none opts 1 (label ++ ", evec 2")
    draw (.subplot 223)
    panel W W_br in_labels opts 2 (label ++ ", evec 3")
    draw (.subplot 224)
    panel W W_br in_labels opts 3 (label ++ ", evec 4")

/-- plotters.py 133-323 `eigenvectors` -/
noncomputable def eigenvectors (W : NpMat) (W_br : Option NpMat := none) (in_labels : Option (List String) := none)
    (out_label : Option String := none) (opts : Option Opts := none) : PyM Plt Unit := do
  let opts ← optsOr opts
  checkRanges W W_br
  let label := out_label.getD "Output"
  figure
  panels W W_br in_labels label opts
  saveAs opts "evecs_" label
  show_plot

/-- The points with the given coordinates. -/
def pairs {M : ℕ} (a b : Fin M → ℝ) : List (ℝ × ℝ) := List.ofFn fun i => (a i, b i)

/-- plotters.py 375-391: the bivariate plot -/
noncomputable def summary2 (y : NpMat) (y1 fv : Fin y.rows → ℝ) (label : String) (opts : Opts) : PyM Plt Unit := do
  let y2 ← PyM.lift (column y 1)
  figure
  let ft ← key opts.myfont
  draw (.font ft)
  let vmin ← PyM.lift (Np.amin fv)
  let vmax ← PyM.lift (Np.amax fv)
  draw (.points (pairs y1 y2) (List.ofFn fv) vmin vmax)
  draw (.xlabel "Active variable 1")
  draw (.ylabel "Active variable 2")
  let a1 ← PyM.lift (Np.amin y1)
  let a2 ← PyM.lift (Np.amin y2)
  let b1 ← PyM.lift (Np.amax y1)
  let b2 ← PyM.lift (Np.amax y2)
  draw (.window (1.1 * min a1 a2) (1.1 * max b1 b2) (1.1 * min a1 a2) (1.1 * max b1 b2))
  draw (.title label)
  saveAs opts "ssp2_" label

/-- plotters.py 325-394 `sufficient_summary`.  Simplified: `f` with more than one column is a `ValueError`. -/
noncomputable def sufficient_summary (y f : NpMat) (out_label : Option String := none) (opts : Option Opts := none) : PyM Plt Unit := do
  let opts ← optsOr opts
  raiseIf (y.cols ≠ 1 ∧ y.cols ≠ 2)
  let label := out_label.getD "Output"
  figure
  let ft ← key opts.myfont
  draw (.font ft)
  raiseIf (f.rows ≠ y.rows ∨ f.cols ≠ 1) .valueError
  let fv : Fin y.rows → ℝ := fun i => f.get i 0
  let y1 ← PyM.lift (column y 0)
  draw (.line false (pairs y1 fv))
  draw (.xlabel "Active variable")
  draw (.ylabel label)
  saveAs opts "ssp1_" label
  (if y.cols = 2 then summary2 y y1 fv label opts else pure () : PyM Plt Unit)
  show_plot

/-- The rows of an array with two columns. -/
noncomputable def rowPairs (A : NpMat) : List (ℝ × ℝ) := List.ofFn fun i : Fin A.rows => (A.get i 0, A.get i 1)

/-- plotters.py 431-447: the checks of the arguments of `zonotope_2d_plot` -/
def checkZonotope (vertices : NpMat) (design y f : Option NpMat) : PyM Plt Unit := do
  raiseIf (vertices.cols ≠ 2)
  raiseIf (∃ d ∈ design, d.cols ≠ 2)
  raiseIf (∃ y' ∈ y, y'.cols ≠ 2)
  raiseIf ((y.isSome ∧ f.isNone) ∨ (y.isNone ∧ f.isSome))
  raiseIf (∃ y' ∈ y, ∃ f' ∈ f, y'.rows ≠ f'.rows)

/-- plotters.py 473-477 -/
noncomputable def zonotopePoints (label : String) : Option NpMat → Option NpMat → PyM Plt Unit
  | some y, some f => do
    let fv : Fin f.rows → ℝ := fun i => f.get i 0
    let vmin ← PyM.lift (Np.amin fv)
    let vmax ← PyM.lift (Np.amax fv)
    draw (.points (rowPairs y) (List.ofFn fv) vmin vmax)
    draw (.title label)
  | _, _ => pure ()

/-- plotters.py 395-485 `zonotope_2d_plot`.  `hull` and `delaunay` are the constructors of `scipy.spatial`, which may raise.
Simplified: only the first column of `f` is used. -/
noncomputable def zonotope_2d_plot (hull delaunay : List (ℝ × ℝ) → Except Err Unit) (vertices : NpMat) (design y f : Option NpMat := none)
    (out_label : Option String := none) (opts : Option Opts := none) : PyM Plt Unit := do
  let opts ← optsOr opts
  let label := out_label.getD "Output"
  checkZonotope vertices design y f
  let xmin ← PyM.lift (Np.amin (Np.ravel vertices.val))
  let xmax ← PyM.lift (Np.amax (Np.ravel vertices.val))
  PyM.lift (hull (rowPairs vertices))
  design.forM fun d => PyM.lift (delaunay (rowPairs d ++ rowPairs vertices))
  figure
  draw (.hull (rowPairs vertices))
  design.forM fun d => draw (.mesh (rowPairs d ++ rowPairs vertices))
  zonotopePoints label y f
  draw (.window (1.1 * xmin) (1.1 * xmax) (1.1 * xmin) (1.1 * xmax))
  draw (.xlabel "Active variable 1")
  draw (.ylabel "Active variable 2")
  show_plot
  saveAs opts "zonotope_2d_" label

end Model.Plotters
