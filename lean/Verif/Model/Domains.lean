import Mathlib.Analysis.SpecialFunctions.Sqrt
import Mathlib.Data.Nat.Choose.Basic
import Verif.Model.QPSolver
import Verif.Model.Subspaces

/-!
# Model of `active_subspaces/domains.py`

Simplified: `W2` has `m - n` columns (`Subspaces.partition` makes it so, C42); counts `N`, `Nsamples`, `maxcount` are natural
numbers.  An array with infinite or undefined entries is `none`; what happens after one is produced is not modelled.
-/

open Py Model.Misc Model.QPSolver Model.Subspaces

namespace Py.PyM

/-- `for i in range(k)`, collecting one value for every `i`. -/
def mapFin {W α : Type} : (k : ℕ) → (Fin k → PyM W α) → PyM W (Fin k → α)
  | 0, _ => pure Fin.elim0
  | k + 1, f => do
    let a ← f 0
    let as ← mapFin k fun i => f i.succ
    return Fin.cons a as

end Py.PyM

namespace Model.Domains

variable {S E : Type} {m n k : ℕ}

/-- Standard output: the two numbers of every printed warning. -/
abbrev Out := List (ℕ × ℕ)

/-- A three-dimensional array. -/
structure Arr3 where
  a : ℕ
  b : ℕ
  c : ℕ
  val : Fin a → Fin b → Fin c → ℝ

/-- `ConvexHull.equations`: the rows hold a normal and an offset. -/
structure Hull (n : ℕ) where
  F : ℕ
  equations : Matrix (Fin F) (Fin (n + 1)) ℝ

/-- The floating point numbers that `np.sign` and its negation return: -1.0, -0.0, 0.0 and 1.0.  `unique_rows` (403-421) compares rows
byte by byte, so that it tells the two zeros apart. -/
inductive Sg
  | neg
  | nzero
  | pzero
  | pos
  deriving DecidableEq

/-- The number. -/
def Sg.val : Sg → ℝ
  | .neg => -1
  | .nzero => 0
  | .pzero => 0
  | .pos => 1

/-- `-x`, which changes the sign bit of a zero too. -/
def Sg.flip : Sg → Sg
  | .neg => .pos
  | .nzero => .pzero
  | .pzero => .nzero
  | .pos => .neg

/-- `np.sign`, which returns the positive zero for both zeros. -/
noncomputable def Sg.of (x : ℝ) : Sg := if 0 < x then .pos else if x < 0 then .neg else .pzero

/-- Library calls: `np.unique` on the bytes of rows of signs (420-421), `scipy.spatial.ConvexHull`, and the solvers. -/
structure Lib where
  qp : QPSolver.Lib
  unique : {m : ℕ} → List (Fin m → Sg) → List (Fin m → Sg)
  convexHull : {V n : ℕ} → Matrix (Fin V) (Fin n) ℝ → Except Err (Hull n)

/-! ## Vertices -/

/-- `scipy.misc.comb(N, i)`, 0 for a negative `N`. -/
def comb (N : ℤ) (i : ℕ) : ℕ := if 0 ≤ N then N.toNat.choose i else 0

/-- domains.py 342-370 `nzv` -/
def nzv (m n : IntArg) : Except Err ℕ :=
  match m with
  | .other => .error .typeError
  | .int m => match n with
    | .other => .error .typeError
    | .int n => .ok (2 * (List.range n.toNat).foldl (fun N i => N + comb (m - 1) i) 0)

/-- domains.py 372-401 `interval_endpoints` -/
noncomputable def interval_endpoints (W1 : Matrix (Fin m) (Fin 1) ℝ) : Matrix (Fin 2) (Fin 1) ℝ × Matrix (Fin 2) (Fin m) ℝ :=
  let sgn : Fin m → ℝ := fun i => Real.sign (W1 i 0)
  let y0 : ℝ := ∑ i, W1 i 0 * sgn i
  if y0 < -y0 then (Matrix.of ![![y0], ![-y0]], Matrix.of ![sgn, -sgn])
  else (Matrix.of ![![-y0], ![y0]], Matrix.of ![-sgn, sgn])

/-- domains.py 454, 461: the rows of `np.sign(np.dot(Z, W1.transpose()))` -/
noncomputable def signRows {r : ℕ} (W1 : Matrix (Fin m) (Fin n) ℝ) (Z : Matrix (Fin r) (Fin n) ℝ) : List (Fin m → Sg) :=
  (Np.rows (Z * W1.transpose)).map fun x i => Sg.of (x i)

/-- domains.py 453-455, 460-462: one round of sampling. -/
noncomputable def zonoRound (lib : Lib) (rng : Rng S) (W1 : Matrix (Fin m) (Fin n) ℝ) (Nsamples : ℕ) : PyM (S × E) (List (Fin m → Sg)) := do
  let Z ← Rng.draw (rng.normal Nsamples n)
  let X := lib.unique (signRows W1 Z)
  return lib.unique (X ++ X.map fun x i => (x i).flip)

/-- domains.py 458-467: the loop. -/
noncomputable def zonoLoop (lib : Lib) (rng : Rng S) (W1 : Matrix (Fin m) (Fin n) ℝ) (Nsamples maxcount totalverts : ℕ)
    (count : ℕ) (X : List (Fin m → Sg)) : PyM (S × E) (List (Fin m → Sg)) :=
  if X.length < totalverts then do
    let X0 ← zonoRound lib rng W1 Nsamples
    let X := lib.unique (X ++ X0)
    if h : count + 1 > maxcount then pure X
    else zonoLoop lib rng W1 Nsamples maxcount totalverts (count + 1) X
  else pure X
termination_by maxcount - count

/-- The two arrays `vertY`, `vertX`. -/
structure Verts (m n : ℕ) where
  num : ℕ
  Y : Matrix (Fin num) (Fin n) ℝ
  X : Matrix (Fin num) (Fin m) ℝ

/-- domains.py 469-474: the warning and the arrays. -/
def zonoFinish (W1 : Matrix (Fin m) (Fin n) ℝ) (totalverts : ℕ) (X : List (Fin m → Sg)) : PyM (S × Files × Out × E) (Verts m n) := do
  if totalverts > X.length then PyM.modify fun w => (w.1, w.2.1, w.2.2.1 ++ [(X.length, totalverts)], w.2.2.2)
  let X' : Matrix (Fin X.length) (Fin m) ℝ := Matrix.of fun a i => (X.get a i).val
  return ⟨X.length, X' * W1, X'⟩

/-- domains.py 423-474 `zonotope_vertices` -/
noncomputable def zonotope_vertices (lib : Lib) (rng : Rng S) (W1 : Matrix (Fin m) (Fin n) ℝ) (Nsamples : ℕ := 10000)
    (maxcount : ℕ := 100000) : PyM (S × Files × Out × E) (Verts m n) := do
  let totalverts ← PyM.lift (nzv (.int m) (.int n))
  let X ← zonoRound lib rng W1 Nsamples
  let X ← zonoLoop lib rng W1 Nsamples maxcount totalverts 0 X
  zonoFinish W1 totalverts X

/-! ## Domains -/

/-- The dictionary `constraints`. -/
structure Constraints (n : ℕ) where
  F : ℕ
  func : (Fin n → ℝ) → Fin F → ℝ
  jac : (Fin n → ℝ) → Matrix (Fin F) (Fin n) ℝ

/-- domains.py 122-126 -/
def constraintsOf (h : Hull n) : Constraints n :=
  let A : Matrix (Fin h.F) (Fin n) ℝ := h.equations.submatrix id Fin.castSucc
  let b : Fin h.F → ℝ := fun i => h.equations i (Fin.last n)
  ⟨h.F, fun x i => A.mulVec x i - b i, fun _ => A⟩

/-- What `compute_boundary` stores. -/
structure Boundary where
  m : ℕ
  n : ℕ
  verts : Verts m n
  convhull : Option (Hull n)
  constraints : Option (Constraints n)

/-- domains.py 103-131 `compute_boundary`, the values stored. -/
noncomputable def boundary (lib : Lib) (rng : Rng S) (W1 : NpMat) : PyM (S × Files × Out × E) Boundary :=
  match W1 with
  | ⟨m, 1, W1⟩ => pure ⟨m, 1, ⟨2, (interval_endpoints W1).1, (interval_endpoints W1).2⟩, none, none⟩
  | ⟨m, n, W1⟩ => do
    let v ← zonotope_vertices lib rng W1
    let h ← PyM.lift (lib.convexHull v.Y)
    return ⟨m, n, v, some h, some (constraintsOf h)⟩

/-- The attributes of a domain besides the reference to its subspaces; the last one is `None` for an unbounded domain. -/
structure Domain where
  m : ℕ
  n : ℕ
  bnd : Option Boundary

/-- domains.py 52-68 `UnboundedActiveVariableDomain.__init__`; an argument that is not a `Subspaces` is `none`. -/
def unboundedInit (subspaces : Option Subspaces) : Except Err Domain :=
  match subspaces with
  | none => .error .typeError
  | some s => match s.W1 with
    | none => .error .valueError
    | some W1 => .ok ⟨W1.rows, W1.cols, none⟩

/-- domains.py 83-101 `BoundedActiveVariableDomain.__init__` -/
noncomputable def boundedInit (lib : Lib) (rng : Rng S) (subspaces : Option Subspaces) : PyM (S × Files × Out × E) Domain :=
  match subspaces with
  | none => PyM.raise .typeError
  | some s => match s.W1 with
    | none => PyM.raise .valueError
    | some W1 => do
      let b ← boundary lib rng W1
      return ⟨W1.rows, W1.cols, some b⟩

/-- domains.py 103-131 `compute_boundary` on an existing domain: `m` and `n` stay as they are.  A missing `W1` has no
attribute `shape`. -/
noncomputable def compute_boundary (lib : Lib) (rng : Rng S) (s : Subspaces) (d : Domain) : PyM (S × Files × Out × E) Domain :=
  match s.W1 with
  | none => PyM.raise .attributeError
  | some W1 => do
    let b ← boundary lib rng W1
    return { d with bnd := some b }

/-! ## Samplers of the inactive variables -/

/-- domains.py 580, 660: the polytope `A z >= b`. -/
def polyA (W2 : Matrix (Fin m) (Fin k) ℝ) : Matrix (Fin (m + m)) (Fin k) ℝ := Np.vstack W2 (-W2)

/-- domains.py 581, 661 with `s = np.dot(W1, y)` -/
def polyB (s : Fin m → ℝ) : Fin (m + m) → ℝ := Fin.append (fun i => -1 - s i) fun i => -1 + s i

/-- domains.py 568-569: `[[W2, normW2], [-W2, normW2]]` -/
noncomputable def chebA (W2 : Matrix (Fin m) (Fin k) ℝ) : Matrix (Fin (m + m)) (Fin (k + 1)) ℝ :=
  let normW2 : Matrix (Fin m) (Fin 1) ℝ := Matrix.of fun i _ => √(∑ j, W2 i j ^ 2)
  Np.hstack (Np.vstack W2 (-W2)) (Np.vstack normW2 normW2)

/-- domains.py 570: `[1 - s, 1 + s]` -/
def chebB (s : Fin m → ℝ) : Fin (m + m) → ℝ := Fin.append (fun i => 1 - s i) fun i => 1 + s i

/-- domains.py 571-572: `c` -/
def chebC (k : ℕ) : Fin (k + 1) → ℝ := fun j => if j = Fin.last k then -1 else 0

/-- domains.py 567-576: the Chebyshev centre. -/
noncomputable def chebyshev (lib : Lib) (rng : Rng S) (s : Fin m → ℝ) (W2 : Matrix (Fin m) (Fin k) ℝ) : PyM (S × Files × E) (Fin k → ℝ) := do
  let zc ← (QPSolver.init lib.qp).linear_program_ineq lib.qp rng (chebC k) (-chebA W2) (-chebB s)
  return fun j => zc j.castSucc

/-- domains.py 584-585: `eps0 = ztol/4.0` -/
noncomputable def eps0 : ℝ := 1e-6 / 4

/-- domains.py 605, 609: `np.sqrt(np.finfo(np.float).eps)` -/
noncomputable def sqrtEps : ℝ := √(2 ^ (-52 : ℤ))

open Classical in
/-- domains.py 591-599: look for a direction; `none` after the fiftieth draw, whatever it was.  The argument is the number of
draws left. -/
noncomputable def findDir (rng : Rng S) {r : ℕ} (A : Matrix (Fin r) (Fin k) ℝ) (b : Fin r → ℝ) (z0 : Fin k → ℝ) :
    ℕ → PyM (S × E) (Option (Fin k → ℝ))
  | 0 => pure none
  | t + 1 => do
    let D ← Rng.draw (rng.normal k 1)
    let d : Fin k → ℝ := fun j => D j 0
    if t = 0 then pure none
    else if ∃ i, A.mulVec (fun j => z0 j + eps0 * d j) i ≤ b i then findDir rng A b z0 t
    else pure (some d)

/-- `np.amin` of the entries of a list. -/
noncomputable def aminList (l : List ℝ) : Except Err ℝ := Np.amin fun i : Fin l.length => l.get i

/-- `np.amax` of the entries of a list. -/
noncomputable def amaxList (l : List ℝ) : Except Err ℝ := Np.amax fun i : Fin l.length => l.get i

open Classical in
/-- domains.py 601-616: one step along `d`.  A quotient by zero is infinite and makes the new point `none`. -/
noncomputable def hitStep (rng : Rng S) {r : ℕ} (A : Matrix (Fin r) (Fin k) ℝ) (b : Fin r → ℝ) (z0 d : Fin k → ℝ) :
    PyM (S × E) (Option (Fin k → ℝ)) := do
  let f : Fin r → ℝ := fun i => b i - A.mulVec z0 i
  let g : Fin r → ℝ := A.mulVec d
  let min_ind := (List.finRange r).filter fun i => decide (g i ≤ 0 ∧ f i < -sqrtEps)
  let eps_max ← PyM.lift (aminList (min_ind.map fun i => f i / g i))
  let max_ind := (List.finRange r).filter fun i => decide (g i > 0 ∧ f i < -sqrtEps)
  let eps_min ← PyM.lift (amaxList (max_ind.map fun i => f i / g i))
  let U ← Rng.draw (rng.uniform 1 1)
  if ∃ i ∈ min_ind, g i = 0 then return none
  else
    let eps1 := eps_min + (eps_max - eps_min) * ((U 0 0 + 1) / 2)
    return some fun j => z0 j + eps1 * d j

/-- domains.py 587-622: the loop over the rows of `Z`. -/
noncomputable def hitLoop (rng : Rng S) {r : ℕ} (A : Matrix (Fin r) (Fin k) ℝ) (b : Fin r → ℝ) :
    (N : ℕ) → (Fin k → ℝ) → PyM (S × E) (Option (Matrix (Fin N) (Fin k) ℝ))
  | 0, _ => pure (some (Np.zeros 0 k))
  | N + 1, z0 => do
    match ← findDir rng A b z0 50 with
    | none => pure (some (Matrix.of fun _ j => z0 j))
    | some d => do
      match ← hitStep rng A b z0 d with
      | none => pure none
      | some z1 => do
        let rest ← hitLoop rng A b N z1
        return rest.map fun R => Matrix.of (Fin.cons z1 fun i => R i)

/-- domains.py 532-622 `hit_and_run_z` -/
noncomputable def hit_and_run_z (lib : Lib) (rng : Rng S) (N : ℕ) (y : Fin n → ℝ) (W1 : Matrix (Fin m) (Fin n) ℝ)
    (W2 : Matrix (Fin m) (Fin k) ℝ) : PyM (S × Files × E) (Option (Matrix (Fin N) (Fin k) ℝ)) := do
  let s := W1.mulVec y
  let z0 ← chebyshev lib rng s W2
  hitLoop rng (polyA W2) (polyB s) N z0

/-- domains.py 662-669: the box around the polytope, two linear programs for each coordinate. -/
noncomputable def box (lib : Lib) (rng : Rng S) {r : ℕ} (A : Matrix (Fin r) (Fin k) ℝ) (b : Fin r → ℝ) :
    PyM (S × Files × E) (Fin k → ℝ × ℝ) :=
  PyM.mapFin k fun i => do
    let l ← (QPSolver.init lib.qp).linear_program_ineq lib.qp rng (fun j => if j = i then 1 else 0) A b
    let u ← (QPSolver.init lib.qp).linear_program_ineq lib.qp rng (fun j => if j = i then -1 else 0) A b
    return (l i, u i)

open Classical in
/-- domains.py 672-676: keep the feasible rows, in their order. -/
noncomputable def keep {r : ℕ} (A : Matrix (Fin r) (Fin k) ℝ) (b : Fin r → ℝ) (Zbox : NpMat) : List (Fin k → ℝ) :=
  ((List.range Zbox.rows).map fun i => fun j : Fin k => Zbox.get i j).filter fun z => decide (∀ i, b i ≤ A.mulVec z i)

/-- domains.py 624-678 `rejection_sampling_z` -/
noncomputable def rejection_sampling_z (lib : Lib) (rng : Rng S) (N : ℕ) (y : Fin n → ℝ) (W1 : Matrix (Fin m) (Fin n) ℝ)
    (W2 : Matrix (Fin m) (Fin k) ℝ) : PyM (S × Files × E) (Option (Matrix (Fin N) (Fin k) ℝ)) := do
  let s := W1.mulVec y
  let B ← box lib rng (polyA W2) (polyB s)
  let bn ← PyM.lift (BoundedNormalizer.init (List.ofFn fun i => (B i).1) (List.ofFn fun i => (B i).2))
  let U ← Rng.draw (rng.uniform (50 * N) k)
  let Zbox ← PyM.lift (bn.unnormalize (.mat (NpMat.of U)))
  let Z := keep (polyA W2) (polyB s) Zbox
  if Z.length ≥ N then return some (Matrix.of fun i j => Z.getD i 0 j)
  else return none

/-- domains.py 477-530 `sample_z`; the test of the type of `N` is the one of `inverse`. -/
noncomputable def sample_z (lib : Lib) (rng : Rng S) (N : ℕ) (y : Fin n → ℝ) (W1 : Matrix (Fin m) (Fin n) ℝ)
    (W2 : Matrix (Fin m) (Fin k) ℝ) : PyM (S × Files × E) (Option (Matrix (Fin N) (Fin k) ℝ)) := do
  match ← rejection_sampling_z lib rng N y W1 W2 with
  | some Z => pure (some Z)
  | none => hit_and_run_z lib rng N y W1 W2

/-- domains.py 733, 740: is `z` in the polytope? -/
def walkOK (s : Fin m → ℝ) (W2 : Matrix (Fin m) (Fin k) ℝ) (z : Fin k → ℝ) : Prop :=
  (∀ i, W2.mulVec z i ≤ 1 - s i) ∧ ∀ i, -1 - s i ≤ W2.mulVec z i

/-- domains.py 714-723: the starting point. -/
noncomputable def walkStart (lib : Lib) (rng : Rng S) (y : Fin n → ℝ) (W1 : Matrix (Fin m) (Fin n) ℝ) (W2 : Matrix (Fin m) (Fin k) ℝ) :
    PyM (S × Files × E) (Fin k → ℝ) :=
  open Classical in
  let s := W1.mulVec y
  if (∀ i, 0 ≤ 1 - s i) ∧ ∀ i, 0 ≥ -1 - s i then pure fun _ => 0
  else do
    let x0 ← (QPSolver.init lib.qp).linear_program_eq lib.qp rng (fun _ => 0) W1.transpose y (fun _ => -1) fun _ => 1
    return W2.transpose.mulVec x0

/-- domains.py 726-728: the step size. -/
noncomputable def walkSig (s : Fin m → ℝ) (W2 : Matrix (Fin m) (Fin k) ℝ) (z0 : Fin k → ℝ) : ℝ :=
  0.1 * min (√(∑ i, (W2.mulVec z0 i + s i - 1) ^ 2)) (√(∑ i, (W2.mulVec z0 i + s i + 1) ^ 2))

open Classical in
/-- domains.py 732-734, 739-741: one proposal. -/
noncomputable def walkStep (rng : Rng S) (s : Fin m → ℝ) (W2 : Matrix (Fin m) (Fin k) ℝ) (sig : ℝ) (z0 : Fin k → ℝ) : PyM (S × E) (Fin k → ℝ) := do
  let D ← Rng.draw (rng.normal k 1)
  let zc : Fin k → ℝ := fun j => z0 j + sig * D j 0
  if walkOK s W2 zc then return zc else return z0

/-- domains.py 731-734: burn in. -/
noncomputable def burnIn (rng : Rng S) (s : Fin m → ℝ) (W2 : Matrix (Fin m) (Fin k) ℝ) (sig : ℝ) : ℕ → (Fin k → ℝ) → PyM (S × E) (Fin k → ℝ)
  | 0, z0 => pure z0
  | t + 1, z0 => do
    let z0 ← walkStep rng s W2 sig z0
    burnIn rng s W2 sig t z0

/-- domains.py 737-742: the columns of `Z`. -/
noncomputable def walkLoop (rng : Rng S) (s : Fin m → ℝ) (W2 : Matrix (Fin m) (Fin k) ℝ) (sig : ℝ) :
    (N : ℕ) → (Fin k → ℝ) → PyM (S × E) (Fin N → Fin k → ℝ)
  | 0, _ => pure Fin.elim0
  | N + 1, z0 => do
    let z0 ← walkStep rng s W2 sig z0
    let rest ← walkLoop rng s W2 sig N z0
    return Fin.cons z0 rest

/-- `Z.reshape((N, k))` of a k-by-N array, C order. -/
def reshapeT {N : ℕ} (Z : Matrix (Fin k) (Fin N) ℝ) : Matrix (Fin N) (Fin k) ℝ :=
  Np.reshape2 fun p => Np.ravel Z (Fin.cast (Nat.mul_comm N k) p)

/-- domains.py 680-744 `random_walk_z` -/
noncomputable def random_walk_z (lib : Lib) (rng : Rng S) (N : ℕ) (y : Fin n → ℝ) (W1 : Matrix (Fin m) (Fin n) ℝ)
    (W2 : Matrix (Fin m) (Fin k) ℝ) : PyM (S × Files × E) (Matrix (Fin N) (Fin k) ℝ) := do
  let s := W1.mulVec y
  let z0 ← walkStart lib rng y W1 W2
  let sig := walkSig s W2 z0
  let z0 ← burnIn rng s W2 sig (10 * N) z0
  let cols ← walkLoop rng s W2 sig N z0
  return reshapeT (Matrix.of fun j i => cols i j)

/-! ## Maps -/

/-- domains.py 156-181 `forward`; `W1`, `W2` of an object that was never computed are not arrays. -/
def forward (s : Subspaces) (X : Arr) : Except Err (NpMat × NpMat) := do
  let X ← process_inputs X
  match s.W1, s.W2 with
  | some W1, some W2 => do
    let Y ← X.dot W1
    let Z ← X.dot W2
    return (Y, Z)
  | _, _ => .error .typeError

/-- domains.py 754-755: `YY` is `Y` repeated along a third axis; concatenated with `Z` along the second axis. -/
def concatYZ (Y : NpMat) (Z : Arr3) (h : Z.a = Y.rows) : Fin Y.rows → Fin (Y.cols + Z.b) → Fin Z.c → ℝ :=
  fun i => Fin.append (fun a _ => Y.val i a) fun a t => Z.val (Fin.cast h.symm i) a t

/-- domains.py 755: `transpose((1, 0, 2)).reshape((m, N*NY)).transpose((1, 0))` -/
def flattenYZ {a b c : ℕ} (T : Fin a → Fin b → Fin c → ℝ) : Matrix (Fin (a * c)) (Fin b) ℝ :=
  let P : Fin b → Fin a → Fin c → ℝ := fun j i t => T i j t
  let R : Matrix (Fin b) (Fin (a * c)) ℝ := Matrix.of fun j r => P j r.divNat r.modNat
  R.transpose

/-- domains.py 757: `np.kron(np.arange(NY), np.ones(N)).reshape((N*NY, 1))` -/
def rotateInd (NY N : ℕ) : Matrix (Fin (NY * N)) (Fin 1) ℝ := Matrix.of fun r _ => ((r.divNat : ℕ) : ℝ) * 1

/-- domains.py 746-758 `_rotate_x`; `ValueError` when the shapes do not fit. -/
def rotate_x (Y : NpMat) (Z : Arr3) (W : NpMat) : Except Err (NpMat × NpMat) :=
  if h : Z.a = Y.rows then
    match NpMat.dot (NpMat.of (flattenYZ (concatYZ Y Z h))) W.transpose with
    | .error e => .error e
    | .ok X => if X.cols = Y.cols + Z.b then .ok (X, NpMat.of (rotateInd Y.rows Z.c)) else .error .valueError
  else .error .valueError

/-- domains.py 183-219 `inverse`, given `regularize_z`.  For a negative `N` the sampler raises `ValueError`. -/
def inverse (regularize_z : NpMat → ℕ → PyM (S × Files × E) (Option Arr3)) (s : Subspaces) (Y : Arr) (N : IntArg) :
    PyM (S × Files × E) (Option (NpMat × NpMat)) := do
  let Y ← PyM.lift (process_inputs Y)
  match N with
  | .other => PyM.raise .typeError
  | .int N =>
    if N < 0 then PyM.raise .valueError
    else do
      match ← regularize_z Y N.toNat with
      | none => pure none
      | some Z => match s.eigenvecs with
        | none => PyM.raise .attributeError
        | some W => do
          let r ← PyM.lift (rotate_x Y Z W)
          return some r

/-- domains.py 221-248 `ActiveVariableMap.regularize_z`, a class without a `regularize_z` of its own. -/
def baseZ {W : Type} (_Y : NpMat) (_N : ℤ) : PyM W (Option Arr3) := PyM.raise .notImplementedError

/-- domains.py 183-219 `inverse` of the base class. -/
def baseInverse {W : Type} (s : Subspaces) (Y : Arr) (N : IntArg) : PyM W (Option (NpMat × NpMat)) := do
  let Y ← PyM.lift (process_inputs Y)
  match N with
  | .other => PyM.raise .typeError
  | .int N => do
    match ← baseZ Y N with
    | none => pure none
    | some Z => match s.eigenvecs with
      | none => PyM.raise .attributeError
      | some W => do
        let r ← PyM.lift (rotate_x Y Z W)
        return some r

open Classical in
/-- domains.py 260-297 `BoundedActiveVariableMap.regularize_z`.  Without rows `np.swapaxes` raises `ValueError`; so does
`np.dot` when the shapes do not fit. -/
noncomputable def boundedZ (lib : Lib) (rng : Rng S) (s : Subspaces) (Y : NpMat) (N : ℕ) : PyM (S × Files × E) (Option Arr3) :=
  match s.W1, s.W2 with
  | some W1, some W2 =>
    if h : Y.rows ≠ 0 ∧ W1.cols = Y.cols ∧ W2.rows = W1.rows then do
      let Zlist ← PyM.mapFin Y.rows fun i =>
        sample_z lib rng N (fun j => Y.val i (Fin.cast h.2.1 j)) W1.val (W2.val.submatrix (Fin.cast h.2.2.symm) id)
      if hs : ∀ i, (Zlist i).isSome then
        return some ⟨Y.rows, W2.cols, N, fun i j t => (Zlist i).get (hs i) t j⟩
      else return none
    else PyM.raise .valueError
  | _, _ => PyM.raise .attributeError

/-- domains.py 310-340 `UnboundedActiveVariableMap.regularize_z`; `size=(NY, m-n, N)` is filled in C order. -/
def unboundedZ (rng : Rng S) (s : Subspaces) (Y : NpMat) (N : ℕ) : PyM (S × E) (Option Arr3) :=
  match s.W1 with
  | none => PyM.raise .attributeError
  | some W1 => do
    let D ← Rng.draw (rng.normal (Y.rows * (W1.rows - W1.cols)) N)
    return some ⟨Y.rows, W1.rows - W1.cols, N, fun i j t => D (finProdFinEquiv (i, j)) t⟩

/-- `BoundedActiveVariableMap.inverse` -/
noncomputable def boundedInverse (lib : Lib) (rng : Rng S) (s : Subspaces) (Y : Arr) (N : IntArg) :
    PyM (S × Files × E) (Option (NpMat × NpMat)) :=
  inverse (boundedZ lib rng s) s Y N

/-- `UnboundedActiveVariableMap.inverse` -/
def unboundedInverse (rng : Rng S) (s : Subspaces) (Y : Arr) (N : IntArg) : PyM (S × Files × E) (Option (NpMat × NpMat)) :=
  inverse (unboundedZ rng s) s Y N

end Model.Domains
