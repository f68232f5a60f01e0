import Verif.Model.ActiveSurfaces

/-!
# Model of `active_subspaces/integrals.py`

Simplified: an inverse map that produces undefined numbers (`none`, see `Model.Domains`) ends the computation with `none`.
-/

open Py Model.Misc Model.QPSolver Model.Subspaces Model.Domains Model.ResponseSurfaces Model.ActiveSurfaces Model.Quadrature

namespace Model.Integrals

variable {S E : Type}

/-- A Delaunay triangulation of `P` points: the vertices of the simplices as row numbers, and `find_simplex` (`none` is -1). -/
structure Tri (P n : ℕ) where
  nsimplex : ℕ
  simplices : Fin nsimplex → Fin (n + 1) → Fin P
  find_simplex : (Fin n → ℝ) → Option (Fin nsimplex)

/-- The library routines used. -/
structure Lib where
  base : ActiveSurfaces.Lib
  delaunay : {P n : ℕ} → Matrix (Fin P) (Fin n) ℝ → Except Err (Tri P n)

/-! ## Rules on the active variables -/

open Classical in
/-- `np.searchsorted` of a bin edge in the sorted samples: the number of samples below the edge, and for the last edge the
number of samples not above it. -/
noncomputable def cumCount {NX K : ℕ} (x : Fin NX → ℝ) (bins : Fin (K + 1) → ℝ) (k : Fin (K + 1)) : ℕ :=
  if k = Fin.last K then (Finset.univ.filter fun i => x i ≤ bins k).card else (Finset.univ.filter fun i => x i < bins k).card

open Classical in
/-- `np.histogram(x, bins=bins)[0]`, computed as NumPy does it, by differences of cumulative counts.  Bins that decrease raise
`ValueError` (`AttributeError` in old versions). -/
noncomputable def histogram {NX K : ℕ} (x : Fin NX → ℝ) (bins : Fin (K + 1) → ℝ) : Except Err (Fin K → ℤ) :=
  if ∃ k : Fin K, bins k.succ - bins k.castSucc < 0 then .error .valueError
  else .ok fun k => (cumCount x bins k.succ : ℤ) - cumCount x bins k.castSucc

/-- integrals.py 216-260 `interval_quadrature_rule`.  For `N < -1` `np.linspace` raises `ValueError`; for `N = -1`
`np.amin` does, after the draw. -/
noncomputable def interval_quadrature_rule (rng : Rng S) (b : Boundary) (W1 : NpMat) (N : ℤ) (NX : ℕ) : PyM (S × E) Rule := do
  let a0 ← PyM.lift ((NpMat.of b.verts.Y).item 0 0)
  let b0 ← PyM.lift ((NpMat.of b.verts.Y).item 1 0)
  if N < -1 then PyM.raise .valueError
  else do
    let U ← Rng.draw (rng.uniform NX W1.rows)
    if N = -1 then PyM.raise .valueError
    else do
      let y : Fin (N.toNat + 1) → ℝ := Np.linspace a0 b0 (N.toNat + 1)
      let points : Matrix (Fin N.toNat) (Fin 1) ℝ := Matrix.of fun i _ => 0.5 * (y i.succ + y i.castSucc)
      let samples ← PyM.lift ((NpMat.of U).dot W1)
      let h ← PyM.lift (histogram (fun i : Fin NX => samples.get i 0) y)
      let weights : Matrix (Fin N.toNat) (Fin 1) ℝ := Matrix.of fun i _ => (h i : ℝ) / (NX : ℝ)
      return ⟨NpMat.of points, NpMat.of weights⟩

open Classical in
/-- integrals.py 262-312 `zonotope_quadrature_rule`.  For a negative `N` `maximin_design` raises `ValueError`; so does
`find_simplex` when the vertices have another number of columns than `W1`. -/
noncomputable def zonotope_quadrature_rule (lib : Lib) (rng : Rng S) (b : Boundary) (W1 : NpMat) (N : ℤ) (NX : ℕ) : PyM (S × E) Rule :=
  if N < 0 then PyM.raise .valueError
  else do
    let D ← Designs.maximin_design lib.base.des rng b.verts.Y N.toNat
    let y := Np.vstack b.verts.Y D
    let T ← PyM.lift (lib.delaunay y)
    let points : Matrix (Fin T.nsimplex) (Fin b.n) ℝ := Matrix.of fun t j => (∑ i, y (T.simplices t i) j) / ((b.n + 1 : ℕ) : ℝ)
    let U ← Rng.draw (rng.uniform NX W1.rows)
    let samples ← PyM.lift ((NpMat.of U).dot W1)
    if samples.cols = b.n then
      let I : Fin NX → Option (Fin T.nsimplex) := fun i => T.find_simplex fun j => samples.get i j
      let weights : Matrix (Fin T.nsimplex) (Fin 1) ℝ := Matrix.of fun t _ => ((Finset.univ.filter fun i => I i = some t).card : ℝ) / (NX : ℝ)
      return ⟨NpMat.of points, NpMat.of weights⟩
    else PyM.raise .valueError

/-- integrals.py 180-214 `av_quadrature_rule` -/
noncomputable def av_quadrature_rule (lib : Lib) (rng : Rng S) (a : AVMap S E) (N : ℤ) : PyM (S × Files × E) Rule :=
  match a.subspaces.W1 with
  | none => PyM.raise .attributeError
  | some W1 => match a.dom with
    | .unbounded => do
      let NN ← PyM.lift (rootList lib.base.root N W1.cols)
      PyM.lift (gauss_hermite lib.base.quad (.list NN))
    | .bounded b =>
      if W1.cols = 1 then interval_quadrature_rule rng b W1 N 10000
      else zonotope_quadrature_rule lib rng b W1 N 10000
    | .other => PyM.raise .exception

/-! ## Rules on the full space -/

/-- The three arrays returned by `quadrature_rule`. -/
structure FullRule where
  Xp : NpMat
  Xw : NpMat
  ind : NpMat

/-- `np.kron(A, np.ones((r,1)))` -/
def kronOnes (A : NpMat) (r : ℕ) : NpMat := NpMat.of (Np.kron A.val (Np.ones r 1))

/-- integrals.py 172-178 -/
noncomputable def ruleBody (lib : Lib) (rng : Rng S) (a : AVMap S E) (N NMC : ℤ) : PyM (S × Files × E) (Option FullRule) := do
  let r ← av_quadrature_rule lib rng a N
  match ← a.inverse (.mat r.x) (.int NMC) with
  | none => pure none
  | some (Xp, ind) =>
    pure (some ⟨Xp, (kronOnes r.w NMC.toNat).map fun t => t / (NMC : ℝ), ind⟩)

/-- integrals.py 118-178 `quadrature_rule`; `none` is an object that is not an `ActiveVariableMap`. -/
noncomputable def quadrature_rule (lib : Lib) (rng : Rng S) (avmap : Option (AVMap S E)) (N NMC : IntArg) :
    PyM (S × Files × E) (Option FullRule) :=
  match avmap with
  | none => PyM.raise .typeError
  | some a => match N with
    | .other => PyM.raise .typeError
    | .int N => match NMC with
      | .other => PyM.raise .typeError
      | .int NMC => ruleBody lib rng a N NMC

/-! ## Integrals -/

/-- integrals.py 66-80: the estimate and the bounds. -/
noncomputable def estimate (f Xw ind : NpMat) (NMC : ℤ) : Except Err (ℝ × ℝ × ℝ) := do
  let c ← condExp f ind
  let cw ← condExp (Xw.map fun t => t * (NMC : ℝ)) ind
  let Ef := NpMat.of (colMat (column c.Ef))
  let Vf := NpMat.of (colMat (column c.Vf))
  let w := NpMat.of (colMat (column cw.Ef))
  let mu ← Ef.transpose.dot w
  let s ← Vf.transpose.dot (w.map fun t => t * t)
  let sig2 := s.map fun t => t / (NMC : ℝ)
  let lb ← NpMat.zipB (fun x y => x - 1.96 * Real.sqrt y) mu sig2
  let ub ← NpMat.zipB (fun x y => x + 1.96 * Real.sqrt y) mu sig2
  return (mu.get 0 0, lb.get 0 0, ub.get 0 0)

/-- integrals.py 13-80 `integrate` -/
noncomputable def integrate (lib : Lib) (rng : Rng S) (fn : (m : ℕ) → SimRunners.Sim (S × Files × E) m) (avmap : Option (AVMap S E))
    (N NMC : IntArg) : PyM (S × Files × E) (Option (ℝ × ℝ × ℝ)) := do
  match ← quadrature_rule lib rng avmap N NMC with
  | none => pure none
  | some q => do
    let f ← SimRunners.run fn (.mat q.Xp)
    let NMC : ℤ := match NMC with
      | .int c => c
      | .other => 0
    let r ← PyM.lift (estimate f q.Xw q.ind NMC)
    return some r

/-- The integrand of `av_integrate`: a response surface (its `predict_av`) or a function. -/
inductive AvFun (W : Type) where
  | surface (predict_av : Arr → Except Err (NpVec × Option NpMat))
  | fn (f : (m : ℕ) → SimRunners.Sim W m)

/-- integrals.py 82-116 `av_integrate` -/
noncomputable def av_integrate (lib : Lib) (rng : Rng S) (avfun : AvFun (S × Files × E)) (avmap : Option (AVMap S E)) (N : IntArg) :
    PyM (S × Files × E) ℝ :=
  match avmap with
  | none => PyM.raise .typeError
  | some a => match N with
    | .other => PyM.raise .typeError
    | .int N => do
      let r ← av_quadrature_rule lib rng a N
      let avf ← match avfun with
        | .surface p => do
          let q ← PyM.lift (p (.mat r.x))
          pure (NpMat.of (colMat q.1.val))
        | .fn f => SimRunners.run f (.mat r.x)
      let mu ← PyM.lift (r.w.transpose.dot avf)
      return mu.get 0 0

end Model.Integrals
