import Mathlib.Analysis.Convex.Extrema
import Mathlib.Analysis.Convex.Deriv
import Verif.Props.Optimizers
import Verif.Props.Recovery

/-!
# Property C118: convex response surfaces are minimised globally
-/

open Py Model.Optimizers Model.ResponseSurfaces Model.Subspaces Model.QPSolver Model.Multistart Spec Proofs.Run
open Model.ActiveSurfaces (Surface AVMap DomKind predict_av gradient_av)
open Model.Domains (Arr3 polyA polyB Boundary forward Constraints)
open scoped Matrix

namespace Props

variable {S R E : Type} {n k : ℕ} {s : Subspaces} {V1 : Matrix (Fin (n + k)) (Fin n) ℝ} {V2 : Matrix (Fin (n + k)) (Fin k) ℝ}

/-- The linear function with the given coefficients. -/
noncomputable abbrev lin {d : ℕ} (G : Fin d → ℝ) : (Fin d → ℝ) →L[ℝ] ℝ := ∑ j, G j • (ContinuousLinearMap.proj j : (Fin d → ℝ) →L[ℝ] ℝ)

theorem lin_apply {d : ℕ} (G x : Fin d → ℝ) : lin G x = ∑ j, G j * x j := by
  simp [lin, ContinuousLinearMap.sum_apply]

/-- The point `x` satisfies the constraints. -/
def Feasible {d : ℕ} (cons : Option (Constraints d)) (x : Fin d → ℝ) : Prop := ∀ c, cons = some c → ∀ i, 0 ≤ c.func x i

/-- First-order condition of a minimum, up to `tol`: no feasible direction descends at a rate above `tol`. -/
def Stationary {d : ℕ} (cons : Option (Constraints d)) (G : Fin d → ℝ) (tol : ℝ) (x : Fin d → ℝ) : Prop :=
  ∀ y, Feasible cons y → -(tol * ∑ j, |y j - x j|) ≤ ∑ j, G j * (y j - x j)

/-- Contract of SciPy's optimisers as local methods: when the function and its gradient are given and the run is successful, the
result meets the first-order condition; `fminbound` ends close to a local minimum. -/
structure LocalOK (lib : Model.Optimizers.Lib) (tol : ℝ) : Prop where
  minimize : ∀ {d : ℕ} (method : String) (f : (Fin d → ℝ) → Except Err ℝ) J cons x0 r (F : (Fin d → ℝ) → ℝ) (G : (Fin d → ℝ) → Fin d → ℝ),
    lib.minimize method f (some J) cons x0 = .ok r → r.success = true → (∀ x, f x = .ok (F x)) → (∀ x, J x = .ok (G x)) →
    (∀ x, HasFDerivAt F (lin (G x)) x) → Stationary cons (G r.x) tol r.x
  fminbound : ∀ (f : ℝ → Except Err ℝ) a b x v (F : ℝ → ℝ), lib.fminbound f a b = .ok (x, v, false) → (∀ t, f t = .ok (F t)) → a ≤ b →
    ∃ x' ∈ Set.Icc a b, IsLocalMinOn F (Set.Icc a b) x' ∧ |x - x'| ≤ tol

/-! ## The functions passed to the optimiser -/

/-- C118: `minimize` gives the optimiser the trained surface and its gradient. -/
theorem C118_functions (surf : Surface R) (r : R) (g : (Fin n → ℝ) → ℝ) (hg : Evaluates surf r g) :
    ∃ G : (Fin n → ℝ) → Fin n → ℝ, (∀ y, avfun surf r n y = .ok (g y)) ∧ (∀ y, avdfun surf r n y = .ok (G y)) ∧ ∀ y, HasFDerivAt g (lin (G y)) y := by
  have h := fun y : Fin n → ℝ => hg 1 (Matrix.of fun (_ : Fin 1) j => y j)
  choose df h1 h2 h3 using h
  refine ⟨fun y => df y 0, fun y => ?_, fun y => ?_, fun y => h3 y 0⟩
  · unfold avfun predict_av rowOf
    rw [h1]
    rfl
  · unfold avdfun gradient_av rowOf
    rw [h2]
    simp only [bind, Except.bind, pure, Except.pure]
    rw [if_pos ⟨rfl, rfl⟩]
    exact congrArg Except.ok (funext fun j => NpMat.get_of (df y) 0 j)

/-! ## Convex functions -/

theorem convex_tangent {d : ℕ} {D : Set (Fin d → ℝ)} {g : (Fin d → ℝ) → ℝ} (hg : ConvexOn ℝ D g) {G x y : Fin d → ℝ} (hx : x ∈ D) (hy : y ∈ D)
    (hd : HasFDerivAt g (lin G) x) : g x + ∑ j, G j * (y j - x j) ≤ g y := by
  have hl : HasDerivAt (fun t : ℝ => g (AffineMap.lineMap x y t)) (∑ j, G j * (y j - x j)) 0 := by
    have h1 : HasDerivAt (fun t : ℝ => AffineMap.lineMap x y t) (y - x) (0 : ℝ) := AffineMap.hasDerivAt_lineMap
    have h2 : HasFDerivAt g (lin G) (AffineMap.lineMap x y (0 : ℝ)) := by rwa [AffineMap.lineMap_apply_zero]
    have h3 := h2.comp_hasDerivAt (0 : ℝ) h1
    rw [lin_apply] at h3
    exact h3
  have hc : ConvexOn ℝ (Set.Icc (0 : ℝ) 1) (fun t : ℝ => g (AffineMap.lineMap x y t)) := by
    have h4 := hg.comp_affineMap (AffineMap.lineMap x y : ℝ →ᵃ[ℝ] _)
    refine h4.subset (fun t ht => ?_) (convex_Icc 0 1)
    exact hg.1.lineMap_mem hx hy ht
  have h5 := hc.le_slope_of_hasDerivAt (x := 0) (y := 1) ⟨le_rfl, zero_le_one⟩ ⟨zero_le_one, le_rfl⟩ zero_lt_one hl
  simp only [slope_def_field, AffineMap.lineMap_apply_zero, AffineMap.lineMap_apply_one, sub_zero, div_one] at h5
  linarith

/-- The admissible points of a domain, with more than one active variable or none bounded. -/
theorem admissible_feasible {b : Boundary} (hn : n ≠ 1) (h : b.n = n) {y : Fin n → ℝ} (hy : Admissible (.bounded b) n y) :
    Feasible b.constraints fun j => y (Fin.cast h j) := by
  unfold Admissible at hy
  simp only [if_neg hn] at hy
  exact fun c hc => hy h c hc

/-- C118: on an unbounded domain, and on a bounded one with more than one active variable, the value found for a convex surface is
the least admissible one, up to the tolerance of the optimiser. -/
theorem C118_active (hw1 : s.W1 = some (NpMat.of V1)) {lib : Model.Optimizers.Lib} (hl : OptLibOK lib) {tol : ℝ} (ht : LocalOK lib tol)
    {rng : Rng S} {surf : Surface R} {r : R} {g : (Fin n → ℝ) → ℝ} (hg : Evaluates surf r g) {dom : DomKind} (hdom : n ≠ 1 ∨ dom = .unbounded)
    {D : Set (Fin n → ℝ)} (hD : ∀ y, Admissible dom n y → y ∈ D) (hc : ConvexOn ℝ D g) {w w' : S × E} {Y : NpMat} {v : ℝ}
    (hr : (av_minimize lib rng (avfun surf r) dom s (some (avdfun surf r))).run w = (.ok (Y, v), w')) :
    ∃ y : Fin n → ℝ, Y = rowOf y ∧ Admissible dom n y ∧ v = g y ∧ ∀ y', Admissible dom n y' → v ≤ g y' + tol * ∑ j, |y' j - y j| := by
  obtain ⟨G, hG1, hG2, hG3⟩ := C118_functions surf r g hg
  obtain ⟨y, rfl, hy2, hy3, -⟩ := C61_active hw1 hl hr
  have hv : v = g y := (Except.ok.inj ((hG1 y).symm.trans hy2)).symm
  suffices hst : ∀ y', Admissible dom n y' → -(tol * ∑ j, |y' j - y j|) ≤ ∑ j, G y j * (y' j - y j) by
    refine ⟨y, rfl, hy3, hv, fun y' hy' => ?_⟩
    have h1 := convex_tangent hc (hD y hy3) (hD y' hy') (hG3 y)
    have h2 := hst y' hy'
    rw [hv]
    linarith
  intro y' hy'
  unfold av_minimize at hr
  have hrow : ∀ y1 y2 : Fin n → ℝ, rowOf y1 = rowOf y2 → y1 = y2 := fun y1 y2 h => by
    funext j
    have := congrArg (fun A => A.get ((0 : Fin 1) : ℕ) j) h
    simp only [rowOf] at this
    rw [NpMat.get_of, NpMat.get_of] at this
    exact this
  cases dom with
  | unbounded =>
    rw [hw1] at hr
    dsimp only at hr
    obtain ⟨⟨y1, v'⟩, w1, h1, h2⟩ := bind_inv hr
    obtain ⟨h3, -⟩ := pure_inv h2
    obtain ⟨⟨rs, q, e1, e2, e3, rfl, rfl⟩, -⟩ := C17_unbounded h1
    obtain ⟨y0, hy0⟩ := draws_run e1 (firstBest_mem e3)
    obtain rfl := hrow _ _ (Prod.mk.inj h3).1
    exact ht.minimize _ _ _ _ _ _ g G hy0 (e2 q (firstBest_mem e3)) hG1 hG2 hG3 y' fun c hc => by cases hc
  | bounded b =>
    have hn : n ≠ 1 := hdom.resolve_right (by simp)
    rw [hw1] at hr
    dsimp only at hr
    rw [if_neg (by exact hn)] at hr
    obtain ⟨⟨y1, v'⟩, w1, h1, h2⟩ := bind_inv hr
    obtain ⟨h3, -⟩ := pure_inv h2
    obtain ⟨⟨rs, q, e1, e2, e3, rfl, rfl⟩, -⟩ := C17_zonotope h1
    obtain ⟨y0, hy0⟩ := draws_run e1 (firstBest_mem e3)
    unfold zonotopeRun at hy0
    cases hcon : b.constraints with
    | none => simp only [hcon] at hy0; cases hy0
    | some c =>
      simp only [hcon] at hy0
      by_cases h : b.n = n
      · rw [dif_pos (show b.n = (NpMat.of V1).cols from h)] at hy0
        have hf := admissible_feasible hn h hy'
        rw [hcon] at hf
        obtain ⟨bm, bn, bv, bh, bc⟩ := b
        dsimp only at h
        subst h
        obtain rfl := hrow _ _ (Prod.mk.inj h3).1
        exact ht.minimize _ _ _ _ _ _ g G hy0 (e2 q (firstBest_mem e3)) hG1 hG2 hG3 y' hf
      · rw [dif_neg (by exact h)] at hy0
        cases hy0
  | other => exact absurd (congrArg Prod.fst hr) (by simp [PyM.raise, PyM.run])

/-- C118: one active variable on a bounded domain: the value found is the least of the interval, up to the tolerance in the point times
the slope there. -/
theorem C118_interval {V1 : Matrix (Fin (1 + k)) (Fin 1) ℝ} (hw1 : s.W1 = some (NpMat.of V1)) {lib : Model.Optimizers.Lib} (hl : OptLibOK lib) {tol : ℝ}
    (ht : LocalOK lib tol) {rng : Rng S} {surf : Surface R} {r : R} {g : (Fin 1 → ℝ) → ℝ} (hg : Evaluates surf r g) {b : Boundary} {l u : ℝ}
    (hbl : (NpMat.of b.verts.Y).item 0 0 = .ok l) (hbu : (NpMat.of b.verts.Y).item 1 0 = .ok u) (hlu : l ≤ u)
    (hc : ConvexOn ℝ {y | l ≤ y 0 ∧ y 0 ≤ u} g) {w w' : S × E} {Y : NpMat} {v : ℝ}
    (hr : (av_minimize lib rng (avfun surf r) (.bounded b) s (some (avdfun surf r))).run w = (.ok (Y, v), w')) :
    ∃ (y : Fin 1 → ℝ) (q : ℝ), Y = rowOf y ∧ v = g y ∧ l ≤ y 0 ∧ y 0 ≤ u ∧ HasFDerivAt g (lin fun _ => q) y ∧
      ∀ y', l ≤ y' 0 → y' 0 ≤ u → v ≤ g y' + |q| * tol := by
  obtain ⟨G, hG1, hG2, hG3⟩ := C118_functions surf r g hg
  have hr' := hr
  obtain ⟨y, rfl, hy2, hy3, -⟩ := C61_active hw1 hl hr
  have hv : v = g y := (Except.ok.inj ((hG1 y).symm.trans hy2)).symm
  have hyb : l ≤ y 0 ∧ y 0 ≤ u := by
    unfold Admissible at hy3
    simp only [if_true] at hy3
    exact hy3 l u hbl hbu hlu 0
  unfold av_minimize at hr'
  rw [hw1] at hr'
  dsimp only at hr'
  rw [if_pos (NpMat.of_cols V1)] at hr'
  obtain ⟨hi, -⟩ := lift_inv hr'
  unfold interval_minimize at hi
  rw [hbl, hbu] at hi
  simp only [bind, Except.bind] at hi
  cases e3 : lib.fminbound (fun t => avfun surf r 1 fun _ => t) l u with
  | error e => rw [e3] at hi; cases hi
  | ok p =>
    obtain ⟨x, v', bad⟩ := p
    rw [e3] at hi
    cases bad with
    | true => cases hi
    | false =>
      dsimp only at hi
      rw [if_neg (by simp)] at hi
      have hx : (fun _ => x) = y := by
        have h1 := (Prod.mk.inj (Except.ok.inj hi)).1
        funext j
        have := congrArg (fun A => A.get ((0 : Fin 1) : ℕ) j) h1
        simp only [rowOf] at this
        rw [NpMat.get_of, NpMat.get_of] at this
        exact this
      obtain ⟨x', hx1, hx2, hx3⟩ := ht.fminbound _ _ _ _ _ (fun t => g fun _ => t) e3 (fun t => hG1 _) hlu
      have hc1 : ConvexOn ℝ (Set.Icc l u) fun t => g fun _ => t := by
        refine ⟨convex_Icc l u, fun a ha b hb p q hp hq hpq => ?_⟩
        exact hc.2 (x := fun _ => a) (y := fun _ => b) ha hb hp hq hpq
      have hmin := IsMinOn.of_isLocalMinOn_of_convexOn hx1 hx2 hc1
      have hq : (fun _ => G y 0) = G y := funext fun j => by rw [Subsingleton.elim j 0]
      refine ⟨y, G y 0, rfl, hv, hyb.1, hyb.2, by rw [hq]; exact hG3 y, fun y' h1 h2 => ?_⟩
      have h4 : (g fun _ => x') ≤ g fun _ => y' 0 := hmin (show y' 0 ∈ Set.Icc l u from ⟨h1, h2⟩)
      have h5 : (fun _ => y' 0) = y' := funext fun j => by rw [Subsingleton.elim j 0]
      have h6 := convex_tangent hc (x := y) (y := fun _ => x') hyb hx1 (hG3 y)
      rw [h5] at h4
      rw [Fin.sum_univ_one] at h6
      have h7 : y 0 = x := congrFun hx.symm 0
      have h8 : -(|G y 0| * tol) ≤ G y 0 * (x' - y 0) := by
        have h9 : |G y 0 * (x' - y 0)| ≤ |G y 0| * tol := by
          rw [abs_mul, h7, abs_sub_comm]
          exact mul_le_mul_of_nonneg_left hx3 (abs_nonneg _)
        exact (abs_le.mp h9).1
      rw [hv]
      linarith

/-! ## The whole function -/

/-- The point that `minimize` returns, in the active variables. -/
theorem minimize_point {a : AVMap S E} (hs : Split a.subspaces V1 V2) {lib : Model.Optimizers.Lib} (hl : OptLibOK lib) (hq : QPLibOK lib.dom.qp)
    {rng : Rng S} {surf : Surface R} {r : R} {X f : Arr} {w w' : S × Files × E} {xs : NpMat} {v : ℝ}
    (hr : (minimize lib rng surf r a X f).run w = (.ok (some (xs, v)), w')) :
    ∃ x, xs = rowOf x ∧ (∀ b, a.dom = .bounded b → x ∈ cube (n + k)) ∧
      (av_minimize lib rng (avfun surf r) a.dom a.subspaces (some (avdfun surf r))).run w = (.ok (rowOf (activeOf V1 x), v), w) := by
  obtain ⟨x, y, z, h1, h2, h3, h4, -, h6, -⟩ := C61_minimize hs hl hq hr
  have hy : activeOf V1 x = y := by
    subst h1
    have e := (forward_of hs (Matrix.of fun (_ : Fin 1) j => x j)).symm.trans h4
    have e' := (Prod.mk.inj (Except.ok.inj e)).1
    funext j
    have := congrArg (fun A => A.get 0 j) e'
    have l1 : (NpMat.of ((Matrix.of fun (_ : Fin 1) j => x j) * V1)).get ((0 : Fin 1) : ℕ) j = _ := NpMat.get_of _ 0 j
    have l2 : (rowOf y).get ((0 : Fin 1) : ℕ) j = y j := NpMat.get_of _ 0 j
    calc _ = ((Matrix.of fun (_ : Fin 1) j => x j) * V1) 0 j := (Matrix.mul_apply ..).symm
      _ = _ := l1.symm
      _ = _ := this
      _ = _ := l2
  exact ⟨x, h1, h6, by rw [hy]; exact h2⟩

theorem rowOf_inj {y1 y2 : Fin n → ℝ} (h : rowOf y1 = rowOf y2) : y1 = y2 := by
  funext j
  have := congrArg (fun A => A.get ((0 : Fin 1) : ℕ) j) h
  simp only [rowOf] at this
  rw [NpMat.get_of, NpMat.get_of] at this
  exact this

/-- C118: the point returned for a convex surface minimises the surface over the inputs, up to the tolerance of the optimiser. -/
theorem C118_minimize {a : AVMap S E} (hs : Split a.subspaces V1 V2) {lib : Model.Optimizers.Lib} (hl : OptLibOK lib) (hq : QPLibOK lib.dom.qp) {tol : ℝ}
    (ht : LocalOK lib tol) {rng : Rng S} {surf : Surface R} {r : R} {g : (Fin n → ℝ) → ℝ} (hg : Evaluates surf r g) (hdom : n ≠ 1 ∨ a.dom = .unbounded)
    {D : Set (Fin n → ℝ)} (hD : ∀ y, Admissible a.dom n y → y ∈ D) (hc : ConvexOn ℝ D g) {X f : Arr} {w w' : S × Files × E} {xs : NpMat} {v : ℝ}
    (hadm : ∀ y, (∀ b, a.dom = .bounded b → y ∈ zonotope V1) → Admissible a.dom n y)
    (hr : (minimize lib rng surf r a X f).run w = (.ok (some (xs, v)), w')) :
    ∃ x, xs = rowOf x ∧ (∀ b, a.dom = .bounded b → x ∈ cube (n + k)) ∧ v = g (activeOf V1 x) ∧
      ∀ x', (∀ b, a.dom = .bounded b → x' ∈ cube (n + k)) → v ≤ g (activeOf V1 x') + tol * ∑ j, |activeOf V1 x' j - activeOf V1 x j| := by
  obtain ⟨x, h1, h2, h3⟩ := minimize_point hs hl hq hr
  obtain ⟨y, e1, -, e3, e4⟩ := C118_active hs.w1 hl ht hg hdom hD hc h3
  obtain rfl := rowOf_inj e1
  refine ⟨x, h1, h2, e3, fun x' hx' => e4 _ (hadm _ fun b hb => ⟨x', hx' b hb, fun j => ?_⟩)⟩
  exact Finset.sum_congr rfl fun i _ => mul_comm _ _

/-! ## Quadratic surfaces -/

theorem quadratic_convex {d : ℕ} (c : ℝ) (g : Fin d → ℝ) {H : Matrix (Fin d) (Fin d) ℝ} (hH : H.PosSemidef) :
    ConvexOn ℝ Set.univ fun x : Fin d → ℝ => c + g ⬝ᵥ x + 1 / 2 * (x ⬝ᵥ H.mulVec x) := by
  refine ⟨convex_univ, fun x _ y _ p q hp hq hpq => ?_⟩
  have h1 : y ⬝ᵥ H.mulVec x = x ⬝ᵥ H.mulVec y := by
    have hs : H.IsSymm := by simpa using hH.1
    rw [Matrix.dotProduct_mulVec, ← Matrix.mulVec_transpose, hs.eq, dotProduct_comm]
  have h2 : 0 ≤ (x - y) ⬝ᵥ H.mulVec (x - y) := by simpa using hH.dotProduct_mulVec_nonneg (x - y)
  rw [Matrix.mulVec_sub, sub_dotProduct, dotProduct_sub, dotProduct_sub, h1] at h2
  simp only [Matrix.mulVec_add, Matrix.mulVec_smul, dotProduct_add, add_dotProduct, smul_dotProduct, dotProduct_smul, smul_eq_mul]
  rw [h1]
  obtain rfl : q = 1 - p := by linarith
  nlinarith [mul_nonneg (mul_nonneg hp hq) h2]

/-- C118: a quadratic surface is convex if the Hessian `H` that `train` stores is positive semidefinite. -/
theorem C118_quadratic {M : ℕ} {lib : Model.ResponseSurfaces.Lib} (hl : LstsqOK lib) (hn : 1 ≤ n) (p : PolyApprox) (hp : p.N = 2) (Y : Matrix (Fin M) (Fin n) ℝ)
    (f : Fin M → ℝ) (hM : (2 + n).choose n ≤ M) :
    ∃ (p' : PolyApprox) (g : (Fin n → ℝ) → ℝ) (H : Matrix (Fin n) (Fin n) ℝ), (fit lib Y f none).run p = (.ok (), p') ∧
      Evaluates (Model.ActiveSurfaces.polySurface lib) p' g ∧ p'.H = some (NpMat.of H) ∧ (H.PosSemidef → ConvexOn ℝ Set.univ g) := by
  obtain ⟨p', P, hrun, -, -, -, -, hpred, -⟩ := fit_ok lib hl p hn (by omega) Y f none (by rw [hp]; exact hM)
  obtain ⟨p2, P2, g2, H, hrun2, hpred2, -, hH, -, -, -, hquad⟩ := C28_gradient_hessian lib hl p hn (by omega) Y f none (by rw [hp]; exact hM)
  obtain rfl : p' = p2 := (Prod.mk.inj (hrun.symm.trans hrun2)).2
  have hPP : ∀ y, MvPolynomial.eval y P = MvPolynomial.eval y P2 := fun y => by
    have h1 := (hpred 1 (Matrix.of fun _ => y)).1.symm.trans (hpred2 1 (Matrix.of fun _ => y))
    exact congrFun (eq_of_heq (NpVec.mk.inj (Prod.mk.inj (Except.ok.inj h1)).1).2) (0 : Fin 1)
  refine ⟨p', fun y => MvPolynomial.eval y P, H, hrun, fun M' Y' => ⟨_, (hpred M' Y').1, (hpred M' Y').2, fun i => ?_⟩, hH (by omega), fun hpsd => ?_⟩
  · exact Proofs.PolyApprox.hasFDerivAt_eval P (Y' i)
  · have := quadratic_convex (MvPolynomial.eval 0 P2) g2 hpsd
    exact this.congr fun y _ => (hquad hp y).symm.trans (hPP y).symm

/-! ## Surfaces that recover the function -/

theorem Recovers.evaluates {m : ℕ} {surf : Surface R} {r : R} {s : Subspaces} {V1 : Matrix (Fin m) (Fin n) ℝ} {P : MvPolynomial (Fin n) ℝ}
    (h : Recovers surf r s V1 P) : Evaluates surf r fun y => MvPolynomial.eval y P := fun M Y =>
  ⟨_, h.av M Y, h.avGrad M Y, fun i => Proofs.PolyApprox.hasFDerivAt_eval P (Y i)⟩

/-- C118: if the surface recovers the function (C102), a convex polynomial of the active variables, then `minimize` returns its minimum. -/
theorem C118_recovered {a : AVMap S E} (hs : Split a.subspaces V1 V2) {lib : Model.Optimizers.Lib} (hl : OptLibOK lib) (hq : QPLibOK lib.dom.qp) {tol : ℝ}
    (ht : LocalOK lib tol) {rng : Rng S} {surf : Surface R} {r : R} {P : MvPolynomial (Fin n) ℝ} (hP : Recovers surf r a.subspaces V1 P)
    (hc : ConvexOn ℝ Set.univ fun y => MvPolynomial.eval y P) {F : (Fin (n + k) → ℝ) → ℝ} (hF : ∀ x, F x = MvPolynomial.eval (activeOf V1 x) P)
    (hdom : n ≠ 1 ∨ a.dom = .unbounded) {X f : Arr} {w w' : S × Files × E} {xs : NpMat} {v : ℝ}
    (hadm : ∀ y, (∀ b, a.dom = .bounded b → y ∈ zonotope V1) → Admissible a.dom n y)
    (hr : (minimize lib rng surf r a X f).run w = (.ok (some (xs, v)), w')) :
    ∃ x, xs = rowOf x ∧ (∀ b, a.dom = .bounded b → x ∈ cube (n + k)) ∧ v = F x ∧
      ∀ x', (∀ b, a.dom = .bounded b → x' ∈ cube (n + k)) → F x ≤ F x' + tol * ∑ j, |activeOf V1 x' j - activeOf V1 x j| := by
  obtain ⟨x, h1, h2, h3, h4⟩ := C118_minimize hs hl hq ht hP.evaluates hdom (fun y _ => Set.mem_univ y) hc hadm hr
  refine ⟨x, h1, h2, by rw [hF]; exact h3, fun x' hx' => ?_⟩
  rw [hF, hF, ← h3]
  exact h4 x' hx'

/-! ## An example -/

/-- A result that meets the contract without error. -/
def ExactResult {d : ℕ} (f : (Fin d → ℝ) → Except Err ℝ) (jac : Option ((Fin d → ℝ) → Except Err (Fin d → ℝ))) (cons : Option (Constraints d))
    (r : OptRes (Fin d → ℝ)) : Prop :=
  r.success = true ∧ Feasible cons r.x ∧ ∃ (J : (Fin d → ℝ) → Except Err (Fin d → ℝ)) (F : (Fin d → ℝ) → ℝ) (G : (Fin d → ℝ) → Fin d → ℝ), jac = some J ∧ (∀ x, f x = .ok (F x)) ∧ (∀ x, J x = .ok (G x)) ∧
    (∀ x, HasFDerivAt F (lin (G x)) x) ∧ Stationary cons (G r.x) 0 r.x ∧ r.f = F r.x

open Classical in
/-- Optimisers that find an exact solution if there is one. -/
noncomputable def exactLib (dom : Model.Domains.Lib) (rs : Model.ResponseSurfaces.Lib) : Model.Optimizers.Lib where
  dom := dom
  rs := rs
  fminbound := fun f a b =>
    if h : ∃ p : ℝ × ℝ, p.1 ∈ Set.Icc a b ∧ ∃ F : ℝ → ℝ, (∀ t, f t = .ok (F t)) ∧ IsMinOn F (Set.Icc a b) p.1 ∧ p.2 = F p.1 then
      .ok (h.choose.1, h.choose.2, false)
    else .ok (a, 0, true)
  minimize := fun _ _ f jac cons x0 => if h : ∃ r, ExactResult f jac cons r then .ok h.choose else .ok ⟨false, x0, 0⟩

theorem exactLib_minimize {dom : Model.Domains.Lib} {rs : Model.ResponseSurfaces.Lib} {method : String} {d : ℕ} {f : (Fin d → ℝ) → Except Err ℝ}
    {jac : Option ((Fin d → ℝ) → Except Err (Fin d → ℝ))} {cons : Option (Constraints d)} {x0 : Fin d → ℝ} {r : OptRes (Fin d → ℝ)}
    (h : (exactLib dom rs).minimize method f jac cons x0 = .ok r) (hs : r.success = true) : ExactResult f jac cons r := by
  simp only [exactLib] at h
  split at h
  · rename_i hex
    cases h
    exact hex.choose_spec
  · cases h
    cases hs

/-- C118: the contracts can be met. -/
theorem exactLib_ok (dom : Model.Domains.Lib) (rs : Model.ResponseSurfaces.Lib) : OptLibOK (exactLib dom rs) ∧ LocalOK (exactLib dom rs) 0 := by
  have hmin : ∀ (f : ℝ → Except Err ℝ) a b x v, (exactLib dom rs).fminbound f a b = .ok (x, v, false) →
      x ∈ Set.Icc a b ∧ ∃ F : ℝ → ℝ, (∀ t, f t = .ok (F t)) ∧ IsMinOn F (Set.Icc a b) x ∧ v = F x := fun f a b x v h => by
    simp only [exactLib] at h
    split at h
    · rename_i hex
      cases h
      exact hex.choose_spec
    · cases h
  refine ⟨⟨fun method f jac cons x0 r h hs => ?_, fun f a b x v h => ?_⟩, ⟨fun method f J cons x0 r F G h hs hF hJ _ => ?_, fun f a b x v F h hF _ => ?_⟩⟩
  · obtain ⟨-, h1, J, F, G, -, h2, -, -, -, h3⟩ := exactLib_minimize h hs
    exact ⟨by rw [h2, h3], h1⟩
  · obtain ⟨h1, F, h2, -, h3⟩ := hmin _ _ _ _ _ h
    exact ⟨by rw [h2, h3], fun _ => h1⟩
  · obtain ⟨-, h1, J', F', G', hJJ, -, h2, -, h3, -⟩ := exactLib_minimize h hs
    cases hJJ
    have : G r.x = G' r.x := Except.ok.inj ((hJ r.x).symm.trans (h2 r.x))
    rw [this]
    exact h3
  · obtain ⟨h1, F', h2, h3, -⟩ := hmin _ _ _ _ _ h
    obtain rfl : F = F' := funext fun t => Except.ok.inj ((hF t).symm.trans (h2 t))
    exact ⟨x, h1, IsMinOn.localize h3, by simp⟩

/-- C118 applies to the surface `y^2` in the first of two variables on the plane. -/
example (rng : Rng S) (w : S × Files × E) (reg : NpMat → ℕ → PyM (S × Files × E) (Option Arr3)) :
    ∃ (lib : Model.Optimizers.Lib) (a : AVMap S E) (xs : NpMat) (v : ℝ), OptLibOK lib ∧ LocalOK lib 0 ∧ QPLibOK lib.dom.qp ∧
      Split a.subspaces toyV1 toyV2 ∧ a.dom = .unbounded ∧ Evaluates squareSurface () (fun y : Fin 1 → ℝ => y 0 ^ 2) ∧
      ConvexOn ℝ Set.univ (fun y : Fin 1 → ℝ => y 0 ^ 2) ∧ (∀ y, Admissible a.dom 1 y) ∧
      (minimize lib rng squareSurface () a (.mat (NpMat.of (sixPoints : Matrix (Fin 6) (Fin (1 + 1)) ℝ)))
        (.mat (NpMat.of (colMat fun i => sixPoints i 1)))).run w = (.ok (some (xs, v)), w) := by
  obtain ⟨rs, hl⟩ := lstsqOK_exists
  obtain ⟨qp, hq, hc⟩ := qpComplete_exists
  let dlib : Model.Domains.Lib := ⟨qp, id, fun _ => .error .valueError⟩
  let a : AVMap S E := ⟨.unbounded, toySubspaces, reg⟩
  obtain ⟨bz, zAy, zAz, ht, hz, -⟩ := C62_fails (S := S) (E := E) hl w
  obtain ⟨G, hG1, hG2, hG3⟩ := C118_functions squareSurface () _ squareSurface_evaluates
  have hconv : ConvexOn ℝ Set.univ (fun y : Fin 1 → ℝ => y 0 ^ 2) :=
    (Even.convexOn_pow (by norm_num : Even 2)).comp_linearMap (LinearMap.proj 0 : (Fin 1 → ℝ) →ₗ[ℝ] ℝ)
  obtain ⟨ho, hloc⟩ := exactLib_ok dlib rs
  -- the result of every run
  have hrun : ∀ y0 : Matrix (Fin 1) (Fin 1) ℝ, unboundedRun (exactLib dlib rs) (avfun squareSurface ()) (some (avdfun squareSurface ())) y0
      = .ok ⟨true, fun _ => 0, 0⟩ := fun y0 => by
    have hG0 : G (fun _ => 0) = fun _ => 0 := by
      have h1 := (hG3 fun _ => 0).unique (by
        have h2 := (hasFDerivAt_apply (𝕜 := ℝ) (0 : Fin 1) (fun _ : Fin 1 => (0 : ℝ))).pow 2
        exact h2)
      funext j
      have h3 := congrArg (fun L => L fun _ => (1 : ℝ)) h1
      simp only [lin_apply] at h3
      rw [Subsingleton.elim j 0]
      simpa using h3
    have hex : ∃ r, ExactResult (avfun squareSurface () 1) (some (avdfun squareSurface () 1)) none r :=
      ⟨⟨true, fun _ => 0, 0⟩, rfl, fun c hc => (by cases hc), _, _, G, rfl, hG1, hG2, hG3, fun y _ => by rw [hG0]; simp, by simp⟩
    have h1 : unboundedRun (exactLib dlib rs) (avfun squareSurface ()) (some (avdfun squareSurface ())) y0 = .ok hex.choose := by
      unfold unboundedRun
      exact dif_pos hex
    obtain ⟨g1, -, J', F', G', hJJ, g2, g3, g4, g5, g6⟩ := hex.choose_spec
    cases hJJ
    have hFF : F' = fun y => y 0 ^ 2 := funext fun y => Except.ok.inj ((g2 y).symm.trans (hG1 y))
    have h5 := convex_tangent hconv (y := fun _ => 0) (Set.mem_univ _) (Set.mem_univ _) (by rw [← hFF]; exact g4 hex.choose.x)
    have h6 := g5 (fun _ => 0) fun c hc => by cases hc
    have h7 : hex.choose.x 0 = 0 := by
      simp only [zero_mul, neg_zero] at h6
      have : hex.choose.x 0 ^ 2 ≤ 0 := by
        simp only [ne_eq, OfNat.ofNat_ne_zero, not_false_eq_true, zero_pow] at h5
        linarith
      exact pow_eq_zero_iff (by norm_num) |>.mp (le_antisymm this (sq_nonneg _))
    rw [h1]
    generalize hex.choose = q at *
    obtain ⟨qs, qx, qf⟩ := q
    dsimp only at g1 g6 h7
    rw [hFF] at g6
    beta_reduce at g6
    rw [h7] at g6
    subst g1
    have : qx = fun _ => 0 := funext fun j => by rw [Subsingleton.elim j 0]; exact h7
    rw [this, g6]
    norm_num
  have hav : (av_minimize (E := Files × E) (exactLib dlib rs) rng (avfun squareSurface ()) a.dom a.subspaces (some (avdfun squareSurface ()))).run w
      = (.ok (rowOf fun _ : Fin 1 => 0, 0), w) := by
    have hd : (Spec.draws (rng.normal 1 1) (rng.seeded 42) 10).map (unboundedRun (exactLib dlib rs) (avfun squareSurface ()) (some (avdfun squareSurface ())))
        = (List.replicate 10 (⟨true, fun _ => 0, 0⟩ : OptRes (Fin 1 → ℝ))).map .ok := by
      rw [List.map_replicate, List.eq_replicate_iff]
      refine ⟨by simp [Spec.draws], fun b hb => ?_⟩
      obtain ⟨y0, -, rfl⟩ := List.mem_map.mp hb
      exact hrun y0
    obtain ⟨p, hp⟩ := (C17_unbounded_returns (E := Files × E) (exactLib dlib rs) rng (avfun squareSurface ()) (some (avdfun squareSurface ())) _ hd
      (fun r hr => by rw [List.eq_of_mem_replicate hr]) w).1 ⟨_, List.mem_replicate.mpr ⟨by norm_num, rfl⟩, by norm_num⟩
    obtain ⟨⟨rs', r, e1, -, e3, e4, e5⟩, -⟩ := C17_unbounded (y := p.1) (f := p.2) hp
    obtain ⟨y0, hy0⟩ := draws_run e1 (firstBest_mem e3)
    rw [hrun] at hy0
    cases hy0
    change (do
      let r ← unbounded_minimize (exactLib dlib rs) rng (avfun squareSurface ()) (some (avdfun squareSurface ())) 1
      return (rowOf r.1, r.2)).run w = _
    rw [PyM.run_bind_ok hp, e4, e5]
    rfl
  refine ⟨exactLib dlib rs, a, _, 0, ho, hloc, hq, toySplit, rfl, squareSurface_evaluates, hconv, fun y => trivial,
    C61_returns (a := a) toySplit (y := fun _ => 0) (z := fun _ => 100) (d := ⟨NpMat.of sixPoints, NpMat.of (colMat fun i => sixPoints i 1)⟩)
      rfl hav ht.run (.inr ⟨rfl, hz⟩)⟩

/-- C118_interval applies to `y^2` on the interval from -1 to 2. -/
example (dom : Model.Domains.Lib) (rs : Model.ResponseSurfaces.Lib) (rng : Rng S) (w : S × E) :
    ∃ (b : Boundary) (v : ℝ), OptLibOK (exactLib dom rs) ∧ LocalOK (exactLib dom rs) 0 ∧
      (NpMat.of b.verts.Y).item 0 0 = .ok (-1) ∧ (NpMat.of b.verts.Y).item 1 0 = .ok 2 ∧
      Evaluates squareSurface () (fun y : Fin 1 → ℝ => y 0 ^ 2) ∧ ConvexOn ℝ {y : Fin 1 → ℝ | -1 ≤ y 0 ∧ y 0 ≤ 2} (fun y => y 0 ^ 2) ∧
      ∃ Y, (av_minimize (exactLib dom rs) rng (avfun squareSurface ()) (.bounded b) toySubspaces (some (avdfun squareSurface ()))).run w
        = (.ok (Y, v), w) := by
  obtain ⟨G, hG1, -, -⟩ := C118_functions squareSurface () _ squareSurface_evaluates
  have hconv : ConvexOn ℝ Set.univ (fun y : Fin 1 → ℝ => y 0 ^ 2) :=
    (Even.convexOn_pow (by norm_num : Even 2)).comp_linearMap (LinearMap.proj 0 : (Fin 1 → ℝ) →ₗ[ℝ] ℝ)
  obtain ⟨ho, hloc⟩ := exactLib_ok dom rs
  let b : Boundary := ⟨1 + 1, 1, ⟨2, !![-1; 2], 0⟩, none, none⟩
  have hex : ∃ p : ℝ × ℝ, p.1 ∈ Set.Icc (-1 : ℝ) 2 ∧ ∃ F : ℝ → ℝ, (∀ t, (avfun squareSurface () 1 fun _ => t) = .ok (F t)) ∧
      IsMinOn F (Set.Icc (-1) 2) p.1 ∧ p.2 = F p.1 :=
    ⟨(0, 0), by norm_num, fun t => t ^ 2, fun t => hG1 _, fun t _ => by simpa using sq_nonneg t, by norm_num⟩
  refine ⟨b, hex.choose.2, ho, hloc, rfl, rfl, squareSurface_evaluates, ?_, NpMat.of (Matrix.of fun (_ _ : Fin 1) => hex.choose.1), ?_⟩
  · refine hconv.subset (Set.subset_univ _) fun x hx y hy p q hp hq hpq => ?_
    obtain ⟨h1, h2⟩ := hx
    obtain ⟨h3, h4⟩ := hy
    obtain rfl : q = 1 - p := by linarith
    constructor <;> simp only [Pi.add_apply, Pi.smul_apply, smul_eq_mul] <;> nlinarith
  · have h1 : (exactLib dom rs).fminbound (fun t => avfun squareSurface () 1 fun _ => t) (-1) 2 = .ok (hex.choose.1, hex.choose.2, false) := dif_pos hex
    have h2 : (NpMat.of b.verts.Y).item 0 0 = .ok (-1) := rfl
    have h3 : (NpMat.of b.verts.Y).item 1 0 = .ok 2 := rfl
    change (PyM.lift (interval_minimize (exactLib dom rs) (avfun squareSurface ()) b)).run w = _
    unfold interval_minimize
    rw [h2, h3]
    simp only [bind, Except.bind]
    rw [h1]
    rfl

/-- C118_quadratic applies to six points with two variables. -/
example : ∃ (lib : Model.ResponseSurfaces.Lib) (p : PolyApprox) (Y : Matrix (Fin 6) (Fin 2) ℝ), LstsqOK lib ∧ p.N = 2 ∧ (2 + 2).choose 2 ≤ 6 ∧ Y ≠ 0 := by
  obtain ⟨rs, hl⟩ := lstsqOK_exists
  refine ⟨rs, { N := 2 }, sixPoints, hl, rfl, by decide, fun h => ?_⟩
  have := congrFun (congrFun h 1) 0
  simp [sixPoints] at this

end Props
