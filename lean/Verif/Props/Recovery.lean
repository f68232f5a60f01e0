import Mathlib.Combinatorics.Nullstellensatz
import Verif.Props.DesignInside

/-!
# Property C102: polynomials of the active variables are recovered
-/

open Py Model.Misc Model.Subspaces Model.QPSolver Model.Domains Model.ResponseSurfaces Model.ActiveSurfaces Model.Quadrature Proofs.Run Spec
open MvPolynomial

namespace Props

variable {S E R : Type} {M m n k : ℕ}

/-- The values of the active variables at `x`. -/
def activeOf (V1 : Matrix (Fin m) (Fin n) ℝ) (x : Fin m → ℝ) : Fin n → ℝ := fun j => ∑ l, x l * V1 l j

/-- On the full space the surface is `x ↦ P (W1ᵀ x)`, with its gradient. -/
structure Recovers (surf : Surface R) (r : R) (s : Subspaces) (V1 : Matrix (Fin m) (Fin n) ℝ) (P : MvPolynomial (Fin n) ℝ) : Prop where
  call : ∀ (M : ℕ) (X : Matrix (Fin M) (Fin m) ℝ), Model.ActiveSurfaces.call surf r s (.mat (NpMat.of X))
    = .ok (NpVec.of fun i => eval (activeOf V1 (X i)) P)
  grad : ∀ (M : ℕ) (X : Matrix (Fin M) (Fin m) ℝ), gradient surf r s (.mat (NpMat.of X))
    = .ok (some (NpMat.of (Matrix.of fun i l => ∑ j, V1 l j * eval (activeOf V1 (X i)) (pderiv j P))))
  both : ∀ (M : ℕ) (X : Matrix (Fin M) (Fin m) ℝ), predict surf r s (.mat (NpMat.of X)) true
    = .ok (NpVec.of fun i => eval (activeOf V1 (X i)) P,
      some (NpMat.of (Matrix.of fun i l => ∑ j, V1 l j * eval (activeOf V1 (X i)) (pderiv j P))))
  av : ∀ (M : ℕ) (Y : Matrix (Fin M) (Fin n) ℝ), predict_av surf r (.mat (NpMat.of Y)) false = .ok (NpVec.of fun i => eval (Y i) P, none)
  avGrad : ∀ (M : ℕ) (Y : Matrix (Fin M) (Fin n) ℝ), predict_av surf r (.mat (NpMat.of Y)) true
    = .ok (NpVec.of fun i => eval (Y i) P, some (NpMat.of (Matrix.of fun i k => eval (Y i) (pderiv k P))))

/-! ## The core -/

theorem recovers_of_predict {surf : Surface R} {r : R} {s : Subspaces} {V1 : Matrix (Fin m) (Fin n) ℝ} {V2 : Matrix (Fin m) (Fin k) ℝ}
    (h1 : s.W1 = some (NpMat.of V1)) (h2 : s.W2 = some (NpMat.of V2)) {P : MvPolynomial (Fin n) ℝ}
    (h : ∀ (M : ℕ) (Y : Matrix (Fin M) (Fin n) ℝ),
        surf.predict r (.mat (NpMat.of Y)) false = .ok (NpVec.of fun i => eval (Y i) P, none) ∧
        surf.predict r (.mat (NpMat.of Y)) true = .ok (NpVec.of fun i => eval (Y i) P,
          some (NpMat.of (Matrix.of fun i k => eval (Y i) (pderiv k P))))) : Recovers surf r s V1 P := by
  have hrow : ∀ {M : ℕ} (X : Matrix (Fin M) (Fin m) ℝ) i, (X * V1) i = activeOf V1 (X i) := fun X i => funext fun j => Matrix.mul_apply
  have p1 : ∀ (M : ℕ) (X : Matrix (Fin M) (Fin m) ℝ), predict surf r s (.mat (NpMat.of X)) false
      = .ok (NpVec.of fun i => eval (activeOf V1 (X i)) P, none) := by
    intro M X
    have e := (h M (X * V1)).1
    simp only [hrow] at e
    unfold predict predict_av
    rw [forward_mul h1 h2]
    simp only [bind, Except.bind, e]
    rfl
  have p2 : ∀ (M : ℕ) (X : Matrix (Fin M) (Fin m) ℝ), predict surf r s (.mat (NpMat.of X)) true
      = .ok (NpVec.of fun i => eval (activeOf V1 (X i)) P,
        some (NpMat.of (Matrix.of fun i l => ∑ j, V1 l j * eval (activeOf V1 (X i)) (pderiv j P)))) := by
    intro M X
    have e := (h M (X * V1)).2
    simp only [hrow] at e
    have e' : (Matrix.of fun i k => eval (activeOf V1 (X i)) (pderiv k P)) * V1.transpose
        = Matrix.of fun i l => ∑ j, V1 l j * eval (activeOf V1 (X i)) (pderiv j P) := by
      ext i l
      rw [Matrix.mul_apply]
      exact Finset.sum_congr rfl fun j _ => mul_comm _ _
    unfold predict predict_av
    rw [forward_mul h1 h2, h1]
    simp only [bind, Except.bind, e, if_true, NpMat.transpose_of, dot_of, e']
    rfl
  refine ⟨fun M X => ?_, fun M X => ?_, p2, fun M Y => (h M Y).1, fun M Y => (h M Y).2⟩
  · unfold Model.ActiveSurfaces.call
    rw [p1]
    rfl
  · unfold gradient
    rw [p2]
    rfl

/-- C102: data from a polynomial of the active variables of degree at most that of the surface: `train_with_data` returns, R-squared
is 1, and the surface is that polynomial everywhere, with its gradient. -/
theorem C102_with_data {lib : Model.ResponseSurfaces.Lib} (hl : LstsqOK lib) {a : AVMap S (PolyApprox × E)} {V1 : Matrix (Fin m) (Fin n) ℝ}
    {V2 : Matrix (Fin m) (Fin k) ℝ} (h1 : a.subspaces.W1 = some (NpMat.of V1)) (h2 : a.subspaces.W2 = some (NpMat.of V2)) (hn : 1 ≤ n)
    (X : Matrix (Fin M) (Fin m) ℝ) (v : Option NpVec) (w : S × Files × PolyApprox × E) (hN : 1 ≤ w.2.2.1.N)
    (hu : Unisolvent w.2.2.1.N (Matrix.of fun i => activeOf V1 (X i))) (P : MvPolynomial (Fin n) ℝ) (hP : P.totalDegree ≤ w.2.2.1.N) :
    ∃ p, (train_with_data (polySurface lib) a (.mat (NpMat.of X))
        (.mat (NpMat.of (Matrix.of fun i (_ : Fin 1) => eval (activeOf V1 (X i)) P))) v).run w = (.ok (), (w.1, w.2.1, p, w.2.2.2)) ∧
      p.Rsqr = some 1 ∧ Recovers (polySurface lib) p a.subspaces V1 P := by
  obtain ⟨p, e1, e2, e3⟩ := C27_reproduces lib hl w.2.2.1 hn hN (Matrix.of fun i => activeOf V1 (X i)) hu P hP
  refine ⟨p, ?_, e2, recovers_of_predict h1 h2 e3⟩
  have hXV : X * V1 = Matrix.of fun i => activeOf V1 (X i) := by
    ext i j
    exact Matrix.mul_apply
  unfold train_with_data AVMap.forward
  rw [forward_mul h1 h2, PyM.run_bind_ok (PyM.run_lift _ _)]
  dsimp only
  rw [hXV]
  unfold train
  rw [if_neg (by simp [polySurface])]
  change ((fit lib (Matrix.of fun i => activeOf V1 (X i)) (fun i => eval (activeOf V1 (X i)) P) none).run w.2.2.1 |>.1,
    (w.1, w.2.1, ((fit lib (Matrix.of fun i => activeOf V1 (X i)) (fun i => eval (activeOf V1 (X i)) P) none).run w.2.2.1).2, w.2.2.2)) = _
  have e1' : (fit lib (Matrix.of fun i => activeOf V1 (X i)) (fun i => eval (activeOf V1 (X i)) P) none).run w.2.2.1 = (.ok (), p) := e1
  rw [e1']

theorem recovers_of_train {lib : Model.ResponseSurfaces.Lib} (hl : LstsqOK lib) {s : Subspaces} {V1 : Matrix (Fin m) (Fin n) ℝ}
    {V2 : Matrix (Fin m) (Fin k) ℝ} (h1 : s.W1 = some (NpMat.of V1)) (h2 : s.W2 = some (NpMat.of V2)) (hn : 1 ≤ n) {p p' : PolyApprox}
    (Y : Matrix (Fin M) (Fin n) ℝ) (f : Fin M → ℝ) (v e : Option NpVec) (hN : 1 ≤ p'.N)
    (hr : ((polySurface lib).train (.mat (NpMat.of Y)) (.mat (NpMat.of (Matrix.of fun i (_ : Fin 1) => f i))) v e).run p = (.ok (), p'))
    (P : MvPolynomial (Fin n) ℝ) (hP : P.totalDegree ≤ p'.N) (hu : Unisolvent p'.N Y) (hf : ∀ i, f i = eval (Y i) P) :
    p'.Rsqr = some 1 ∧ Recovers (polySurface lib) p' s V1 P := by
  obtain rfl : f = fun i => eval (Y i) P := funext hf
  have hr' : (fit lib Y (fun i => eval (Y i) P) none).run p = (.ok (), p') := hr
  -- the degree is that of the surface before
  have hpN : p'.N = p.N := by
    by_cases hM : M < (p.N + n).choose n
    · rw [C27_too_few lib p Y _ none hM] at hr'
      cases (Prod.mk.inj hr').1
    · push Not at hM
      rcases Nat.eq_zero_or_pos p.N with h0 | h0
      · have hM1 : 1 ≤ M := by
          rw [h0, zero_add, Nat.choose_self] at hM
          exact hM
        obtain ⟨x, hx, -⟩ := C68_fails lib p hn h0 Y hM1 (fun i => eval (Y i) P) none
        rw [hr'] at hx
        cases (Prod.mk.inj hx).1
      · obtain ⟨q, -, e1, -, e2, -⟩ := fit_ok lib hl p hn h0 Y (fun i => eval (Y i) P) none hM
        rw [hr'] at e1
        obtain rfl := (Prod.mk.inj e1).2
        exact e2
  rw [hpN] at hN hP hu
  obtain ⟨q, e1, e2, e3⟩ := C27_reproduces lib hl p hn hN Y hu P hP
  rw [hr'] at e1
  obtain rfl := (Prod.mk.inj e1).2
  exact ⟨e2, recovers_of_predict h1 h2 e3⟩

/-! ## Grids determine polynomials -/

/-- A sample that contains a grid with more than `N` values in every coordinate determines polynomials of degree `N`. -/
theorem unisolvent_of_grid {N : ℕ} (Y : Matrix (Fin M) (Fin n) ℝ) (T : Finset ℝ) (hT : N < T.card)
    (h : ∀ x : Fin n → ℝ, (∀ j, x j ∈ T) → ∃ i, Y i = x) : Unisolvent N Y := by
  intro q hq h0
  refine eq_zero_of_eval_zero_at_prod_finset q (fun _ => T) (fun j => ((degreeOf_le_totalDegree q j).trans hq).trans_lt hT) fun x hx => ?_
  obtain ⟨i, rfl⟩ := h x hx
  exact h0 i

theorem tensor_complete (L : List (ℝ × ℝ)) : ∀ l : List ℝ, (∀ a ∈ l, ∃ b, (a, b) ∈ L) → ∃ b, (l, b) ∈ tensor (List.replicate l.length L)
  | [], _ => ⟨1, by simp [tensor]⟩
  | a :: l, h => by
    obtain ⟨b, hb⟩ := h a List.mem_cons_self
    obtain ⟨c, hc⟩ := tensor_complete L l fun x hx => h x (List.mem_cons_of_mem _ hx)
    refine ⟨b * c, ?_⟩
    rw [List.length_cons, List.replicate_succ, tensor]
    exact List.mem_flatMap.mpr ⟨(a, b), hb, List.mem_map.mpr ⟨(l, c), hc, rfl⟩⟩

theorem forall₂_replicate {α β : Type} {Q : α → β → Prop} {x : α} (hQ : ∀ b c, Q x b → Q x c → b = c) : ∀ (n : ℕ) (l : List β),
    List.Forall₂ Q (List.replicate n x) l → ∀ b, Q x b → l = List.replicate n b
  | 0, l, h, b, _ => by
    rw [List.replicate_zero] at h
    rw [List.forall₂_nil_left_iff.mp h, List.replicate_zero]
  | n + 1, l, h, b, hb => by
    rw [List.replicate_succ] at h
    cases h with
    | cons h1 h2 => rw [hQ _ _ h1 hb, forall₂_replicate hQ n _ h2 b hb, List.replicate_succ]

/-- The tensor grid of the `q`-point Gauss-Hermite rule determines polynomials of degree less than `q`. -/
theorem hermite_unisolvent {lib : Model.Quadrature.Lib} (h : Proofs.Quadrature.LibOK lib) (hn : 1 ≤ n) {q N : ℕ} (hq : N < q) (hq' : q ≤ 10 ^ 11)
    {Y : Matrix (Fin M) (Fin n) ℝ} (hY : gauss_hermite_design lib (.list (List.replicate n (.int q))) = .ok (NpMat.of Y)) : Unisolvent N Y := by
  unfold gauss_hermite_design at hY
  cases hg : gauss_hermite lib (.list (List.replicate n (.int q))) with
  | error e =>
    rw [hg] at hY
    cases hY
  | ok r =>
    rw [hg] at hY
    have hrx : r.x = NpMat.of Y := Except.ok.inj hY
    obtain ⟨rs, hrs, hT⟩ := (C24_tensor lib _ r).1 hg
    obtain ⟨r1, hr1⟩ : ∃ r1, gh1d lib (.int q) = .ok r1 := by
      obtain ⟨n, rfl⟩ : ∃ n', n = n' + 1 := ⟨n - 1, by omega⟩
      rw [List.replicate_succ] at hrs
      cases hrs with
      | cons h1 _ => exact ⟨_, h1⟩
    have hrep := forall₂_replicate (fun b c hb hc => Except.ok.inj (hb.symm.trans hc)) n rs hrs r1 hr1
    obtain ⟨x, wt, hx, hw, -, -, -, hmono⟩ := C23_rule h (.inl rfl) (by omega) hr1
    have hinj := (hmono hq').injective
    refine unisolvent_of_grid Y (Finset.univ.image x) ?_ fun z hz => ?_
    · rw [Finset.card_image_of_injective _ hinj, Finset.card_univ, Fintype.card_fin]
      exact hq
    · have h1 : ∀ a ∈ List.ofFn z, ∃ b, (a, b) ∈ points1 r1 := by
        intro a ha
        obtain ⟨j, rfl⟩ := (List.mem_ofFn' _ _).mp ha
        obtain ⟨i, -, hi⟩ := Finset.mem_image.mp (hz j)
        rw [points1_isCol hx hw]
        exact ⟨wt i, (List.mem_ofFn' _ _).mpr ⟨i, by rw [← hi]⟩⟩
      obtain ⟨b, hb⟩ := tensor_complete _ _ h1
      rw [List.length_ofFn] at hb
      have h2 := hT.pts
      rw [hrep, List.map_replicate] at h2
      rw [← h2] at hb
      obtain ⟨i, hi⟩ := (List.mem_ofFn' _ _).mp hb
      have h3 := congrArg Prod.fst hi
      dsimp only at h3
      obtain ⟨rx, rw⟩ := r
      dsimp only at hrx
      subst hrx
      exact ⟨i, List.ofFn_injective h3⟩

/-! ## Training with an interface -/

theorem calls_values {α β W : Type} {f : α → PyM W β} {F : α → β} (hF : ∀ x st, ∃ st', (f x).run st = (.ok (F x), st')) {xs : List α} {w w' : W}
    {vs : List β} (h : Calls f xs w vs w') : vs = xs.map F := by
  induction h with
  | nil => rfl
  | cons h1 _ ih =>
    obtain ⟨st', h2⟩ := hF _ _
    rw [h2] at h1
    rw [List.map_cons, ih]
    congr 1
    exact (Except.ok.inj (Prod.mk.inj h1).1).symm

theorem meanOn_fin_const {T : ℕ} (hT : 0 < T) (c : ℝ) : meanOn Finset.univ (fun _ : Fin T => c) = c := by
  unfold meanOn
  rw [Finset.sum_const, Finset.card_univ, Fintype.card_fin, nsmul_eq_mul, mul_div_assoc, mul_div_cancel₀]
  exact_mod_cast hT.ne'

/-- C102, unbounded domain: when `train_with_interface` returns for a simulation that computes a polynomial of the active variables, of
degree at most that of the surface and less than the number of points per dimension of the design, then R-squared is 1 and the surface
is that polynomial everywhere, whatever inactive variables were drawn. -/
theorem C102_unbounded {a : AVMap S (PolyApprox × E)} {V1 : Matrix (Fin (n + k)) (Fin n) ℝ} {V2 : Matrix (Fin (n + k)) (Fin k) ℝ}
    (h : Split a.subspaces V1 V2) (hreg : ShapeOK a.regularize_z n k) (hdom : a.dom = .unbounded) (hn : 1 ≤ n)
    {lib : Model.ActiveSurfaces.Lib} (hq : Proofs.Quadrature.LibOK lib.quad) {rlib : Model.ResponseSurfaces.Lib} (hl : LstsqOK rlib) (rng : Rng S)
    (P : MvPolynomial (Fin n) ℝ) (fn : (m : ℕ) → Model.SimRunners.Sim (S × Files × PolyApprox × E) m)
    (hfn : ∀ x st, ∃ st', (fn (n + k) x).run st = (.ok (eval (activeOf V1 x) P), st')) (N : ℕ) (NMC : ℤ)
    (w w' : S × Files × PolyApprox × E)
    (hr : (train_with_interface lib rng (polySurface rlib) a fn (.int N) (.int NMC)).run w = (.ok (some ()), w'))
    (hN : 1 ≤ w'.2.2.1.N) (hP : P.totalDegree ≤ w'.2.2.1.N) (hroot : (w'.2.2.1.N : ℝ) + 1 ≤ lib.root N n) (hroot' : lib.root N n < 10 ^ 11) :
    w'.2.2.1.Rsqr = some 1 ∧ Recovers (polySurface rlib) w'.2.2.1 a.subspaces V1 P := by
  obtain ⟨T, NY, Y, X, ind, f, w1, w2, -, hT, -, h1, h2, h3, h4, -⟩ := C56_unbounded h hreg hdom lib rng (polySurface rlib) fn N NMC w w' hr
  -- the values
  have hf : ∀ r, f r = eval (activeOf V1 (X r)) P := by
    have e := calls_values hfn h3
    unfold Np.rows at e
    rw [List.map_map, ← List.ofFn_eq_map] at e
    exact fun r => congrFun (List.ofFn_injective e) r
  have hrow : ∀ r, activeOf V1 (X r) = (X * V1) r := fun r => funext fun j => Matrix.mul_apply.symm
  have hmean : ∀ i, (meanOn Finset.univ fun t : Fin T => f (finProdFinEquiv (i, t))) = eval (Y i) P := by
    intro i
    have e : (fun t : Fin T => f (finProdFinEquiv (i, t))) = fun _ => eval (Y i) P := funext fun t => by rw [hf, hrow, h2]
    rw [e, meanOn_fin_const hT]
  -- the design
  obtain ⟨T', NY', Y', Z, X', ind', -, hd, -, -, ⟨w3, h5⟩, -⟩ := C56_design h hreg (fun b hb => by rw [hdom] at hb; cases hb) lib rng N NMC _ _ _ h1
  have hYY : NpMat.of Y = NpMat.of Y' := congrArg Design.Y hd
  rw [← hYY] at h5
  unfold designPoints at h5
  rw [hdom] at h5
  dsimp only at h5
  obtain ⟨q, hq1⟩ : ∃ q : ℕ, ⌊lib.root N n⌋ = q := ⟨⌊lib.root N n⌋.toNat, by
    have : (0 : ℤ) ≤ ⌊lib.root N n⌋ := Int.floor_nonneg.mpr (le_trans (by positivity) hroot)
    omega⟩
  have h6 : rootList lib.root N (NpMat.of V1).cols = .ok (List.replicate n (.int q)) := by
    unfold rootList rootInt
    rw [show (NpMat.of V1).cols = n from rfl, if_neg (by omega), hq1]
    rfl
  rw [h6, PyM.run_bind_ok (PyM.run_lift _ _)] at h5
  obtain ⟨h7, -⟩ := lift_inv h5
  have hqN : w'.2.2.1.N < q := by
    have : ((w'.2.2.1.N : ℤ) + 1) ≤ ⌊lib.root N n⌋ := Int.le_floor.mpr (by push_cast; exact hroot)
    omega
  have hq11 : q ≤ 10 ^ 11 := by
    have : ⌊lib.root N n⌋ < 10 ^ 11 := Int.floor_lt.mpr (hroot'.trans_le (by norm_num))
    omega
  exact recovers_of_train hl h.w1 h.w2 hn Y _ _ _ hN h4 P hP (hermite_unisolvent hq hn hqN hq11 h7) hmean

/-- C102, one active variable on the cube: a polynomial of degree at most that of the surface and at most `N + 1` is recovered from `N`
design points and the two ends of the interval. -/
theorem C102_interval {a : AVMap S (PolyApprox × E)} {V1 : Matrix (Fin (1 + k)) (Fin 1) ℝ} {V2 : Matrix (Fin (1 + k)) (Fin k) ℝ}
    (h : Split a.subspaces V1 V2) (hreg : ShapeOK a.regularize_z 1 k) {lib : Model.ActiveSurfaces.Lib} (rng : Rng S) (b : Boundary)
    (hdom : a.dom = .bounded b) {E' : Type} {v v' : S × Files × Out × E'} (hb : (boundary lib.dom rng (NpMat.of V1)).run v = (.ok b, v'))
    {rlib : Model.ResponseSurfaces.Lib} (hl : LstsqOK rlib)
    (P : MvPolynomial (Fin 1) ℝ) (fn : (m : ℕ) → Model.SimRunners.Sim (S × Files × PolyApprox × E) m)
    (hfn : ∀ x st, ∃ st', (fn (1 + k) x).run st = (.ok (eval (activeOf V1 x) P), st')) (N : ℕ) (NMC : ℤ)
    (w w' : S × Files × PolyApprox × E)
    (hr : (train_with_interface lib rng (polySurface rlib) a fn (.int N) (.int NMC)).run w = (.ok (some ()), w'))
    (hN : 1 ≤ w'.2.2.1.N) (hP : P.totalDegree ≤ w'.2.2.1.N) (hNN : w'.2.2.1.N ≤ N + 1) :
    w'.2.2.1.Rsqr = some 1 ∧ Recovers (polySurface rlib) w'.2.2.1 a.subspaces V1 P := by
  have hbe : b = ⟨1 + k, 1, ⟨2, (interval_endpoints V1).1, (interval_endpoints V1).2⟩, none, none⟩ :=
    (Except.ok.inj (Prod.mk.inj hb).1).symm
  subst hbe
  obtain ⟨T, NY, Y, X, ind, f, g, w1, w2, -, hT, -, -, h1, h2, h3, h4, -⟩ :=
    C56_bounded h hreg _ none none hdom lib rng (polySurface rlib) fn N NMC w w' hr
  -- the values
  have hfg : (∀ r, f r = eval (activeOf V1 (X r)) P) ∧ ∀ r, g r = eval (activeOf V1 ((interval_endpoints V1).2 r)) P := by
    have e := calls_values hfn h3
    unfold Np.rows at e
    rw [List.map_append, List.map_map, List.map_map, ← List.ofFn_eq_map, ← List.ofFn_eq_map] at e
    obtain ⟨e1, e2⟩ := List.append_inj e (by simp)
    exact ⟨fun r => congrFun (List.ofFn_injective e1) r, fun r => congrFun (List.ofFn_injective e2) r⟩
  have hrow : ∀ r, activeOf V1 (X r) = (X * V1) r := fun r => funext fun j => Matrix.mul_apply.symm
  have hmean : ∀ i, (meanOn Finset.univ fun t : Fin T => f (finProdFinEquiv (i, t))) = eval (Y i) P := by
    intro i
    have e : (fun t : Fin T => f (finProdFinEquiv (i, t))) = fun _ => eval (Y i) P := funext fun t => by rw [hfg.1, hrow, h2]
    rw [e, meanOn_fin_const hT]
  have hends : ∀ r, activeOf V1 ((interval_endpoints V1).2 r) = (interval_endpoints V1).1 r := by
    intro r
    funext j
    rw [Subsingleton.elim j 0, (C49_attained V1 r).2]
    exact Finset.sum_congr rfl fun l _ => mul_comm _ _
  -- the design
  have hW : ∃ i, V1 i 0 ≠ 0 := by
    by_contra hc
    push Not at hc
    have h5 := h.orth11 0 0
    simp only [hc, mul_zero, Finset.sum_const_zero] at h5
    simp at h5
  obtain ⟨T', NY', Y', Z, X', ind', -, hd, -, -, ⟨w3, h5⟩, -⟩ := C56_design h hreg (fun b hb => by rw [hdom] at hb; cases hb; rfl) lib rng N NMC _ _ _ h1
  have hYY : NpMat.of Y = NpMat.of Y' := congrArg Design.Y hd
  rw [← hYY, hdom, designPoints_interval] at h5
  have hs : 0 < ∑ i, |V1 i 0| := by
    obtain ⟨i, hi⟩ := hW
    exact Finset.sum_pos' (fun i _ => abs_nonneg _) ⟨i, Finset.mem_univ _, abs_pos.mpr hi⟩
  obtain ⟨D, e1, e2, e3, -⟩ := C15_interval_design (-∑ i, |V1 i 0|) (∑ i, |V1 i 0|) (by linarith) N
  rw [e1] at h5
  have h6 : NpMat.of D = NpMat.of Y := Except.ok.inj (Prod.mk.inj h5).1
  have h7 : N = NY := congrArg NpMat.rows h6
  subst h7
  have h8 : D = Y := by
    have := (NpMat.mk.inj h6).2.2
    exact eq_of_heq this
  subst h8
  have hu : Unisolvent w'.2.2.1.N (Matrix.of (Fin.append (fun i => D i) fun i => (interval_endpoints V1).1 i)) := by
    let y : Fin (N + 2) → ℝ := fun i => (Fin.append (fun i => D i) fun i => (interval_endpoints V1).1 i) i 0
    have hy : Function.Injective y := by
      have ya : ∀ i : Fin N, y (Fin.castAdd 2 i) = D i 0 := fun i => by simp only [y, Fin.append_left]
      have yb : ∀ i : Fin 2, y (Fin.natAdd N i) = (interval_endpoints V1).1 i 0 := fun i => by simp only [y, Fin.append_right]
      have y0 : (interval_endpoints V1).1 0 0 = -∑ i, |V1 i 0| := by rw [interval_eq]; rfl
      have y1 : (interval_endpoints V1).1 1 0 = ∑ i, |V1 i 0| := by rw [interval_eq]; rfl
      have hne : ∀ (i : Fin N) (r : Fin 2), D i 0 ≠ (interval_endpoints V1).1 r 0 := by
        intro i r
        obtain ⟨l1, l2⟩ := e2 i
        fin_cases r
        · change D i 0 ≠ (interval_endpoints V1).1 0 0
          rw [y0]; exact l1.ne'
        · change D i 0 ≠ (interval_endpoints V1).1 1 0
          rw [y1]; exact l2.ne
      have h01 : (interval_endpoints V1).1 0 0 ≠ (interval_endpoints V1).1 1 0 := by
        rw [y0, y1]; intro hc; linarith
      intro i j
      refine Fin.addCases (fun i => ?_) (fun i => ?_) i <;> refine Fin.addCases (fun j => ?_) (fun j => ?_) j <;> intro hij
      · rw [ya, ya] at hij
        rw [e3.injective hij]
      · rw [ya, yb] at hij
        exact absurd hij (hne i j)
      · rw [ya, yb] at hij
        exact absurd hij.symm (hne j i)
      · rw [yb, yb] at hij
        congr 1
        fin_cases i <;> fin_cases j
        · rfl
        · exact absurd hij h01
        · exact absurd hij.symm h01
        · rfl
    refine unisolvent_of_grid _ (Finset.univ.image y) ?_ fun x hx => ?_
    · rw [Finset.card_image_of_injective _ hy, Finset.card_univ, Fintype.card_fin]
      omega
    · obtain ⟨i, -, hi⟩ := Finset.mem_image.mp (hx 0)
      refine ⟨i, funext fun j => ?_⟩
      rw [Subsingleton.elim j 0, ← hi]
      rfl
  refine recovers_of_train hl h.w1 h.w2 le_rfl (Matrix.of (Fin.append (fun i => D i) fun i => (interval_endpoints V1).1 i)) _ _ _ hN h4 P hP hu ?_
  intro i
  refine Fin.addCases (fun i => ?_) (fun i => ?_) i
  · rw [Fin.append_left, hmean]
    congr 2
    exact (Fin.append_left (fun i => D i) (fun i => (interval_endpoints V1).1 i) i).symm
  · rw [Fin.append_right, hfg.2, hends]
    congr 2
    exact (Fin.append_right (fun i => D i) (fun i => (interval_endpoints V1).1 i) i).symm

/-! ## Examples -/

/-- Training succeeds when there are enough samples. -/
theorem poly_train_ok {rlib : Model.ResponseSurfaces.Lib} (hl : LstsqOK rlib) (hn : 1 ≤ n) (p : PolyApprox) (hN : 1 ≤ p.N)
    (Y : Matrix (Fin M) (Fin n) ℝ) (hM : (p.N + n).choose n ≤ M) (f : Fin M → ℝ) (v e : Option NpVec) :
    (((polySurface rlib).train (.mat (NpMat.of Y)) (.mat (NpMat.of (colMat f))) v e).run p).1 = .ok () := by
  obtain ⟨q, -, e1, -⟩ := fit_ok rlib hl p hn hN Y f none hM
  exact congrArg Prod.fst e1

/-- C102: the second variable is inactive; `3 + 2 y` from the values at (0, 5) and (1, 7). -/
example {lib : Model.ResponseSurfaces.Lib} (hl : LstsqOK lib) (r : NpMat → ℕ → PyM (S × Files × PolyApprox × E) (Option Arr3)) (d : DomKind)
    (w : S × Files × PolyApprox × E) (hN : w.2.2.1.N = 1) :
    ∃ p, (train_with_data (polySurface lib) ⟨d, toySubspaces, r⟩ (.mat (NpMat.of (!![0, 5; 1, 7] : Matrix (Fin 2) (Fin (1 + 1)) ℝ)))
        (.mat (NpMat.of (!![3; 5] : Matrix (Fin 2) (Fin 1) ℝ))) none).run w = (.ok (), (w.1, w.2.1, p, w.2.2.2)) ∧ p.Rsqr = some 1 := by
  have hX : (Matrix.of fun i => activeOf (Matrix.of fun (i : Fin (1 + 1)) (_ : Fin 1) => if i = 0 then (1 : ℝ) else 0)
      ((!![0, 5; 1, 7] : Matrix (Fin 2) (Fin (1 + 1)) ℝ) i)) = (Matrix.of ![![0], ![1]] : Matrix (Fin 2) (Fin 1) ℝ) := by
    ext i j
    rw [Subsingleton.elim j 0]
    fin_cases i <;> simp [activeOf, Fin.sum_univ_two]
  obtain ⟨p, h1, h2, -⟩ := C102_with_data hl (a := (⟨d, toySubspaces, r⟩ : AVMap S (PolyApprox × E))) toySplit.w1 toySplit.w2 le_rfl
    (!![0, 5; 1, 7] : Matrix (Fin 2) (Fin (1 + 1)) ℝ) none w (by rw [hN]) (by rw [hN, hX]; exact unisolvent_line)
    (C 3 + C 2 * X 0) (by
      rw [hN]
      refine (totalDegree_add _ _).trans (max_le (by simp) ((totalDegree_mul _ _).trans (by simp))))
  refine ⟨p, ?_, h2⟩
  rw [← h1]
  congr 4
  ext i j
  fin_cases i <;> simp [activeOf, Fin.sum_univ_two] <;> norm_num

/-- C102: the training on the interval with three design points returns for polynomials of degree at most 4. -/
example (lib : Model.ActiveSurfaces.Lib) {rlib : Model.ResponseSurfaces.Lib} (hl : LstsqOK rlib) (rng : Rng S) (g : (m : ℕ) → (Fin m → ℝ) → ℝ)
    (w : S × Files × PolyApprox × E) (hN : 1 ≤ w.2.2.1.N) (hN4 : w.2.2.1.N ≤ 4) :
    ∃ w', (train_with_interface lib rng (polySurface rlib) ⟨.bounded ⟨1 + 1, 1, ⟨2,
        (interval_endpoints (Matrix.of fun (i : Fin (1 + 1)) (_ : Fin 1) => if i = 0 then (1 : ℝ) else 0)).1,
        (interval_endpoints (Matrix.of fun (i : Fin (1 + 1)) (_ : Fin 1) => if i = 0 then (1 : ℝ) else 0)).2⟩, none, none⟩, toySubspaces,
      toyZ S (PolyApprox × E)⟩ (fun m x => pure (g m x)) (.int 3) (.int 2)).run w = (.ok (some ()), w') := by
  obtain ⟨Y, hY, -⟩ := C15_interval_design (-∑ i : Fin (1 + 1), |(if i = 0 then (1 : ℝ) else 0)|) (∑ i : Fin (1 + 1), |(if i = 0 then (1 : ℝ) else 0)|)
    (by simp [Fin.sum_univ_two]) 3
  have h1 := designPoints_interval (E := Files × PolyApprox × E) lib rng (Matrix.of fun (i : Fin (1 + 1)) (_ : Fin 1) => if i = 0 then (1 : ℝ) else 0) 3 w none none
    (interval_endpoints (Matrix.of fun (i : Fin (1 + 1)) (_ : Fin 1) => if i = 0 then (1 : ℝ) else 0)).2
  simp only [Matrix.of_apply] at h1
  have hY' : Model.Designs.interval_design (-∑ i : Fin (1 + 1), |(if i = 0 then (1 : ℝ) else 0)|) (∑ i : Fin (1 + 1), |(if i = 0 then (1 : ℝ) else 0)|) 3
    = .ok (.mat (NpMat.of Y)) := hY
  rw [hY'] at h1
  obtain ⟨X', ind, h2, h3⟩ := C56_design_returns (a := ⟨.bounded ⟨1 + 1, 1, ⟨2,
        (interval_endpoints (Matrix.of fun (i : Fin (1 + 1)) (_ : Fin 1) => if i = 0 then (1 : ℝ) else 0)).1,
        (interval_endpoints (Matrix.of fun (i : Fin (1 + 1)) (_ : Fin 1) => if i = 0 then (1 : ℝ) else 0)).2⟩, none, none⟩, toySubspaces,
    toyZ S (PolyApprox × E)⟩) toySplit lib rng 3 2 w w w Y (fun _ _ t => t + 1) h1 rfl
  exact C56_bounded_returns _ none none rfl lib rng (polySurface rlib) _ 3 2 (by norm_num) (by norm_num) w w w Y X' ind h2 h3.index _
    (Spec.calls_pure _ _ w) fun f v e => poly_train_ok hl le_rfl _ hN _ (by rw [Nat.choose_one_right]; change _ ≤ 3 + 2; omega) f v e

end Props
