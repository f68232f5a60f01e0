import Verif.Props.Recovery
import Verif.Props.RidgeError

/-!
# Property C132: the law of polynomial surfaces trained with the interface of a function of normal inputs
-/

open Py Model.Misc Model.Subspaces Model.QPSolver Model.Domains Model.ResponseSurfaces Model.ActiveSurfaces Model.Quadrature
  Spec Proofs.Run Proofs.Groups Proofs.Rotation Proofs.Poincare MeasureTheory ProbabilityTheory
open MvPolynomial (eval)

namespace Props

variable {S E Ω : Type} {m n k M G T N : ℕ} [MeasurableSpace Ω]

/-! ## Least squares is linear in the data -/

/-- `Q` is the polynomial of degree at most `N` that fits `f` best at the points of `Y`. -/
def BestFit (N : ℕ) (Y : Matrix (Fin M) (Fin n) ℝ) (f : Fin M → ℝ) (Q : MvPolynomial (Fin n) ℝ) : Prop :=
  Q.totalDegree ≤ N ∧ ∀ q : MvPolynomial (Fin n) ℝ, q.totalDegree ≤ N → ∑ i, (eval (Y i) Q - f i) ^ 2 ≤ ∑ i, (eval (Y i) q - f i) ^ 2

theorem BestFit.normal {Y : Matrix (Fin M) (Fin n) ℝ} {f : Fin M → ℝ} {Q : MvPolynomial (Fin n) ℝ} (h : BestFit N Y f Q)
    {q : MvPolynomial (Fin n) ℝ} (hq : q.totalDegree ≤ N) : ∑ i, (eval (Y i) Q - f i) * eval (Y i) q = 0 := by
  set a := ∑ i, (eval (Y i) Q - f i) * eval (Y i) q with ha
  set b := ∑ i, eval (Y i) q ^ 2 with hb
  have hb0 : 0 ≤ b := Finset.sum_nonneg fun i _ => sq_nonneg _
  have key : ∀ t : ℝ, 0 ≤ 2 * t * a + t ^ 2 * b := by
    intro t
    have h1 := h.2 (Q + MvPolynomial.C t * q) ((MvPolynomial.totalDegree_add _ _).trans (max_le h.1 ((MvPolynomial.totalDegree_mul _ _).trans (by
      rw [MvPolynomial.totalDegree_C, zero_add]
      exact hq))))
    have e : ∑ i, (eval (Y i) (Q + MvPolynomial.C t * q) - f i) ^ 2 = ∑ i, (eval (Y i) Q - f i) ^ 2 + (2 * t * a + t ^ 2 * b) := by
      rw [ha, hb, Finset.mul_sum, Finset.mul_sum, ← Finset.sum_add_distrib, ← Finset.sum_add_distrib]
      refine Finset.sum_congr rfl fun i _ => ?_
      rw [map_add, map_mul, MvPolynomial.eval_C]
      ring
    rw [e] at h1
    linarith
  rcases hb0.eq_or_lt with h0 | h0
  · have h1 := key 1
    have h2 := key (-1)
    rw [← h0] at h1 h2
    linarith
  · have h1 := key (-a / b)
    have e : 2 * (-a / b) * a + (-a / b) ^ 2 * b = -(a ^ 2 / b) := by
      field_simp
      ring
    rw [e] at h1
    have h2 : a ^ 2 / b ≤ 0 := by linarith
    have h3 : a ^ 2 ≤ 0 := by
      by_contra h4
      push Not at h4
      exact absurd h2 (not_le.mpr (div_pos h4 h0))
    exact pow_eq_zero_iff two_ne_zero |>.mp (le_antisymm h3 (sq_nonneg a))

theorem bestFit_exists (hn : 1 ≤ n) (hN : 1 ≤ N) {Y : Matrix (Fin M) (Fin n) ℝ} (hu : Unisolvent N Y) (f : Fin M → ℝ) : ∃ Q, BestFit N Y f Q := by
  obtain ⟨lib, hl⟩ := lstsqOK_exists
  obtain ⟨-, Q, -, h1, -, -, -, -, -, -, h2, -⟩ := fit_ok lib hl { N := N } hn hN Y f none (card_le_of_unisolvent hn Y hu)
  exact ⟨Q, h1, fun q hq => by simpa using h2 q hq⟩

/-- The best fit is a sum of the data times fixed polynomials, and reproduces polynomials. -/
theorem smoother (hn : 1 ≤ n) (hN : 1 ≤ N) {Y : Matrix (Fin M) (Fin n) ℝ} (hu : Unisolvent N Y) :
    ∃ ℓ : Fin M → MvPolynomial (Fin n) ℝ, (∀ P : MvPolynomial (Fin n) ℝ, P.totalDegree ≤ N → ∀ y, ∑ i, eval (Y i) P * eval y (ℓ i) = eval y P) ∧
      ∀ f Q, BestFit N Y f Q → ∀ y, eval y Q = ∑ i, f i * eval y (ℓ i) := by
  choose ℓ hℓ using fun i : Fin M => bestFit_exists hn hN hu fun j => if j = i then 1 else 0
  have main : ∀ f Q, BestFit N Y f Q → ∀ y, eval y Q = ∑ i, f i * eval y (ℓ i) := by
    intro f Q hQ y
    let L : MvPolynomial (Fin n) ℝ := ∑ i, MvPolynomial.C (f i) * ℓ i
    have hev : ∀ y, eval y L = ∑ i, f i * eval y (ℓ i) := fun y => by simp [L]
    have hL : L.totalDegree ≤ N := MvPolynomial.totalDegree_finsetSum_le fun i _ => (MvPolynomial.totalDegree_mul _ _).trans (by
      rw [MvPolynomial.totalDegree_C, zero_add]
      exact (hℓ i).1)
    have hD : (Q - L).totalDegree ≤ N := (MvPolynomial.totalDegree_sub Q L).trans (max_le hQ.1 hL)
    have h1 := hQ.normal hD
    have h2 : ∑ j, (eval (Y j) L - f j) * eval (Y j) (Q - L) = 0 := by
      have e : ∀ j, eval (Y j) L - f j = ∑ i, f i * (eval (Y j) (ℓ i) - if j = i then 1 else 0) := fun j => by
        simp only [mul_sub, Finset.sum_sub_distrib, hev]
        simp
      simp only [e, Finset.sum_mul]
      rw [Finset.sum_comm]
      refine Finset.sum_eq_zero fun i _ => ?_
      have := (hℓ i).normal hD
      simp only [mul_assoc]
      rw [← Finset.mul_sum, this, mul_zero]
    have h3 : ∑ j, eval (Y j) (Q - L) ^ 2 = 0 := by
      have : ∑ j, eval (Y j) (Q - L) ^ 2 = ∑ j, (eval (Y j) Q - f j) * eval (Y j) (Q - L) - ∑ j, (eval (Y j) L - f j) * eval (Y j) (Q - L) := by
        rw [← Finset.sum_sub_distrib]
        refine Finset.sum_congr rfl fun j _ => ?_
        rw [map_sub]
        ring
      rw [this, h1, h2, sub_zero]
    have h4 : Q - L = 0 := hu _ hD fun j =>
      pow_eq_zero_iff two_ne_zero |>.mp ((Finset.sum_eq_zero_iff_of_nonneg fun j _ => sq_nonneg _).mp h3 j (Finset.mem_univ j))
    rw [sub_eq_zero.mp h4, hev]
  refine ⟨ℓ, fun P hP y => ?_, main⟩
  exact (main (fun i => eval (Y i) P) P ⟨hP, fun q _ => by
    simp only [sub_self, ne_eq, OfNat.ofNat_ne_zero, not_false_eq_true, zero_pow, Finset.sum_const_zero]
    exact Finset.sum_nonneg fun i _ => sq_nonneg _⟩ y).symm

/-- Of all sums of the data that reproduce polynomials, the best fit has the least sum of squares. -/
theorem smoother_least {Y : Matrix (Fin M) (Fin n) ℝ} {ℓ : Fin M → MvPolynomial (Fin n) ℝ}
    (h1 : ∀ P : MvPolynomial (Fin n) ℝ, P.totalDegree ≤ N → ∀ y, ∑ i, eval (Y i) P * eval y (ℓ i) = eval y P)
    (h2 : ∀ f Q, BestFit N Y f Q → ∀ y, eval y Q = ∑ i, f i * eval y (ℓ i)) (y : Fin n → ℝ) {c : Fin M → ℝ}
    (hc : ∀ P : MvPolynomial (Fin n) ℝ, P.totalDegree ≤ N → ∑ i, c i * eval (Y i) P = eval y P) : ∑ i, eval y (ℓ i) ^ 2 ≤ ∑ i, c i ^ 2 := by
  have hd : ∀ P : MvPolynomial (Fin n) ℝ, P.totalDegree ≤ N → ∑ i, (c i - eval y (ℓ i)) * eval (Y i) P = 0 := fun P hP => by
    simp only [sub_mul, Finset.sum_sub_distrib, hc P hP]
    rw [← h1 P hP y, sub_eq_zero]
    exact Finset.sum_congr rfl fun i _ => mul_comm _ _
  have h3 := h2 (fun i => c i - eval y (ℓ i)) 0 ⟨by simp, fun q hq => by
    have e : ∑ i, (eval (Y i) q - (c i - eval y (ℓ i))) ^ 2
        = ∑ i, eval (Y i) q ^ 2 - 2 * ∑ i, (c i - eval y (ℓ i)) * eval (Y i) q + ∑ i, (c i - eval y (ℓ i)) ^ 2 := by
      rw [Finset.mul_sum, ← Finset.sum_sub_distrib, ← Finset.sum_add_distrib]
      exact Finset.sum_congr rfl fun i _ => by ring
    rw [e, hd q hq]
    have : 0 ≤ ∑ i, eval (Y i) q ^ 2 := Finset.sum_nonneg fun i _ => sq_nonneg _
    have e' : ∑ i, (eval (Y i) (0 : MvPolynomial (Fin n) ℝ) - (c i - eval y (ℓ i))) ^ 2 = ∑ i, (c i - eval y (ℓ i)) ^ 2 :=
      Finset.sum_congr rfl fun i _ => by rw [map_zero]; ring
    rw [e']
    linarith⟩ y
  rw [map_zero] at h3
  have e : ∑ i, c i ^ 2 = ∑ i, eval y (ℓ i) ^ 2 + (2 * ∑ i, (c i - eval y (ℓ i)) * eval y (ℓ i) + ∑ i, (c i - eval y (ℓ i)) ^ 2) := by
    rw [Finset.mul_sum, ← Finset.sum_add_distrib, ← Finset.sum_add_distrib]
    exact Finset.sum_congr rfl fun i _ => by ring
  rw [e, ← h3]
  have : 0 ≤ ∑ i, (c i - eval y (ℓ i)) ^ 2 := Finset.sum_nonneg fun i _ => sq_nonneg _
  linarith

/-! ## What the training sees -/

variable {V1 : Matrix (Fin (n + k)) (Fin n) ℝ} {V2 : Matrix (Fin (n + k)) (Fin k) ℝ}

/-- The training of a polynomial surface in terms of the numbers drawn. -/
theorem training_run {a : AVMap S (PolyApprox × E)} (h : Split a.subspaces V1 V2) (rng : Rng S) (hz : a.regularize_z = fun Y N => unboundedZ rng a.subspaces Y N)
    (hdom : a.dom = .unbounded) (hn : 1 ≤ n) {lib : Model.ActiveSurfaces.Lib} {rlib : Model.ResponseSurfaces.Lib} (hl : LstsqOK rlib)
    (g : (m : ℕ) → (Fin m → ℝ) → ℝ) (Nd : ℤ) {w w' : S × Files × PolyApprox × E} {Y : Matrix (Fin G) (Fin n) ℝ}
    (hY : (designPoints lib rng (NpMat.of V1) a.dom Nd).run w = (.ok (NpMat.of Y), w)) (hN : 1 ≤ w.2.2.1.N) (hu : Unisolvent w.2.2.1.N Y)
    (hr : (train_with_interface lib rng (polySurface rlib) a (fun m x => pure (g m x)) (.int Nd) (.int T)).run w = (.ok (some ()), w')) :
    ∃ Q, BestFit w.2.2.1.N Y (fun i => meanOn Finset.univ fun t : Fin T =>
        g (n + k) (pointOf V1 V2 (Y i) fun j => (rng.normal (G * k) T w.1).1 (finProdFinEquiv (i, j)) t)) Q ∧
      Recovers (polySurface rlib) w'.2.2.1 a.subspaces V1 Q := by
  have hreg : ShapeOK a.regularize_z n k := by
    rw [hz]
    exact shapeOK_unbounded h rng
  obtain ⟨X, ind, h1, h2⟩ := C56_design_returns h lib rng Nd T w w _ Y _ hY (by
    rw [hz]
    exact unboundedZ_run (a := a) h rng Y T w)
  obtain ⟨T', NY', Y', X', ind', f, w1, w2, hT, hT0, hNY, h3, -, h4, h5, -⟩ := C56_unbounded h hreg hdom lib rng (polySurface rlib) _ Nd T w w' hr
  obtain rfl : T' = T := by exact_mod_cast hT
  rw [h1] at h3
  obtain ⟨h6, rfl⟩ := Prod.mk.inj h3
  have h7 := Option.some.inj (Except.ok.inj h6)
  injection h7 with e1 e2 e3
  obtain rfl : G = NY' := congrArg NpMat.rows e1
  obtain rfl : Y = Y' := eq_of_heq (NpMat.mk.inj e1).2.2
  obtain rfl : X = X' := eq_of_heq (NpMat.mk.inj e2).2.2
  -- the values
  have hf : ∀ r, f r = g (n + k) (X r) := by
    have e := calls_values (F := g (n + k)) (fun x st => ⟨st, rfl⟩) h4
    unfold Np.rows at e
    rw [List.map_map, ← List.ofFn_eq_map] at e
    exact fun r => congrFun (List.ofFn_injective e) r
  have hw2 : w2.2.2.1 = w.2.2.1 := by
    have : ∀ {xs : List (Fin (n + k) → ℝ)} {vs : List ℝ} {u u' : S × Files × PolyApprox × E},
        Spec.Calls (fun x => (pure (g (n + k) x) : PyM _ ℝ)) xs u vs u' → u' = u := by
      intro xs vs u u' hc
      induction hc with
      | nil => rfl
      | cons a _ ih => rw [ih]; exact (Prod.mk.inj a).2.symm
    rw [this h4]
  rw [hw2] at h5
  have hpt : ∀ (i : Fin G) (t : Fin T'), X (finProdFinEquiv (i, t)) = pointOf V1 V2 (Y i) fun j => (rng.normal (G * k) T' w.1).1 (finProdFinEquiv (i, j)) t := by
    intro i t
    funext l
    rw [h2.point i t (finProdFinEquiv (i, t)) (by simp [finProdFinEquiv]; ring) l]
    rfl
  simp only [hf, hpt] at h5
  obtain ⟨p, Q, e4, e5, -, -, -, e6, -, -, e7, -⟩ := fit_ok rlib hl w.2.2.1 hn hN Y
    (fun i => meanOn Finset.univ fun t : Fin T' => g (n + k) (pointOf V1 V2 (Y i) fun j => (rng.normal (G * k) T' w.1).1 (finProdFinEquiv (i, j)) t))
    none (card_le_of_unisolvent hn Y hu)
  have h5' : (fit rlib Y (fun i => meanOn Finset.univ fun t : Fin T' =>
      g (n + k) (pointOf V1 V2 (Y i) fun j => (rng.normal (G * k) T' w.1).1 (finProdFinEquiv (i, j)) t)) none).run w.2.2.1 = (.ok (), w'.2.2.1) := h5
  rw [e4] at h5'
  obtain rfl := (Prod.mk.inj h5').2
  refine ⟨Q, ⟨e5, fun q hq => by simpa using e7 q hq⟩, recovers_of_predict h.w1 h.w2 e6⟩

/-! ## C132 -/

section law

variable {μ : Measure Ω} {rng : Rng S} {s : Ω → S} {F : Files} {r : PolyApprox} {e : E} {a : AVMap S (PolyApprox × E)}
  {lib : Model.ActiveSurfaces.Lib} {rlib : Model.ResponseSurfaces.Lib} {g : (m : ℕ) → (Fin m → ℝ) → ℝ} {Nd : ℤ} {Y : Matrix (Fin G) (Fin n) ℝ}
  {p : Ω → PolyApprox} {x : Fin (n + k) → ℝ} {pred : Ω → ℝ}

/-- The prediction as a function of the numbers drawn. -/
theorem pred_eq (h : Split a.subspaces V1 V2) (hz : a.regularize_z = fun Y N => unboundedZ rng a.subspaces Y N) (hdom : a.dom = .unbounded) (hn : 1 ≤ n)
    (hl : LstsqOK rlib) (hN : 1 ≤ r.N) (hu : Unisolvent r.N Y)
    (hY : ∀ ω, (designPoints lib rng (NpMat.of V1) a.dom Nd).run (s ω, F, r, e) = (.ok (NpMat.of Y), (s ω, F, r, e)))
    (hr : ∀ ω, ∃ w', (train_with_interface lib rng (polySurface rlib) a (fun m x => pure (g m x)) (.int Nd) (.int T)).run (s ω, F, r, e)
      = (.ok (some ()), w') ∧ w'.2.2.1 = p ω)
    (hp : ∀ ω, call (polySurface rlib) (p ω) a.subspaces (.mat (NpMat.of (Matrix.of fun (_ : Fin 1) => x))) = .ok (NpVec.of fun _ : Fin 1 => pred ω)) :
    ∀ ℓ : Fin G → MvPolynomial (Fin n) ℝ, (∀ f Q, BestFit r.N Y f Q → ∀ y, eval y Q = ∑ i, f i * eval y (ℓ i)) →
      pred = fun ω => ∑ i, eval (activeOf V1 x) (ℓ i) * meanOn Finset.univ fun t : Fin T =>
        (fun (i : Fin G) z => g (n + k) (V1.mulVec (Y i) + V2.mulVec z)) i (block (fun ω => (rng.normal (G * k) T (s ω)).1) (i, t) ω) := by
  intro ℓ hℓ
  funext ω
  obtain ⟨w', h1, h2⟩ := hr ω
  obtain ⟨Q, h3, h4⟩ := training_run h rng hz hdom hn hl g Nd (hY ω) hN hu h1
  have h5 := h4.call 1 (Matrix.of fun (_ : Fin 1) => x)
  rw [h2, hp ω] at h5
  have h6 := congrFun (eq_of_heq (NpVec.mk.inj (Except.ok.inj h5)).2) (0 : Fin 1)
  have h7 : pred ω = eval (activeOf V1 x) Q := h6
  rw [h7, hℓ _ Q h3]
  exact Finset.sum_congr rfl fun i _ => mul_comm _ _

/-- C132: the mean of a prediction is the prediction of the polynomial that fits the conditional means of the function at the points of the
design best. -/
theorem C132_mean (h : Split a.subspaces V1 V2) (hz : a.regularize_z = fun Y N => unboundedZ rng a.subspaces Y N) (hdom : a.dom = .unbounded) (hn : 1 ≤ n)
    (hl : LstsqOK rlib) (hN : 1 ≤ r.N) (hu : Unisolvent r.N Y) (hT : 0 < T) (hD : StdNormal μ fun ω => (rng.normal (G * k) T (s ω)).1)
    (hY : ∀ ω, (designPoints lib rng (NpMat.of V1) a.dom Nd).run (s ω, F, r, e) = (.ok (NpMat.of Y), (s ω, F, r, e)))
    (hr : ∀ ω, ∃ w', (train_with_interface lib rng (polySurface rlib) a (fun m x => pure (g m x)) (.int Nd) (.int T)).run (s ω, F, r, e)
      = (.ok (some ()), w') ∧ w'.2.2.1 = p ω)
    (hg : ∀ i, Integrable (fun z => g (n + k) (V1.mulVec (Y i) + V2.mulVec z)) (Measure.pi fun _ : Fin k => gaussianReal 0 1))
    (hp : ∀ ω, call (polySurface rlib) (p ω) a.subspaces (.mat (NpMat.of (Matrix.of fun (_ : Fin 1) => x))) = .ok (NpVec.of fun _ : Fin 1 => pred ω))
    {Q : MvPolynomial (Fin n) ℝ} (hQ : BestFit r.N Y (fun i => condMean (g (n + k)) V1 V2 (Y i)) Q) :
    Integrable pred μ ∧ ∫ ω, pred ω ∂μ = eval (activeOf V1 x) Q := by
  obtain ⟨ℓ, -, h2⟩ := smoother hn hN hu
  have h3 := pred_eq h hz hdom hn hl hN hu hY hr hp ℓ h2
  have h4 := mean_est (φ := fun i z => g (n + k) (V1.mulVec (Y i) + V2.mulVec z)) (c := fun i => eval (activeOf V1 x) (ℓ i)) hD hT hg
  rw [h2 _ Q hQ]
  refine ⟨h3 ▸ h4.1, ?_⟩
  rw [h3]
  refine h4.2.trans (Finset.sum_congr rfl fun i _ => mul_comm _ _)

/-- C132: predictions are unbiased if the mean over the inactive variables is a polynomial of the degree of the surface. -/
theorem C132_unbiased (h : Split a.subspaces V1 V2) (hz : a.regularize_z = fun Y N => unboundedZ rng a.subspaces Y N) (hdom : a.dom = .unbounded) (hn : 1 ≤ n)
    (hl : LstsqOK rlib) (hN : 1 ≤ r.N) (hu : Unisolvent r.N Y) (hT : 0 < T) (hD : StdNormal μ fun ω => (rng.normal (G * k) T (s ω)).1)
    (hY : ∀ ω, (designPoints lib rng (NpMat.of V1) a.dom Nd).run (s ω, F, r, e) = (.ok (NpMat.of Y), (s ω, F, r, e)))
    (hr : ∀ ω, ∃ w', (train_with_interface lib rng (polySurface rlib) a (fun m x => pure (g m x)) (.int Nd) (.int T)).run (s ω, F, r, e)
      = (.ok (some ()), w') ∧ w'.2.2.1 = p ω)
    (hg : ∀ i, Integrable (fun z => g (n + k) (V1.mulVec (Y i) + V2.mulVec z)) (Measure.pi fun _ : Fin k => gaussianReal 0 1))
    (hp : ∀ ω, call (polySurface rlib) (p ω) a.subspaces (.mat (NpMat.of (Matrix.of fun (_ : Fin 1) => x))) = .ok (NpVec.of fun _ : Fin 1 => pred ω))
    {P : MvPolynomial (Fin n) ℝ} (hP : P.totalDegree ≤ r.N) (hPg : ∀ y, condMean (g (n + k)) V1 V2 y = eval y P) :
    ∫ ω, pred ω ∂μ = condMean (g (n + k)) V1 V2 (activeOf V1 x) := by
  rw [hPg]
  refine (C132_mean h hz hdom hn hl hN hu hT hD hY hr hg hp (Q := P) ⟨hP, fun q _ => ?_⟩).2
  simp only [hPg, sub_self, ne_eq, OfNat.ofNat_ne_zero, not_false_eq_true, zero_pow, Finset.sum_const_zero]
  exact Finset.sum_nonneg fun i _ => sq_nonneg _

/-- C132: the variance of a prediction is a sum of the conditional variances at the points of the design over the number of samples for each.
The coefficients are the squares of numbers that reproduce polynomials at the active variables of the point; no other such numbers have
a smaller sum of squares. -/
theorem C132_variance (h : Split a.subspaces V1 V2) (hz : a.regularize_z = fun Y N => unboundedZ rng a.subspaces Y N) (hdom : a.dom = .unbounded) (hn : 1 ≤ n)
    (hl : LstsqOK rlib) (hN : 1 ≤ r.N) (hu : Unisolvent r.N Y) (hT : 0 < T) (hD : StdNormal μ fun ω => (rng.normal (G * k) T (s ω)).1)
    (hY : ∀ ω, (designPoints lib rng (NpMat.of V1) a.dom Nd).run (s ω, F, r, e) = (.ok (NpMat.of Y), (s ω, F, r, e)))
    (hr : ∀ ω, ∃ w', (train_with_interface lib rng (polySurface rlib) a (fun m x => pure (g m x)) (.int Nd) (.int T)).run (s ω, F, r, e)
      = (.ok (some ()), w') ∧ w'.2.2.1 = p ω)
    (hg : ∀ i, MemLp (fun z => g (n + k) (V1.mulVec (Y i) + V2.mulVec z)) 2 (Measure.pi fun _ : Fin k => gaussianReal 0 1))
    (hp : ∀ ω, call (polySurface rlib) (p ω) a.subspaces (.mat (NpMat.of (Matrix.of fun (_ : Fin 1) => x))) = .ok (NpVec.of fun _ : Fin 1 => pred ω)) :
    ∃ c : Fin G → ℝ, (∀ P : MvPolynomial (Fin n) ℝ, P.totalDegree ≤ r.N → ∑ i, c i * eval (Y i) P = eval (activeOf V1 x) P) ∧
      (∀ c' : Fin G → ℝ, (∀ P : MvPolynomial (Fin n) ℝ, P.totalDegree ≤ r.N → ∑ i, c' i * eval (Y i) P = eval (activeOf V1 x) P) →
        ∑ i, c i ^ 2 ≤ ∑ i, c' i ^ 2) ∧
      Var[pred; μ] = (∑ i, c i ^ 2 * Var[fun z => g (n + k) (V1.mulVec (Y i) + V2.mulVec z); Measure.pi fun _ : Fin k => gaussianReal 0 1]) / T := by
  obtain ⟨ℓ, h1, h2⟩ := smoother hn hN hu
  have h3 := pred_eq h hz hdom hn hl hN hu hY hr hp ℓ h2
  refine ⟨fun i => eval (activeOf V1 x) (ℓ i), fun P hP => ?_, fun c' hc' => smoother_least h1 h2 _ hc', ?_⟩
  · rw [← h1 P hP]
    exact Finset.sum_congr rfl fun i _ => mul_comm _ _
  · rw [h3]
    exact var_est (φ := fun i z => g (n + k) (V1.mulVec (Y i) + V2.mulVec z)) (c := fun i => eval (activeOf V1 x) (ℓ i)) hD hT hg

/-- C132: the training and the predictions succeed whatever numbers are drawn. -/
theorem C132_returns (h : Split a.subspaces V1 V2) (hz : a.regularize_z = fun Y N => unboundedZ rng a.subspaces Y N) (hdom : a.dom = .unbounded) (hn : 1 ≤ n)
    (hl : LstsqOK rlib) (hN : 1 ≤ r.N) (hu : Unisolvent r.N Y) (hT : 0 < T)
    (hY : ∀ ω, (designPoints lib rng (NpMat.of V1) a.dom Nd).run (s ω, F, r, e) = (.ok (NpMat.of Y), (s ω, F, r, e))) (g : (m : ℕ) → (Fin m → ℝ) → ℝ) :
    ∃ p : Ω → PolyApprox, (∀ ω, ∃ w', (train_with_interface lib rng (polySurface rlib) a (fun m x => pure (g m x)) (.int Nd) (.int T)).run (s ω, F, r, e)
        = (.ok (some ()), w') ∧ w'.2.2.1 = p ω) ∧
      ∀ x : Fin (n + k) → ℝ, ∃ pred : Ω → ℝ, ∀ ω,
        call (polySurface rlib) (p ω) a.subspaces (.mat (NpMat.of (Matrix.of fun (_ : Fin 1) => x))) = .ok (NpVec.of fun _ : Fin 1 => pred ω) := by
  have hG := card_le_of_unisolvent hn Y hu
  have h1 : ∀ ω, ∃ w', (train_with_interface lib rng (polySurface rlib) a (fun m x => pure (g m x)) (.int Nd) (.int T)).run (s ω, F, r, e)
      = (.ok (some ()), w') := by
    intro ω
    have hreg := unboundedZ_run (a := a) h rng Y T (s ω, F, r, e)
    obtain ⟨X, ind, h1, h2⟩ := C56_design_returns h lib rng Nd T _ _ _ Y _ (hY ω) (by
      rw [hz]
      exact hreg)
    exact C56_unbounded_returns hdom lib rng (polySurface rlib) _ Nd T hT (lt_of_lt_of_le (Nat.choose_pos (Nat.le_add_left _ _)) hG) _ _ _ Y X ind h1 h2.index _
      (Spec.calls_pure _ _ _) fun f v e => poly_train_ok hl hn r hN Y hG f v e
  choose w' hw using h1
  refine ⟨fun ω => (w' ω).2.2.1, fun ω => ⟨w' ω, hw ω, rfl⟩, fun x => ?_⟩
  choose Q hQ using fun ω => training_run h rng hz hdom hn hl g Nd (hY ω) hN hu (hw ω)
  refine ⟨fun ω => eval (activeOf V1 x) (Q ω), fun ω => ?_⟩
  exact (hQ ω).2.call 1 (Matrix.of fun (_ : Fin 1) => x)

end law

/-- C132: a training value at `y` and an independent value of the function at the same active variables differ, in the mean square, by
`1 + 1/T` times the conditional variance, which is at most the mean of the squared derivatives in the inactive directions. -/
theorem C132_training_value {μ : Measure Ω} [IsProbabilityMeasure μ] {D : Ω → Fin (G * k) → Fin T → ℝ} (hD : StdNormal μ D) (hT : 0 < T)
    {f : (Fin (n + k) → ℝ) → ℝ} {df : (Fin (n + k) → ℝ) → Fin (n + k) → ℝ} (hf : Smooth f df) (Y : Matrix (Fin G) (Fin n) ℝ) (i : Fin G) :
    ∫ ω, ∫ z, (f (V1.mulVec (Y i) + V2.mulVec z) - meanOn Finset.univ fun t : Fin T => f (pointOf V1 V2 (Y i) (block D (i, t) ω))) ^ 2
        ∂(Measure.pi fun _ : Fin k => gaussianReal 0 1) ∂μ
      = (1 + 1 / T) * Var[fun z => f (V1.mulVec (Y i) + V2.mulVec z); Measure.pi fun _ : Fin k => gaussianReal 0 1] ∧
    Var[fun z => f (V1.mulVec (Y i) + V2.mulVec z); Measure.pi fun _ : Fin k => gaussianReal 0 1]
      ≤ ∑ b, ∫ z, (∑ l, V2 l b * df (V1.mulVec (Y i) + V2.mulVec z) l) ^ 2 ∂(Measure.pi fun _ : Fin k => gaussianReal 0 1) := by
  refine ⟨?_, C116_conditional hf (Y i)⟩
  have hT' : (T : ℝ) ≠ 0 := by exact_mod_cast hT.ne'
  have hm : ∀ i, MemLp (fun z => f (V1.mulVec (Y i) + V2.mulVec z)) 2 (normal k) := fun i => smooth_memLp (smooth_affine hf (V1.mulVec (Y i)) V2)
  set v := Var[fun z => f (V1.mulVec (Y i) + V2.mulVec z); normal k] with hv
  set c := ∫ z, f (V1.mulVec (Y i) + V2.mulVec z) ∂(normal k) with hc
  let B : Ω → ℝ := fun ω => meanOn Finset.univ fun t : Fin T => f (pointOf V1 V2 (Y i) (block D (i, t) ω))
  -- the estimate
  have hB : B = fun ω => ∑ j, (if j = i then 1 else 0) * meanOn Finset.univ fun t : Fin T =>
      (fun (j : Fin G) z => f (V1.mulVec (Y j) + V2.mulVec z)) j (block D (j, t) ω) := by
    funext ω
    simp only [ite_mul, one_mul, zero_mul, Finset.sum_ite_eq', Finset.mem_univ, if_true]
    rfl
  have h1 := mean_est (φ := fun j z => f (V1.mulVec (Y j) + V2.mulVec z)) (c := fun j : Fin G => if j = i then 1 else 0) hD hT
    fun j => (hm j).integrable one_le_two
  have h2 := var_est (φ := fun j z => f (V1.mulVec (Y j) + V2.mulVec z)) (c := fun j : Fin G => if j = i then 1 else 0) hD hT hm
  rw [← hB] at h1 h2
  have h3 : ∫ ω, B ω ∂μ = c := by
    have := h1.2
    rw [this]
    simp [hc]
  have h4 : Var[B; μ] = v / T := by
    rw [h2]
    simp [hv]
  have hBm : MemLp B 2 μ := by
    have e : B = fun ω => (∑ t : Fin T, f (pointOf V1 V2 (Y i) (block D (i, t) ω))) / T := by
      funext ω
      simp only [B, meanOn, Finset.card_univ, Fintype.card_fin]
    rw [e]
    simp only [div_eq_mul_inv]
    exact (memLp_finsetSum _ fun t _ => memLp_block (φ := fun j z => f (V1.mulVec (Y j) + V2.mulVec z)) hD hm i t).mul_const _
  -- the inner integral
  have h5 : ∀ ω, ∫ z, (f (V1.mulVec (Y i) + V2.mulVec z) - B ω) ^ 2 ∂(normal k) = v + (B ω - c) ^ 2 := by
    intro ω
    have hmi := hm i
    have i1 : Integrable (fun z => f (V1.mulVec (Y i) + V2.mulVec z)) (normal k) := hmi.integrable one_le_two
    have hvar := variance_eq_integral hmi.aestronglyMeasurable.aemeasurable
    have i2 : Integrable (fun z => (f (V1.mulVec (Y i) + V2.mulVec z) - c) ^ 2) (normal k) :=
      ((hmi.sub (memLp_const c)).integrable_sq)
    have e : (fun z => (f (V1.mulVec (Y i) + V2.mulVec z) - B ω) ^ 2)
        = fun z => (f (V1.mulVec (Y i) + V2.mulVec z) - c) ^ 2 + (2 * (c - B ω) * (f (V1.mulVec (Y i) + V2.mulVec z) - c) + (B ω - c) ^ 2) := by
      funext z
      ring
    have i3 : Integrable (fun z => 2 * (c - B ω) * (f (V1.mulVec (Y i) + V2.mulVec z) - c)) (normal k) := (i1.sub (integrable_const c)).const_mul _
    have i5 : Integrable (fun z => 2 * (c - B ω) * (f (V1.mulVec (Y i) + V2.mulVec z) - c) + (B ω - c) ^ 2) (normal k) := i3.add (integrable_const _)
    rw [e, integral_add i2 i5, integral_add i3 (integrable_const _), integral_const_mul, integral_sub i1 (integrable_const c)]
    simp only [integral_const, probReal_univ, one_smul]
    rw [← hc, sub_self, mul_zero, zero_add, hv, hvar]
  have h6 : ∫ ω, (B ω - c) ^ 2 ∂μ = v / T := by
    rw [← h4, variance_eq_integral hBm.aestronglyMeasurable.aemeasurable, h3]
  have i4 : Integrable (fun ω => (B ω - c) ^ 2) μ := (hBm.sub (memLp_const c)).integrable_sq
  change ∫ ω, ∫ z, (f (V1.mulVec (Y i) + V2.mulVec z) - B ω) ^ 2 ∂(normal k) ∂μ = _
  simp only [h5]
  rw [integral_add (integrable_const _) i4, h6]
  simp only [integral_const, probReal_univ, one_smul]
  ring

/-- C132: a quadratic surface in the first of two normal variables, trained on `x² + y` with five nodes and two samples for each: the mean of
the prediction at `(x, y)` is `x²`. -/
example (lib : Model.ActiveSurfaces.Lib) (heig : ∀ {n : ℕ} (A : Matrix (Fin n) (Fin n) ℝ), A.transpose = A → ∃ eV, lib.quad.eig A = .ok eV)
    (hq : Proofs.Quadrature.LibOK lib.quad) (hroot : lib.root 5 1 = 5) {rlib : Model.ResponseSurfaces.Lib} (hl : LstsqOK rlib) (F : Files)
    (r : PolyApprox) (hN : r.N = 2) (e : E) (x : Fin (1 + 1) → ℝ) : ∃ (p : (ℕ → ℝ) → PolyApprox) (pred : (ℕ → ℝ) → ℝ),
      (∀ ω, ∃ w', (train_with_interface lib streamRng (polySurface rlib) (normalMap (PolyApprox × E))
        (fun m x => pure (if h : 1 < m then x ⟨0, by omega⟩ ^ 2 + x ⟨1, h⟩ else 0)) (.int 5) (.int (2 : ℕ))).run (ω, F, r, e) = (.ok (some ()), w') ∧
          w'.2.2.1 = p ω) ∧
      (∀ ω, call (polySurface rlib) (p ω) toySubspaces (.mat (NpMat.of (Matrix.of fun (_ : Fin 1) => x))) = .ok (NpVec.of fun _ : Fin 1 => pred ω)) ∧
      ∫ ω, pred ω ∂(Measure.infinitePi fun _ : ℕ => gaussianReal 0 1) = x 0 ^ 2 := by
  obtain ⟨q, hr⟩ := ((C24_cases lib.quad).2.2.2.2.2 heig [5]).1
  obtain ⟨h1, h2, -⟩ := C24_weights hq [5] (.inl hr)
  have e1 : Model.Quadrature.gauss_hermite_design lib.quad (.list [.int 5]) = .ok q.x := (C24_cases lib.quad).2.2.2.1 _ _ hr
  have h3 : ∀ w : (ℕ → ℝ) × Files × PolyApprox × E, (designPoints lib streamRng
      (NpMat.of (Matrix.of fun (i : Fin (1 + 1)) (_ : Fin 1) => if i = 0 then (1 : ℝ) else 0)) .unbounded 5).run w = (.ok q.x, w) := by
    intro w
    unfold designPoints
    have e0 : rootList lib.root 5 1 = .ok [.int 5] := by
      have : rootInt lib.root 5 1 = .ok 5 := by
        unfold rootInt
        rw [if_neg (by norm_num), hroot]
        norm_num
      unfold rootList
      rw [this]
      rfl
    dsimp only
    rw [NpMat.of_cols, e0, PyM.run_bind_ok (PyM.run_lift _ _), e1]
    rfl
  obtain ⟨Yx, wts⟩ := q
  obtain ⟨rows, cols, Y⟩ := Yx
  change rows = _ at h1
  change cols = _ at h2
  norm_num at h1 h2
  subst h1 h2
  have hu : Unisolvent r.N Y := by
    rw [hN]
    exact hermite_unisolvent (q := 5) hq le_rfl (by norm_num) (by norm_num) e1
  have hN1 : 1 ≤ r.N := by omega
  obtain ⟨p, hp, hpred⟩ := C132_returns (Ω := ℕ → ℝ) (s := id) (F := F) (r := r) (e := e) (a := normalMap (PolyApprox × E)) (T := 2) toySplit rfl rfl le_rfl
    hl hN1 hu (by norm_num) (fun ω => h3 _) fun m x => if h : 1 < m then x ⟨0, by omega⟩ ^ 2 + x ⟨1, h⟩ else 0
  obtain ⟨pred, hpred⟩ := hpred x
  refine ⟨p, pred, hp, hpred, ?_⟩
  have hφ : ∀ (y z : Fin 1 → ℝ), (fun (m : ℕ) (x : Fin m → ℝ) => if h : 1 < m then x ⟨0, by omega⟩ ^ 2 + x ⟨1, h⟩ else 0) (1 + 1)
      ((Matrix.of fun (i : Fin (1 + 1)) (_ : Fin 1) => if i = 0 then (1 : ℝ) else 0).mulVec y +
        (Matrix.of fun (i : Fin (1 + 1)) (_ : Fin 1) => if i = 1 then (1 : ℝ) else 0).mulVec z) = y 0 ^ 2 + z 0 := fun y z => by
    simp [Matrix.mulVec, dotProduct]
  have hi : Integrable (fun z : Fin 1 → ℝ => z 0) (Measure.pi fun _ : Fin 1 => gaussianReal 0 1) :=
    ((memLp_id_gaussianReal' 2 (by simp)).comp_measurePreserving (measurePreserving_eval (fun _ : Fin 1 => gaussianReal 0 1) 0)).integrable one_le_two
  have hm : ∫ z : Fin 1 → ℝ, z 0 ∂(Measure.pi fun _ : Fin 1 => gaussianReal 0 1) = 0 := by
    have hl : HasLaw (fun z : Fin 1 → ℝ => z 0) (gaussianReal 0 1) (Measure.pi fun _ : Fin 1 => gaussianReal 0 1) :=
      (measurePreserving_eval (fun _ : Fin 1 => gaussianReal 0 1) 0).hasLaw
    rw [hl.integral_eq, integral_id_gaussianReal]
  have hc : ∀ y, condMean ((fun (m : ℕ) (x : Fin m → ℝ) => if h : 1 < m then x ⟨0, by omega⟩ ^ 2 + x ⟨1, h⟩ else 0) (1 + 1))
      (Matrix.of fun (i : Fin (1 + 1)) (_ : Fin 1) => if i = 0 then (1 : ℝ) else 0)
      (Matrix.of fun (i : Fin (1 + 1)) (_ : Fin 1) => if i = 1 then (1 : ℝ) else 0) y = eval y (MvPolynomial.X 0 ^ 2) := by
    intro y
    unfold condMean
    simp only [hφ]
    rw [integral_add (integrable_const _) hi, hm]
    simp
  have main := C132_unbiased (s := id) (F := F) (r := r) (e := e) (a := normalMap (PolyApprox × E)) (T := 2) (k := 1) (x := x) (pred := pred) (p := p) toySplit rfl rfl le_rfl
    hl hN1 hu (by norm_num) (streamRng_normal (5 * 1) 2) (fun ω => h3 _) hp (fun i => by
      simp only [hφ]
      exact (integrable_const _).add hi) hpred (P := MvPolynomial.X 0 ^ 2) (by rw [hN]; simp) hc
  rw [main, hc]
  simp [activeOf, Fin.sum_univ_two]

end Props
