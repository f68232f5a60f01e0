import Verif.Proofs.DoubleRoot
import Verif.Proofs.Run
import Verif.Props.ActiveSubspace
import Verif.Props.NotReady

/-!
# C107: numbers of nodes and samples that are not positive
-/

open Py Model.Misc Model.QPSolver Model.Subspaces Model.Domains Model.ResponseSurfaces Model.ActiveSurfaces Model.Quadrature Model.Integrals Spec
open Proofs.Run

namespace Props

variable {S R E W α : Type} {m n : ℕ}

/-- No value is returned. -/
def NoValue (x : PyM W (Option α)) : Prop := ∀ w v w', x.run w ≠ (.ok (some v), w')

/-- The maps for simulation inputs on the cube and for Gaussian inputs. -/
def StandardMap (lib : Model.Domains.Lib) (rng : Rng S) (a : AVMap S E) : Prop :=
  a.regularize_z = boundedZ lib rng a.subspaces ∨ a.regularize_z = fun Y N => unboundedZ rng a.subspaces Y N

/-- The number of samples of the inactive variables. -/
theorem standard_count {dlib : Model.Domains.Lib} {rng : Rng S} {a : AVMap S E} (ha : StandardMap dlib rng a) {Y : NpMat} {N : ℕ}
    {w w' : S × Files × E} {Z : Arr3} (h : (a.regularize_z Y N).run w = (.ok (some Z), w')) : Z.c = N := by
  rcases ha with ha | ha
  · rw [ha] at h
    unfold boundedZ at h
    split at h
    · split_ifs at h with h1
      · obtain ⟨Zl, w1, -, h2⟩ := bind_inv h
        split_ifs at h2 with h3
        · have := (pure_inv h2).1
          rw [← Option.some.inj this]
        · exact absurd (pure_inv h2).1 (by simp)
      · exact absurd (Prod.mk.inj h).1 (by simp)
    · exact absurd (Prod.mk.inj h).1 (by simp)
  · rw [ha] at h
    dsimp only at h
    unfold unboundedZ at h
    split at h
    · exact absurd (Prod.mk.inj h).1 (by simp)
    · obtain ⟨D, w1, -, h2⟩ := bind_inv h
      rw [← Option.some.inj (pure_inv h2).1]

/-- `inverse` with a number of samples that is not positive returns arrays without rows, if anything. -/
theorem inverse_empty {dlib : Model.Domains.Lib} {rng : Rng S} {a : AVMap S E} (ha : StandardMap dlib rng a) {Y : NpMat} {N : ℤ} (hN : N ≤ 0)
    {w w' : S × Files × E} {r : NpMat × NpMat} (h : (a.inverse (.mat Y) (.int N)).run w = (.ok (some r), w')) :
    r.1.rows = 0 ∧ r.2.rows = 0 ∧ r.2.cols = 1 := by
  obtain ⟨Y', w1, hY, h⟩ := bind_inv h
  dsimp only at h
  split_ifs at h with h0
  · exact absurd (Prod.mk.inj h).1 (by simp)
  · obtain ⟨Z, w2, hz, h⟩ := bind_inv h
    cases Z with
    | none => exact absurd (pure_inv h).1 (by simp)
    | some Z =>
      have hc : Z.c = 0 := (standard_count ha hz).trans (by omega)
      dsimp only at h
      split at h
      · exact absurd (Prod.mk.inj h).1 (by simp)
      · rename_i V _
        obtain ⟨r', w3, hr, h⟩ := bind_inv h
        have e := Option.some.inj (pure_inv h).1
        have hr := (lift_inv hr).1
        subst e
        unfold rotate_x at hr
        split_ifs at hr with hrow
        split at hr
        · exact absurd hr (by simp)
        · rename_i X hX
          split_ifs at hr
          obtain rfl := Except.ok.inj hr
          refine ⟨?_, ?_, rfl⟩
          · unfold NpMat.dot at hX
            split_ifs at hX
            obtain rfl := Except.ok.inj hX
            change Y'.rows * Z.c = 0
            rw [hc, mul_zero]
          · change Y'.rows * Z.c = 0
            rw [hc, mul_zero]

/-- A run without rows does not call the simulation. -/
theorem run_empty (fn : (m : ℕ) → Model.SimRunners.Sim W m) (X : NpMat) (hX : X.rows = 0) (w : W) :
    (Model.SimRunners.run fn (.mat X)).run w = (.ok (NpMat.of (Np.zeros X.rows 1)), w) := by
  obtain ⟨r, c, X⟩ := X
  obtain rfl : r = 0 := hX
  rfl

theorem condExp_empty (f ind : NpMat) (hi : ind.rows = 0) : ∃ e, condExp f ind = .error e := by
  unfold condExp
  split_ifs with h
  · unfold conditional_expectations
    rw [dif_neg (by omega)]
    exact ⟨_, rfl⟩
  · exact ⟨_, rfl⟩

/-- No samples of the inactive variables: `integrate` returns no value and does not run the simulation. -/
theorem C107_integrate_partial (lib : Model.Integrals.Lib) (rng : Rng S) {dlib : Model.Domains.Lib} {rng' : Rng S} {a : AVMap S E}
    (ha : StandardMap dlib rng' a) (N : ℤ) {NMC : ℤ} (hN : NMC ≤ 0) (fn fn' : (m : ℕ) → Model.SimRunners.Sim (S × Files × E) m) :
    NoValue (integrate lib rng fn (some a) (.int N) (.int NMC)) ∧
    ∀ w, (integrate lib rng fn (some a) (.int N) (.int NMC)).run w = (integrate lib rng fn' (some a) (.int N) (.int NMC)).run w := by
  have hq : ∀ {w w' q}, (quadrature_rule lib rng (some a) (.int N) (.int NMC)).run w = (.ok (some q), w') → q.Xp.rows = 0 ∧ q.ind.rows = 0 :=
    fun {w w' q} h => by
      obtain ⟨r, w1, -, h⟩ := bind_inv h
      obtain ⟨p, w2, hi, h⟩ := bind_inv h
      cases p with
      | none => exact absurd (pure_inv h).1 (by simp)
      | some p =>
        obtain ⟨e1, e2, -⟩ := inverse_empty ha hN hi
        have e := Option.some.inj (pure_inv h).1
        subst e
        exact ⟨e1, e2⟩
  have key : ∀ (fn : (m : ℕ) → Model.SimRunners.Sim (S × Files × E) m) {w w' q},
      (quadrature_rule lib rng (some a) (.int N) (.int NMC)).run w = (.ok (some q), w') → ∃ e,
      (integrate lib rng fn (some a) (.int N) (.int NMC)).run w = (.error e, w') ∧ condExp (NpMat.of (Np.zeros q.Xp.rows 1)) q.ind = .error e :=
    fun fn {w w' q} h => by
      obtain ⟨h1, h2⟩ := hq h
      obtain ⟨e, he⟩ := condExp_empty (NpMat.of (Np.zeros q.Xp.rows 1)) q.ind h2
      refine ⟨e, ?_, he⟩
      refine (PyM.run_bind_ok h).trans ((PyM.run_bind_ok (run_empty fn q.Xp h1 w')).trans (PyM.run_bind_error (refused_lift ?_ w')))
      unfold estimate
      rw [he]
      rfl
  constructor
  · intro w v w' h
    obtain ⟨q, w1, h1, h2⟩ := bind_inv h
    cases q with
    | none => exact absurd (pure_inv h2).1 (by simp)
    | some q =>
      obtain ⟨e, he, -⟩ := key fn h1
      rw [he] at h
      exact absurd (Prod.mk.inj h).1 (by simp)
  · intro w
    rcases hr : (quadrature_rule lib rng (some a) (.int N) (.int NMC)).run w with ⟨_ | q, w1⟩
    · exact (PyM.run_bind_error hr).trans (PyM.run_bind_error hr).symm
    · cases q with
      | none =>
        refine (PyM.run_bind_ok hr).trans ?_
        symm
        exact PyM.run_bind_ok hr
      | some q =>
        obtain ⟨e, he, hc⟩ := key fn hr
        obtain ⟨e', he', hc'⟩ := key fn' hr
        rw [he, he']
        rw [hc] at hc'
        rw [Except.error.inj hc']

/-- No samples of the inactive variables: the surface is not trained and the simulation is not run. -/
theorem C107_train_partial (lib : Model.ActiveSurfaces.Lib) (rng : Rng S) {dlib : Model.Domains.Lib} {rng' : Rng S} (surf : Surface R)
    {a : AVMap S (R × E)} (ha : StandardMap dlib rng' a) (N : ℤ) {NMC : ℤ} (hN : NMC ≤ 0)
    (fn fn' : (m : ℕ) → Model.SimRunners.Sim (S × Files × R × E) m) :
    NoValue (train_with_interface lib rng surf a fn (.int N) (.int NMC)) ∧
    ∀ w, (train_with_interface lib rng surf a fn (.int N) (.int NMC)).run w = (train_with_interface lib rng surf a fn' (.int N) (.int NMC)).run w := by
  have hq : ∀ {w w' d}, (av_design lib rng (some a) (.int N) (.int NMC)).run w = (.ok (some d), w') → d.X.rows = 0 ∧ d.ind.rows = 0 :=
    fun {w w' d} h => by
      unfold av_design at h
      dsimp only at h
      split at h
      · exact absurd (Prod.mk.inj h).1 (by simp)
      · obtain ⟨Y, w1, -, h⟩ := bind_inv h
        obtain ⟨p, w2, hi, h⟩ := bind_inv h
        cases p with
        | none => exact absurd (pure_inv h).1 (by simp)
        | some p =>
          obtain ⟨e1, e2, -⟩ := inverse_empty ha hN hi
          have e := Option.some.inj (pure_inv h).1
          subst e
          exact ⟨e1, e2⟩
  have key : ∀ {w w' d}, (av_design lib rng (some a) (.int N) (.int NMC)).run w = (.ok (some d), w') → ∃ e,
      ∀ fn : (m : ℕ) → Model.SimRunners.Sim (S × Files × R × E) m,
        (train_with_interface lib rng surf a fn (.int N) (.int NMC)).run w = (.error e, w') := fun {w w' d} h => by
    obtain ⟨h1, h2⟩ := hq h
    have hv : (∃ e, addVertices a.dom d = .error e) ∨ addVertices a.dom d = .ok d := by
      unfold addVertices
      cases a.dom with
      | bounded b =>
        left
        have hm : ∃ e, d.ind.amaxCol = .error e := by
          unfold NpMat.amaxCol Np.amax Np.argmax Np.argmin
          rw [dif_neg (by rintro ⟨i, -⟩; exact absurd i.2 (by omega))]
          exact ⟨_, rfl⟩
        obtain ⟨e, he⟩ := hm
        cases hX : d.X.vstack (NpMat.of b.verts.X) with
        | error e =>
          dsimp only
          rw [hX]
          exact ⟨_, rfl⟩
        | ok X =>
          cases hY : d.Y.vstack (NpMat.of b.verts.Y) with
          | error e =>
            dsimp only
            rw [hX, hY]
            exact ⟨_, rfl⟩
          | ok Y =>
            dsimp only
            rw [hX, hY, he]
            exact ⟨_, rfl⟩
      | unbounded => exact .inr rfl
      | other => exact .inr rfl
    rcases hv with ⟨e, he⟩ | he
    · refine ⟨e, fun fn => (PyM.run_bind_ok h).trans (PyM.run_bind_error (refused_lift he w'))⟩
    · obtain ⟨e, hc⟩ := condExp_empty (NpMat.of (Np.zeros d.X.rows 1)) d.ind h2
      refine ⟨e, fun fn => (PyM.run_bind_ok h).trans ((PyM.run_bind_ok (w' := w') (a := d) (by rw [he]; rfl)).trans
        ((PyM.run_bind_ok (run_empty fn d.X h1 w')).trans (PyM.run_bind_error (refused_lift hc w'))))⟩
  constructor
  · intro w v w' h
    obtain ⟨q, w1, h1, h2⟩ := bind_inv h
    cases q with
    | none => exact absurd (pure_inv h2).1 (by simp)
    | some q =>
      obtain ⟨e, he⟩ := key h1
      rw [he fn] at h
      exact absurd (Prod.mk.inj h).1 (by simp)
  · intro w
    rcases hr : (av_design lib rng (some a) (.int N) (.int NMC)).run w with ⟨_ | q, w1⟩
    · exact (PyM.run_bind_error hr).trans (PyM.run_bind_error hr).symm
    · cases q with
      | none =>
        refine (PyM.run_bind_ok hr).trans ?_
        symm
        exact PyM.run_bind_ok hr
      | some q =>
        obtain ⟨e, he⟩ := key hr
        rw [he fn, he fn']

/-- A negative number of nodes is refused on a bounded domain, and on an unbounded one with two or more active variables. -/
theorem C107_nodes_partial (lib : Model.Integrals.Lib) (rng : Rng S) (a : AVMap S E) {V1 : Matrix (Fin m) (Fin n) ℝ}
    (hW : a.subspaces.W1 = some (NpMat.of V1)) (hd : (∃ b, a.dom = .bounded b) ∨ a.dom = .unbounded ∧ 2 ≤ n) {N : ℤ} (hN : N < 0)
    (g : AvFun (S × Files × E)) (w : S × Files × E) :
    (∀ r w', (av_quadrature_rule lib rng a N).run w ≠ (.ok r, w')) ∧ ∀ v w', (av_integrate lib rng g (some a) (.int N)).run w ≠ (.ok v, w') := by
  have h : ∀ r w', (av_quadrature_rule lib rng a N).run w ≠ (.ok r, w') := fun r w' h => by
    unfold av_quadrature_rule at h
    rw [hW] at h
    rcases hd with ⟨b, hd⟩ | ⟨hd, hn⟩
    · rw [hd] at h
      dsimp only at h
      split_ifs at h with h1
      · unfold interval_quadrature_rule at h
        obtain ⟨a0, w1, -, h⟩ := bind_inv h
        obtain ⟨b0, w2, -, h⟩ := bind_inv h
        by_cases h2 : N < -1
        · rw [if_pos h2] at h
          exact absurd (Prod.mk.inj h).1 (by simp)
        · rw [if_neg h2] at h
          obtain ⟨U, w3, -, h⟩ := bind_inv h
          rw [if_pos (by omega)] at h
          exact absurd (Prod.mk.inj h).1 (by simp)
      · unfold zonotope_quadrature_rule at h
        rw [if_pos hN] at h
        exact absurd (Prod.mk.inj h).1 (by simp)
    · rw [hd] at h
      dsimp only at h
      obtain ⟨NN, w1, hl, -⟩ := bind_inv h
      have hl := (lift_inv hl).1
      unfold rootList rootInt at hl
      rw [if_pos ⟨hN, hn⟩] at hl
      exact absurd hl (by simp [bind, Except.bind])
  refine ⟨h, fun v w' hv => ?_⟩
  obtain ⟨r, w1, hr, -⟩ := bind_inv hv
  exact h _ _ hr

/-- A number of nodes that is not positive is taken for one by the Gauss rules. -/
theorem C107_gauss (lib : Model.Quadrature.Lib) {N : ℤ} (hN : N ≤ 0) :
    gauss_hermite lib (.num (.int N)) = gauss_hermite lib (.num (.int 1)) ∧ gauss_legendre lib (.num (.int N)) = gauss_legendre lib (.num (.int 1)) ∧
    gauss_hermite lib (.num (.int N)) = .ok ⟨NpMat.of (Matrix.of fun (_ _ : Fin 1) => 0), NpMat.of (Matrix.of fun (_ _ : Fin 1) => 1)⟩ := by
  have h : ∀ (K : ℤ) t, K ≤ 1 → g1d lib (.int K) t
      = .ok ⟨NpMat.of (Matrix.of fun (_ _ : Fin 1) => 0), NpMat.of (Matrix.of fun (_ _ : Fin 1) => 1)⟩ := fun K t hK => by
    unfold g1d
    rw [if_neg (by simpa [Num.gtOne] using hK)]
  exact ⟨(h N .hermite (by omega)).trans (h 1 .hermite (by omega)).symm, (h N .legendre (by omega)).trans (h 1 .legendre (by omega)).symm,
    h N .hermite (by omega)⟩

theorem root_nonpos {N : ℤ} (hN : N ≤ 0) {p : ℝ} (h : DoubleRoot N 1 p) : ⌊p⌋ ≤ 0 := by
  obtain ⟨r, hr, hp⟩ := h
  have h1 : r = 1 := by
    have h2 := hr.2 1 ⟨1, 0, by norm_num, by norm_num⟩
    rw [Nat.cast_one, div_one, sub_self, abs_zero] at h2
    have := abs_nonpos_iff.1 h2
    linarith
  subst h1
  rw [Real.rpow_one] at hp
  have h2 := hp.2 0 ⟨0, 0, by norm_num, by norm_num⟩
  have hN' : (N : ℝ) ≤ 0 := by exact_mod_cast hN
  refine Int.lt_add_one_iff.1 (Int.floor_lt.2 ?_)
  rw [zero_add, Int.cast_one]
  by_contra h3
  push Not at h3
  rw [sub_zero, abs_of_nonpos hN', abs_of_nonpos (by linarith)] at h2
  linarith

/-- One Gaussian active variable: any number of nodes that is not positive gives the value at zero. -/
theorem C107_unbounded (lib : Model.Integrals.Lib) (rng : Rng S) (a : AVMap S E) {V1 : Matrix (Fin m) (Fin 1) ℝ}
    (hW : a.subspaces.W1 = some (NpMat.of V1)) (hd : a.dom = .unbounded) {N : ℤ} (hN : N ≤ 0) (hroot : DoubleRoot N 1 (lib.base.root N 1))
    (w : S × Files × E) : (av_quadrature_rule lib rng a N).run w
      = (.ok ⟨NpMat.of (Matrix.of fun (_ _ : Fin 1) => 0), NpMat.of (Matrix.of fun (_ _ : Fin 1) => 1)⟩, w) := by
  unfold av_quadrature_rule
  rw [hW, hd]
  dsimp only
  have hl : rootList lib.base.root N (NpMat.of V1).cols = .ok [.int ⌊lib.base.root N 1⌋] := by
    unfold rootList rootInt
    rw [if_neg (by rw [NpMat.of_cols]; omega)]
    rfl
  refine (PyM.run_bind_ok (w' := w) (by rw [hl]; rfl)).trans ?_
  rw [PyM.run_lift]
  exact congrArg (·, w) (C107_gauss lib.base.quad (root_nonpos hN hroot)).2.2

/-- One active variable on an interval: without nodes every integral is zero. -/
theorem C107_interval (lib : Model.Integrals.Lib) (rng : Rng S) (a : AVMap S E) {V1 : Matrix (Fin m) (Fin 1) ℝ} {Y : Matrix (Fin 2) (Fin 1) ℝ}
    {X : Matrix (Fin 2) (Fin m) ℝ} (hW : a.subspaces.W1 = some (NpMat.of V1)) (hd : a.dom = .bounded ⟨m, 1, ⟨2, Y, X⟩, none, none⟩)
    (fn : (m : ℕ) → Model.SimRunners.Sim (S × Files × E) m) (w : S × Files × E) :
    ∃ w', (av_integrate lib rng (.fn fn) (some a) (.int 0)).run w = (.ok 0, w') := by
  have hr : ∃ (w' : S × Files × E) (P Q : Matrix (Fin 0) (Fin 1) ℝ), (av_quadrature_rule lib rng a 0).run w = (.ok ⟨NpMat.of P, NpMat.of Q⟩, w') := by
    unfold av_quadrature_rule
    rw [hW, hd]
    dsimp only
    rw [if_pos (NpMat.of_cols _)]
    have h1 : (NpMat.of Y).item 0 0 = .ok (Y 0 0) := by
      unfold NpMat.item
      rw [if_pos ⟨by rw [NpMat.of_rows]; omega, by rw [NpMat.of_cols]; omega⟩]
      exact congrArg _ (NpMat.get_of Y 0 0)
    have h2 : (NpMat.of Y).item 1 0 = .ok (Y 1 0) := by
      unfold NpMat.item
      rw [if_pos ⟨by rw [NpMat.of_rows]; omega, by rw [NpMat.of_cols]; omega⟩]
      exact congrArg _ (NpMat.get_of Y 1 0)
    have h3 : NpMat.dot (NpMat.of (rng.uniform 10000 m w.1).1) (NpMat.of V1) = .ok (NpMat.of ((rng.uniform 10000 m w.1).1 * V1)) := dot_of _ _
    have h4 : ∀ x : Fin 10000 → ℝ, ∃ c, histogram x (Np.linspace (Y 0 0) (Y 1 0) ((0 : ℤ).toNat + 1)) = .ok c := fun x => by
      unfold histogram
      rw [if_neg (by rintro ⟨k, -⟩; exact k.elim0)]
      exact ⟨_, rfl⟩
    obtain ⟨c, hc⟩ := h4 fun i => (NpMat.of ((rng.uniform 10000 m w.1).1 * V1)).get i 0
    refine ⟨((rng.uniform 10000 m w.1).2, w.2), Matrix.of fun i _ => i.elim0, Matrix.of fun i _ => i.elim0, ?_⟩
    unfold interval_quadrature_rule
    refine (PyM.run_bind_ok (w' := w) (by rw [h1]; rfl)).trans ((PyM.run_bind_ok (w' := w) (by rw [h2]; rfl)).trans ?_)
    rw [if_neg (by omega)]
    refine (PyM.run_bind_ok (Rng.run_draw _ _)).trans ?_
    rw [if_neg (by omega)]
    refine (PyM.run_bind_ok (w' := ((rng.uniform 10000 m w.1).2, w.2))
      (congrArg (fun t : Except Err NpMat => (t, ((rng.uniform 10000 m w.1).2, w.2))) h3)).trans ((PyM.run_bind_ok (by rw [hc]; rfl)).trans ?_)
    refine congrArg₂ (fun (s t : Matrix (Fin 0) (Fin 1) ℝ) => ((Except.ok (⟨NpMat.of s, NpMat.of t⟩ : Rule) : Except Err Rule), ((rng.uniform 10000 m w.1).2, w.2)))
      (Matrix.ext fun i _ => i.elim0) (Matrix.ext fun i _ => i.elim0)
  obtain ⟨w', P, Q, hr⟩ := hr
  refine ⟨w', (PyM.run_bind_ok hr).trans ((PyM.run_bind_ok (run_empty fn (NpMat.of P) rfl w')).trans ?_)⟩
  have h5 : (NpMat.of Q).transpose.dot (NpMat.of (Np.zeros 0 1)) = .ok (NpMat.of (Q.transpose * Np.zeros 0 1)) := dot_of _ _
  refine (PyM.run_bind_ok (w' := w') (congrArg (fun t : Except Err NpMat => (t, w')) h5)).trans ?_
  refine congrArg (fun t : ℝ => ((Except.ok t : Except Err ℝ), w')) ((NpMat.get_of _ 0 0).trans ?_)
  rw [Matrix.mul_apply, Finset.univ_eq_empty, Finset.sum_empty]

/-- C107 fails: the integral over an interval with no nodes is zero, and the integral over the line with `-3` nodes the value at zero. -/
theorem C107_refuted (lib : Model.Integrals.Lib) (rng : Rng S) (w : S × Files × E) :
    (¬ ∀ (a : AVMap S E) (N : ℤ) (g : AvFun (S × Files × E)), N ≤ 0 → ∀ v w', (av_integrate lib rng g (some a) (.int N)).run w ≠ (.ok v, w')) ∧
    (DoubleRoot (-3) 1 (lib.base.root (-3) 1) → ¬ ∀ (a : AVMap S E) (N : ℤ), N < 0 → ∀ r w', (av_quadrature_rule lib rng a N).run w ≠ (.ok r, w')) ∧
    ¬ ∀ N : ℤ, N ≤ 0 → ∀ r, gauss_hermite lib.base.quad (.num (.int N)) ≠ .ok r := by
  refine ⟨fun h => ?_, fun hr h => ?_, fun h => h (-3) (by norm_num) _ (C107_gauss _ (by norm_num)).2.2⟩
  · obtain ⟨w', hw⟩ := C107_interval (m := 1) lib rng
      (⟨.bounded ⟨1, 1, ⟨2, !![-1; 1], !![-1; 1]⟩, none, none⟩, { W1 := some (NpMat.of !![(1 : ℝ)]) }, fun _ _ => pure none⟩ : AVMap S E)
      rfl rfl (fun _ _ => pure 1) w
    exact h _ 0 _ le_rfl _ _ hw
  · exact h (⟨.unbounded, { W1 := some (NpMat.of !![(1 : ℝ)]) }, fun _ _ => pure none⟩ : AVMap S E) (-3) (by norm_num) _ _
      (C107_unbounded lib rng _ (V1 := !![(1 : ℝ)]) rfl rfl (by norm_num) hr w)

/-- Maps as constructed by the code, and a root as NumPy computes it. -/
example (dlib : Model.Domains.Lib) (rng : Rng S) (b : Boundary) :
    StandardMap dlib rng (⟨.bounded b, {}, boundedZ dlib rng {}⟩ : AVMap S E) ∧
    StandardMap dlib rng (⟨.unbounded, {}, fun Y N => unboundedZ rng {} Y N⟩ : AVMap S E) ∧ ∃ p, DoubleRoot (-3) 1 p := by
  refine ⟨.inl rfl, .inr rfl, -3, 1, ?_, ?_⟩
  · refine ⟨⟨1, 0, by norm_num, by norm_num⟩, fun d _ => ?_⟩
    rw [Nat.cast_one, div_one, sub_self, abs_zero]
    exact abs_nonneg _
  · refine ⟨⟨-3, 0, by norm_num, by norm_num⟩, fun d _ => ?_⟩
    rw [Real.rpow_one]
    norm_num

end Props
