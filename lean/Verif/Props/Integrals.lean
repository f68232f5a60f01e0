import Verif.Model.Integrals
import Verif.Props.ActiveTraining

/-!
# Property C57: the estimate of the integral and its bounds
-/

open Py Model.Misc Model.Subspaces Model.QPSolver Model.Domains Model.ResponseSurfaces Model.ActiveSurfaces Model.Quadrature
  Model.Integrals Proofs.Run Proofs.Groups

namespace Props

variable {S E : Type} {M m n k G T : ℕ}

theorem meanOn_const [NeZero T] (c : ℝ) : Spec.meanOn (Finset.univ : Finset (Fin T)) (fun _ => c) = c := by
  have : (T : ℝ) ≠ 0 := Nat.cast_ne_zero.mpr (NeZero.ne T)
  unfold Spec.meanOn
  rw [Finset.sum_const, Finset.card_univ, Fintype.card_fin, nsmul_eq_mul]
  field_simp

/-- The weights on the full space. -/
theorem kronOnes_of (Yw : Matrix (Fin G) (Fin 1) ℝ) (T : ℕ) (f : ℝ → ℝ) :
    (kronOnes (NpMat.of Yw) T).map f = NpMat.of (Matrix.of fun (r : Fin (G * T)) (_ : Fin 1) => f (Yw r.divNat 0)) := by
  refine NpMat.ext_get rfl rfl ?_
  intro i j hi hj
  have hi' : i < G * T := hi
  have hj' : j < 1 := hj
  obtain rfl : j = 0 := by omega
  have e1 : ((kronOnes (NpMat.of Yw) T).map f).get i 0 = f (Yw (⟨i, hi'⟩ : Fin (G * T)).divNat 0 * 1) := by
    unfold NpMat.get
    rw [dif_pos ⟨hi, hj⟩]
    have hd : (⟨0, hj⟩ : Fin (1 * 1)).divNat = (0 : Fin 1) := Fin.ext (by simp [Fin.divNat])
    change f (Yw (⟨i, hi'⟩ : Fin (G * T)).divNat (⟨0, hj⟩ : Fin (1 * 1)).divNat * 1) = _
    rw [hd]
  rw [e1, mul_one]
  exact (NpMat.get_of (Matrix.of fun (r : Fin (G * T)) (_ : Fin 1) => f (Yw r.divNat 0)) ⟨i, hi'⟩ 0).symm

/-- What `estimate` computes. -/
theorem estimate_of (hG : 0 < G) (hT : 0 < T) (F ind : Matrix (Fin (G * T)) (Fin 1) ℝ) (Yw : Matrix (Fin G) (Fin 1) ℝ)
    (hind : ∀ r, ind r 0 = (((r : ℕ) / T : ℕ) : ℝ)) :
    estimate (NpMat.of F) (NpMat.of (Matrix.of fun (r : Fin (G * T)) (_ : Fin 1) => Yw r.divNat 0 / (T : ℝ))) (NpMat.of ind) T =
      .ok (∑ i, (Spec.meanOn Finset.univ fun t : Fin T => F (finProdFinEquiv (i, t)) 0) * Yw i 0,
        ∑ i, (Spec.meanOn Finset.univ fun t : Fin T => F (finProdFinEquiv (i, t)) 0) * Yw i 0
          - 1.96 * Real.sqrt ((∑ i, (Spec.varOn Finset.univ fun t : Fin T => F (finProdFinEquiv (i, t)) 0) * (Yw i 0 * Yw i 0)) / T),
        ∑ i, (Spec.meanOn Finset.univ fun t : Fin T => F (finProdFinEquiv (i, t)) 0) * Yw i 0
          + 1.96 * Real.sqrt ((∑ i, (Spec.varOn Finset.univ fun t : Fin T => F (finProdFinEquiv (i, t)) 0) * (Yw i 0 * Yw i 0)) / T)) := by
  have hT' : (T : ℝ) ≠ 0 := Nat.cast_ne_zero.mpr hT.ne'
  haveI : NeZero T := ⟨hT.ne'⟩
  have hinv : ∀ (a : Fin G) (t : Fin T), (finProdFinEquiv (a, t)).divNat = a := fun a t =>
    congrArg Prod.fst (finProdFinEquiv.symm_apply_apply (a, t))
  unfold estimate
  rw [condExp_blocks hG hT F ind hind, NpMat.map_of, condExp_blocks hG hT _ ind hind]
  simp only [bind, Except.bind, Matrix.of_apply, hinv, Int.cast_natCast, div_mul_cancel₀ _ hT', meanOn_const, NpMat.transpose_of, NpMat.map_of,
    dot_of, NpMat.zipB_same]
  have hg : ∀ A : Matrix (Fin 1) (Fin 1) ℝ, (NpMat.of A).get 0 0 = A 0 0 := fun A => NpMat.get_of A 0 0
  rw [hg, hg, hg]
  simp only [Matrix.of_apply, Matrix.mul_apply, Matrix.transpose_apply, colMat, column, Option.getD_some]
  rfl

/-- A run of the interval rule that returns. -/
theorem interval_rule_inv {rng : Rng S} {b : Boundary} {V : Matrix (Fin m) (Fin 1) ℝ} {N : ℤ} {NX : ℕ} {w w' : S × E} {r : Rule}
    (h : (interval_quadrature_rule rng b (NpMat.of V) N NX).run w = (.ok r, w')) :
    ∃ (K : ℕ) (a0 b0 : ℝ) (c : Fin K → ℤ), (K : ℤ) = N ∧ (NpMat.of b.verts.Y).item 0 0 = .ok a0 ∧ (NpMat.of b.verts.Y).item 1 0 = .ok b0 ∧
      histogram (fun i => ((rng.uniform NX m w.1).1 * V) i 0) (Np.linspace a0 b0 (K + 1)) = .ok c ∧
      r = ⟨NpMat.of (Matrix.of fun (i : Fin K) (_ : Fin 1) => 0.5 * (Np.linspace a0 b0 (K + 1) i.succ + Np.linspace a0 b0 (K + 1) i.castSucc)),
        NpMat.of (Matrix.of fun (i : Fin K) (_ : Fin 1) => (c i : ℝ) / (NX : ℝ))⟩ ∧ w' = ((rng.uniform NX m w.1).2, w.2) := by
  unfold interval_quadrature_rule at h
  obtain ⟨a0, w1, h1, q1⟩ := bind_inv h
  obtain ⟨b0, w2, h2, q2⟩ := bind_inv q1
  obtain ⟨h1', rfl⟩ := lift_inv h1
  obtain ⟨h2', rfl⟩ := lift_inv h2
  by_cases hN : N < -1
  · rw [if_pos hN] at q2
    exact absurd (Prod.mk.inj q2).1 (by simp)
  rw [if_neg hN] at q2
  obtain ⟨U, w3, h3, q3⟩ := bind_inv q2
  obtain ⟨rfl, rfl⟩ := draw_inv h3
  by_cases hN' : N = -1
  · rw [if_pos hN'] at q3
    exact absurd (Prod.mk.inj q3).1 (by simp)
  rw [if_neg hN'] at q3
  dsimp only at q3
  obtain ⟨s, w4, h4, q4⟩ := bind_inv q3
  obtain ⟨h4', rfl⟩ := lift_inv h4
  obtain ⟨c, w5, h5, q5⟩ := bind_inv q4
  obtain ⟨h5', rfl⟩ := lift_inv h5
  obtain ⟨rfl, rfl⟩ := pure_inv q5
  refine ⟨N.toNat, a0, b0, c, by omega, h1', h2', ?_, rfl, rfl⟩
  have h6 : NpMat.dot (NpMat.of (rng.uniform NX m w2.1).1) (NpMat.of V) = .ok (NpMat.of ((rng.uniform NX m w2.1).1 * V)) := dot_of _ _
  rw [← h5']
  have h7 : s = NpMat.of ((rng.uniform NX m w2.1).1 * V) := Except.ok.inj (h4'.symm.trans h6)
  rw [h7]
  congr 1
  funext i
  exact (NpMat.get_of _ i 0).symm

/-- Shapes of the rule on the active variables. -/
theorem av_rule_shape (lib : Model.Integrals.Lib) (rng : Rng S) (a : AVMap S E) (W1 : NpMat) (hW : a.subspaces.W1 = some W1)
    (hdom : ∀ b, a.dom = .bounded b → b.n = W1.cols) (N : ℤ) (w w' : S × Files × E) (r : Rule)
    (h : (av_quadrature_rule lib rng a N).run w = (.ok r, w')) : r.x.cols = W1.cols ∧ r.w.rows = r.x.rows ∧ r.w.cols = 1 := by
  unfold av_quadrature_rule at h
  rw [hW] at h
  dsimp only at h
  cases hd : a.dom with
  | unbounded =>
    rw [hd] at h
    dsimp only at h
    obtain ⟨NN, w1, h1, h2⟩ := bind_inv h
    have h3 := (lift_inv h1).1
    have h4 := (lift_inv h2).1
    have hl : NN.length = W1.cols := by
      unfold rootList at h3
      cases hr : rootInt lib.base.root N W1.cols with
      | error e => rw [hr] at h3; cases h3
      | ok r =>
        rw [hr] at h3
        rw [← Except.ok.inj h3, List.length_replicate]
    obtain ⟨rs, h5, h6⟩ := (C24_tensor lib.base.quad NN r).1 h4
    exact ⟨by rw [h6.cols, ← h5.length_eq, hl], h6.wrows, h6.wcols⟩
  | bounded b =>
    have hb := hdom b hd
    rw [hd] at h
    dsimp only at h
    split_ifs at h with h1
    · obtain ⟨m, c, V⟩ := W1
      change c = 1 at h1
      subst h1
      obtain ⟨K, a0, b0, hh, -, -, -, -, rfl, -⟩ := interval_rule_inv h
      exact ⟨rfl, rfl, rfl⟩
    · unfold zonotope_quadrature_rule at h
      split_ifs at h with h2
      · exact absurd (Prod.mk.inj h).1 (by simp)
      obtain ⟨D, w1, -, q1⟩ := bind_inv h
      obtain ⟨Tr, w2, -, q2⟩ := bind_inv q1
      obtain ⟨U, w3, -, q3⟩ := bind_inv q2
      obtain ⟨s, w4, -, q4⟩ := bind_inv q3
      dsimp only at q4
      split_ifs at q4 with h3
      · obtain ⟨rfl, -⟩ := pure_inv q4
        exact ⟨hb, rfl, rfl⟩
      · exact absurd (Prod.mk.inj q4).1 (by simp)
  | other =>
    rw [hd] at h
    exact absurd (Prod.mk.inj h).1 (by simp)

/-- The rule on the full space: every node of the rule on the active variables with its weight is split evenly between `NMC` points with
these active variables. -/
structure IsFullRule (V1 : Matrix (Fin m) (Fin n) ℝ) (Yp : Matrix (Fin G) (Fin n) ℝ) (Yw : Fin G → ℝ)
    (X : Matrix (Fin (G * T)) (Fin m) ℝ) (Xw : Fin (G * T) → ℝ) : Prop where
  weight : ∀ i t, Xw (finProdFinEquiv (i, t)) = Yw i / T
  point : ∀ i t, (X * V1) (finProdFinEquiv (i, t)) = Yp i

/-- A sum over the full rule is a weighted sum of means. -/
theorem IsFullRule.sum {V1 : Matrix (Fin m) (Fin n) ℝ} {Yp : Matrix (Fin G) (Fin n) ℝ} {Yw : Fin G → ℝ}
    {X : Matrix (Fin (G * T)) (Fin m) ℝ} {Xw : Fin (G * T) → ℝ} (h : IsFullRule V1 Yp Yw X Xw) (f : Fin (G * T) → ℝ) :
    ∑ r, Xw r * f r = ∑ i, (Spec.meanOn Finset.univ fun t : Fin T => f (finProdFinEquiv (i, t))) * Yw i := by
  rw [← finProdFinEquiv.sum_comp, Fintype.sum_prod_type]
  refine Finset.sum_congr rfl fun i _ => ?_
  unfold Spec.meanOn
  rw [Finset.card_univ, Fintype.card_fin, div_mul_eq_mul_div, Finset.sum_mul, Finset.sum_div]
  refine Finset.sum_congr rfl fun t _ => ?_
  rw [h.weight]
  ring

/-- The weights on the full space have the same sum. -/
theorem IsFullRule.sum_weights (hT : 0 < T) {V1 : Matrix (Fin m) (Fin n) ℝ} {Yp : Matrix (Fin G) (Fin n) ℝ} {Yw : Fin G → ℝ}
    {X : Matrix (Fin (G * T)) (Fin m) ℝ} {Xw : Fin (G * T) → ℝ} (h : IsFullRule V1 Yp Yw X Xw) : ∑ r, Xw r = ∑ i, Yw i := by
  have : NeZero T := ⟨hT.ne'⟩
  have := h.sum fun _ => 1
  simpa [meanOn_const] using this

variable {a : AVMap S E} {V1 : Matrix (Fin (n + k)) (Fin n) ℝ} {V2 : Matrix (Fin (n + k)) (Fin k) ℝ}

/-- C57: the rule returned by `quadrature_rule`. -/
theorem C57_rule (h : Split a.subspaces V1 V2) (hreg : ShapeOK a.regularize_z n k) (hdom : ∀ b, a.dom = .bounded b → b.n = n)
    (lib : Model.Integrals.Lib) (rng : Rng S) (N NMC : ℤ) (w w' : S × Files × E) (q : FullRule)
    (hr : (quadrature_rule lib rng (some a) (.int N) (.int NMC)).run w = (.ok (some q), w')) :
    ∃ (G T : ℕ) (Yp : Matrix (Fin G) (Fin n) ℝ) (Yw : Fin G → ℝ) (X : Matrix (Fin (G * T)) (Fin (n + k)) ℝ) (Xw : Fin (G * T) → ℝ)
      (ind : Matrix (Fin (G * T)) (Fin 1) ℝ) (w0 : S × Files × E), (T : ℤ) = NMC ∧
      (av_quadrature_rule lib rng a N).run w = (.ok ⟨NpMat.of Yp, NpMat.of (Matrix.of fun i (_ : Fin 1) => Yw i)⟩, w0) ∧
      q = ⟨NpMat.of X, NpMat.of (Matrix.of fun r (_ : Fin 1) => Xw r), NpMat.of ind⟩ ∧
      IsFullRule V1 Yp Yw X Xw ∧ (∀ r, ind r 0 = (((r : ℕ) / T : ℕ) : ℝ)) := by
  have hr' : (ruleBody lib rng a N NMC).run w = (.ok (some q), w') := hr
  unfold ruleBody at hr'
  obtain ⟨r, w1, h1, hr1⟩ := bind_inv hr'
  obtain ⟨e1, e2, e3⟩ := av_rule_shape lib rng a _ h.w1 hdom N _ _ _ h1
  obtain ⟨⟨G, c, Yp⟩, ⟨G', c', Yw⟩⟩ := r
  change c = n at e1
  change G' = G at e2
  change c' = 1 at e3
  subst e1 e2 e3
  obtain ⟨o, w2, h2, hr2⟩ := bind_inv hr1
  cases o with
  | none => exact absurd (pure_inv hr2).1 (by simp)
  | some p =>
    obtain ⟨Xp, ind⟩ := p
    have hNMC : ∃ T : ℕ, (T : ℤ) = NMC := by
      by_contra hneg
      push Not at hneg
      have hlt : NMC < 0 := by
        by_contra hge
        exact hneg NMC.toNat (by omega)
      unfold AVMap.inverse inverse at h2
      obtain ⟨Y1, w3, -, h2⟩ := bind_inv h2
      dsimp only at h2
      rw [if_pos hlt] at h2
      exact absurd (Prod.mk.inj h2).1 (by simp)
    obtain ⟨T, rfl⟩ := hNMC
    obtain ⟨Z, X, ind', -, h3, h4⟩ := C44_inverse h hreg Yp T _ _ _ h2
    obtain ⟨rfl, rfl⟩ := Prod.mk.inj h3
    obtain ⟨Y', Z', h5, h6⟩ := C44_forward h h4
    have hinv : ∀ (a : Fin G') (t : Fin T), (finProdFinEquiv (a, t)).divNat = a := fun a t =>
      congrArg Prod.fst (finProdFinEquiv.symm_apply_apply (a, t))
    refine ⟨G', T, Yp, fun i => Yw i 0, X, fun r => Yw r.divNat 0 / T, ind', w1, rfl, ?_, ?_, ⟨fun i t => ?_, fun i t => ?_⟩, h4.index⟩
    · rw [h1]
      congr 4
      ext i j
      rw [Subsingleton.elim j 0]
      rfl
    · have h7 := Option.some.inj (pure_inv hr2).1
      rw [← h7]
      congr 1
      have := kronOnes_of Yw T fun t => t / (T : ℝ)
      dsimp only
      rw [Int.toNat_natCast]
      exact this
    · rw [hinv]
    · rw [forward_of h] at h5
      rw [NpMat.of_injective (Prod.mk.inj (Except.ok.inj h5)).1]
      funext j
      refine (h6 i t _ ?_).1 j
      simp [finProdFinEquiv, add_comm, mul_comm]

/-- C57: every run that returns numbers: the estimate is the weighted sum of the simulation's values, the bounds are at distance
`1.96 sqrt(sum of w_i^2 Var_i / NMC)`. -/
theorem C57_integrate (h : Split a.subspaces V1 V2) (hreg : ShapeOK a.regularize_z n k) (hdom : ∀ b, a.dom = .bounded b → b.n = n)
    (lib : Model.Integrals.Lib) (rng : Rng S) (fn : (m : ℕ) → Model.SimRunners.Sim (S × Files × E) m) (N NMC : ℤ) (w w' : S × Files × E)
    (mu lb ub : ℝ) (hr : (integrate lib rng fn (some a) (.int N) (.int NMC)).run w = (.ok (some (mu, lb, ub)), w')) :
    ∃ (G T : ℕ) (Yp : Matrix (Fin G) (Fin n) ℝ) (Yw : Fin G → ℝ) (X : Matrix (Fin (G * T)) (Fin (n + k)) ℝ) (Xw : Fin (G * T) → ℝ)
      (ind : Matrix (Fin (G * T)) (Fin 1) ℝ) (f : Fin (G * T) → ℝ) (w0 w1 : S × Files × E), (T : ℤ) = NMC ∧ 0 < T ∧
      (av_quadrature_rule lib rng a N).run w = (.ok ⟨NpMat.of Yp, NpMat.of (Matrix.of fun i (_ : Fin 1) => Yw i)⟩, w0) ∧
      (quadrature_rule lib rng (some a) (.int N) (.int NMC)).run w
        = (.ok (some ⟨NpMat.of X, NpMat.of (Matrix.of fun r (_ : Fin 1) => Xw r), NpMat.of ind⟩), w1) ∧
      IsFullRule V1 Yp Yw X Xw ∧ Spec.Calls (fn (n + k)) (Np.rows X) w1 (List.ofFn f) w' ∧
      mu = ∑ r, Xw r * f r ∧
      lb = mu - 1.96 * Real.sqrt ((∑ i, Yw i ^ 2 * Spec.varOn Finset.univ fun t : Fin T => f (finProdFinEquiv (i, t))) / T) ∧
      ub = mu + 1.96 * Real.sqrt ((∑ i, Yw i ^ 2 * Spec.varOn Finset.univ fun t : Fin T => f (finProdFinEquiv (i, t))) / T) ∧
      lb ≤ mu ∧ mu ≤ ub := by
  unfold integrate at hr
  obtain ⟨o, w1, h1, hr1⟩ := bind_inv hr
  cases o with
  | none => exact absurd (pure_inv hr1).1 (by simp)
  | some q =>
    obtain ⟨G, T, Yp, Yw, X, Xw, ind, w0, hT, h2, rfl, h3, h4⟩ := C57_rule h hreg hdom lib rng N NMC _ _ _ h1
    obtain ⟨F, w2, h5, hr2⟩ := bind_inv hr1
    obtain ⟨F, rfl, h6⟩ := run_inv h5
    obtain ⟨e, w3, h7, hr3⟩ := bind_inv hr2
    have h8 := (lift_inv h7).1
    have h9 := (lift_inv h7).2
    obtain ⟨h10, h11⟩ := pure_inv hr3
    obtain rfl := Option.some.inj h10
    subst h9 h11
    dsimp only at h8
    have hpos : 0 < G * T := by
      by_contra hz
      have hz' : G * T = 0 := by omega
      have : condExp (NpMat.of F) (NpMat.of ind) = .error .valueError := by
        unfold condExp
        refine (if_pos rfl).trans ?_
        unfold conditional_expectations
        exact dif_neg hz
      unfold estimate at h8
      rw [this] at h8
      cases h8
    have hG : 0 < G := Nat.pos_of_mul_pos_right hpos
    have hTp : 0 < T := Nat.pos_of_mul_pos_left hpos
    have hXw : (Matrix.of fun (r : Fin (G * T)) (_ : Fin 1) => Xw r)
        = Matrix.of fun (r : Fin (G * T)) (_ : Fin 1) => (Matrix.of fun i (_ : Fin 1) => Yw i : Matrix (Fin G) (Fin 1) ℝ) r.divNat 0 / (T : ℝ) := by
      ext r j
      have := h3.weight r.divNat r.modNat
      rw [show finProdFinEquiv (r.divNat, r.modNat) = r from finProdFinEquiv.apply_symm_apply r] at this
      exact this
    rw [hXw, ← hT, estimate_of hG hTp F ind _ h4] at h8
    obtain ⟨h12, h13⟩ := Prod.mk.inj (Except.ok.inj h8)
    obtain ⟨h14, h15⟩ := Prod.mk.inj h13
    have e1 : mu = ∑ r, Xw r * F r 0 := by
      rw [h3.sum, ← h12]
      rfl
    have e2 : ∀ i, (Spec.varOn Finset.univ fun t : Fin T => F (finProdFinEquiv (i, t)) 0) * (Yw i * Yw i)
        = Yw i ^ 2 * Spec.varOn Finset.univ fun t : Fin T => F (finProdFinEquiv (i, t)) 0 := fun i => by ring
    simp only [Matrix.of_apply, e2] at h12 h14 h15
    rw [h12] at h14 h15
    refine ⟨G, T, Yp, Yw, X, Xw, ind, fun r => F r 0, w0, w1, hT, hTp, h2, h1, h3, h6, e1, h14.symm, h15.symm, ?_, ?_⟩
    · rw [← h14]
      have := Real.sqrt_nonneg ((∑ i, Yw i ^ 2 * Spec.varOn Finset.univ fun t : Fin T => F (finProdFinEquiv (i, t)) 0) / T)
      linarith
    · rw [← h15]
      have := Real.sqrt_nonneg ((∑ i, Yw i ^ 2 * Spec.varOn Finset.univ fun t : Fin T => F (finProdFinEquiv (i, t)) 0) / T)
      linarith

/-- C57: with a rule of at least one point every function that does not raise is integrated to its weighted sum; a constant is
integrated exactly, with bounds of width zero, when the weights sum to one. -/
theorem C57_returns (h : Split a.subspaces V1 V2) (hreg : ShapeOK a.regularize_z n k) (hdom : ∀ b, a.dom = .bounded b → b.n = n)
    (lib : Model.Integrals.Lib) (rng : Rng S) (N NMC : ℤ) (w w1 : S × Files × E) (q : FullRule) (hq : 0 < q.Xp.rows)
    (hr : (quadrature_rule lib rng (some a) (.int N) (.int NMC)).run w = (.ok (some q), w1)) :
    ∃ (P : ℕ) (X : Matrix (Fin P) (Fin (n + k)) ℝ) (Xw : Fin P → ℝ), q.Xp = NpMat.of X ∧ q.Xw = NpMat.of (Matrix.of fun r (_ : Fin 1) => Xw r) ∧
      ∀ g : (m : ℕ) → (Fin m → ℝ) → ℝ, ∃ lb ub, (integrate lib rng (fun m x => pure (g m x)) (some a) (.int N) (.int NMC)).run w
          = (.ok (some (∑ r, Xw r * g _ (X r), lb, ub)), w1) ∧
        ∀ c, (∀ x, g (n + k) x = c) → ∑ r, Xw r = 1 → ∑ r, Xw r * g _ (X r) = c ∧ lb = c ∧ ub = c := by
  obtain ⟨G, T, Yp, Yw, X, Xw, ind, w0, hT, h2, rfl, h3, h4⟩ := C57_rule h hreg hdom lib rng N NMC _ _ _ hr
  have hpos : 0 < G * T := hq
  have hG : 0 < G := Nat.pos_of_mul_pos_right hpos
  have hTp : 0 < T := Nat.pos_of_mul_pos_left hpos
  have : NeZero T := ⟨hTp.ne'⟩
  refine ⟨G * T, X, Xw, rfl, rfl, fun g => ?_⟩
  obtain ⟨F, h5, h6⟩ := C07_pure g X w1
  have hXw : (Matrix.of fun (r : Fin (G * T)) (_ : Fin 1) => Xw r)
      = Matrix.of fun (r : Fin (G * T)) (_ : Fin 1) => (Matrix.of fun i (_ : Fin 1) => Yw i : Matrix (Fin G) (Fin 1) ℝ) r.divNat 0 / (T : ℝ) := by
    ext r j
    have := h3.weight r.divNat r.modNat
    rw [show finProdFinEquiv (r.divNat, r.modNat) = r from finProdFinEquiv.apply_symm_apply r] at this
    exact this
  have h7 := estimate_of hG hTp F ind (Matrix.of fun i (_ : Fin 1) => Yw i) h4
  rw [← hXw, hT] at h7
  have e1 : ∑ r, Xw r * g _ (X r) = ∑ i, (Spec.meanOn Finset.univ fun t : Fin T => F (finProdFinEquiv (i, t)) 0) * Yw i := by
    rw [h3.sum]
    simp only [h6]
  refine ⟨∑ r, Xw r * g _ (X r)
      - 1.96 * Real.sqrt ((∑ i, (Spec.varOn Finset.univ fun t : Fin T => F (finProdFinEquiv (i, t)) 0) * (Yw i * Yw i)) / T),
    ∑ r, Xw r * g _ (X r)
      + 1.96 * Real.sqrt ((∑ i, (Spec.varOn Finset.univ fun t : Fin T => F (finProdFinEquiv (i, t)) 0) * (Yw i * Yw i)) / T), ?_, ?_⟩
  · unfold integrate
    rw [PyM.run_bind_ok hr]
    dsimp only
    rw [PyM.run_bind_ok h5, h7, PyM.run_bind_ok (PyM.run_lift _ _), e1]
    rfl
  · intro c hc hs
    have e2 : ∑ r, Xw r * g _ (X r) = c := by
      simp only [hc]
      rw [← Finset.sum_mul, hs, one_mul]
    have e3 : ∀ i : Fin G, (Spec.varOn Finset.univ fun t : Fin T => F (finProdFinEquiv (i, t)) 0) = 0 := by
      intro i
      simp only [h6, hc]
      simp [Spec.varOn, meanOn_const]
    simp only [e2, e3]
    simp

/-- C57: the estimate is linear in the integrand. -/
theorem C57_linear (h : Split a.subspaces V1 V2) (hreg : ShapeOK a.regularize_z n k) (hdom : ∀ b, a.dom = .bounded b → b.n = n)
    (lib : Model.Integrals.Lib) (rng : Rng S) (N NMC : ℤ) (w w' w'' : S × Files × E) (f g : (m : ℕ) → (Fin m → ℝ) → ℝ) (α β : ℝ)
    (r r' : ℝ × ℝ × ℝ) (hf : (integrate lib rng (fun m x => pure (f m x)) (some a) (.int N) (.int NMC)).run w = (.ok (some r), w'))
    (hg : (integrate lib rng (fun m x => pure (g m x)) (some a) (.int N) (.int NMC)).run w = (.ok (some r'), w'')) :
    ∃ lb ub, (integrate lib rng (fun m x => pure (α * f m x + β * g m x)) (some a) (.int N) (.int NMC)).run w
      = (.ok (some (α * r.1 + β * r'.1, lb, ub)), w') := by
  obtain ⟨mu, lb, ub⟩ := r
  obtain ⟨mu', lb', ub'⟩ := r'
  obtain ⟨G, T, Yp, Yw, X, Xw, ind, v, w0, w1, hT, hTp, h2, h1, h3, h4, -⟩ := C57_integrate h hreg hdom lib rng _ N NMC _ _ _ _ _ hf
  have hpos : 0 < G * T := by
    by_contra hz
    have hz' : G * T = 0 := by omega
    unfold integrate at hf
    rw [PyM.run_bind_ok h1] at hf
    obtain ⟨F, w2, h5, hr2⟩ := bind_inv hf
    obtain ⟨F, rfl, h6⟩ := run_inv h5
    obtain ⟨e, w3, h7, hr3⟩ := bind_inv hr2
    have h8 := (lift_inv h7).1
    have : condExp (NpMat.of F) (NpMat.of ind) = .error .valueError := by
      unfold condExp
      refine (if_pos rfl).trans ?_
      unfold conditional_expectations
      exact dif_neg hz
    unfold estimate at h8
    rw [this] at h8
    cases h8
  obtain ⟨P, X1, Xw1, -, -, h7⟩ := C57_returns h hreg hdom lib rng N NMC w w1 _ hpos h1
  obtain ⟨l1, u1, e1, -⟩ := h7 f
  obtain ⟨l2, u2, e2, -⟩ := h7 g
  obtain ⟨l3, u3, e3, -⟩ := h7 fun m x => α * f m x + β * g m x
  rw [hf] at e1
  rw [hg] at e2
  obtain rfl := (Prod.mk.inj e1).2
  have e4 := (Prod.mk.inj (Option.some.inj (Except.ok.inj (Prod.mk.inj e1).1))).1
  have e5 := (Prod.mk.inj (Option.some.inj (Except.ok.inj (Prod.mk.inj e2).1))).1
  refine ⟨l3, u3, ?_⟩
  rw [e3]
  dsimp only
  rw [e4, e5, Finset.mul_sum, Finset.mul_sum, ← Finset.sum_add_distrib]
  congr 4
  exact Finset.sum_congr rfl fun i _ => by ring

/-- C57: the integral of a function of the active variables is the weighted sum of its values at the nodes. -/
theorem C57_av_integrate (h : Split a.subspaces V1 V2) (hdom : ∀ b, a.dom = .bounded b → b.n = n) (lib : Model.Integrals.Lib) (rng : Rng S)
    (N : ℤ) (w w' : S × Files × E) (mu : ℝ) :
    (∀ f : (m : ℕ) → Model.SimRunners.Sim (S × Files × E) m, (av_integrate lib rng (.fn f) (some a) (.int N)).run w = (.ok mu, w') →
      ∃ (G : ℕ) (Yp : Matrix (Fin G) (Fin n) ℝ) (Yw v : Fin G → ℝ) (w0 : S × Files × E),
        (av_quadrature_rule lib rng a N).run w = (.ok ⟨NpMat.of Yp, NpMat.of (Matrix.of fun i (_ : Fin 1) => Yw i)⟩, w0) ∧
        Spec.Calls (f n) (Np.rows Yp) w0 (List.ofFn v) w' ∧ mu = ∑ i, Yw i * v i) ∧
    (∀ p : Arr → Except Err (NpVec × Option NpMat), (av_integrate lib rng (.surface p) (some a) (.int N)).run w = (.ok mu, w') →
      ∃ (G : ℕ) (Yp : Matrix (Fin G) (Fin n) ℝ) (Yw v : Fin G → ℝ) (d : Option NpMat),
        (av_quadrature_rule lib rng a N).run w = (.ok ⟨NpMat.of Yp, NpMat.of (Matrix.of fun i (_ : Fin 1) => Yw i)⟩, w') ∧
        p (.mat (NpMat.of Yp)) = .ok (NpVec.of v, d) ∧ mu = ∑ i, Yw i * v i) := by
  have hmat : ∀ {G : ℕ} (A : Matrix (Fin G) (Fin 1) ℝ), A = Matrix.of fun i (_ : Fin 1) => A i 0 := by
    intro G A
    ext i j
    rw [Subsingleton.elim j 0]
    rfl
  have hmu : ∀ {G : ℕ} (A B : Matrix (Fin G) (Fin 1) ℝ) (D : NpMat), (NpMat.of A).transpose.dot (NpMat.of B) = .ok D →
      D.get 0 0 = ∑ i, A i 0 * B i 0 := by
    intro G A B D hD
    rw [NpMat.transpose_of, dot_of] at hD
    rw [← Except.ok.inj hD]
    refine (NpMat.get_of _ (0 : Fin 1) (0 : Fin 1)).trans ?_
    rw [Matrix.mul_apply]
    rfl
  constructor
  · intro f hr
    unfold av_integrate at hr
    obtain ⟨r, w1, h1, hr1⟩ := bind_inv hr
    obtain ⟨e1, e2, e3⟩ := av_rule_shape lib rng a _ h.w1 hdom N _ _ _ h1
    obtain ⟨⟨G, c, Yp⟩, ⟨G', c', Yw⟩⟩ := r
    change c = n at e1
    change G' = G at e2
    change c' = 1 at e3
    subst e1 e2 e3
    obtain ⟨F, w2, h2, hr2⟩ := bind_inv hr1
    obtain ⟨F, rfl, h3⟩ := run_inv (X := Yp) h2
    obtain ⟨D, w3, h4, hr3⟩ := bind_inv hr2
    obtain ⟨h4', rfl⟩ := lift_inv h4
    obtain ⟨rfl, rfl⟩ := pure_inv hr3
    refine ⟨G', Yp, fun i => Yw i 0, fun i => F i 0, w1, ?_, h3, hmu Yw F D h4'⟩
    rw [h1, ← hmat Yw]
    rfl
  · intro p hr
    unfold av_integrate at hr
    obtain ⟨r, w1, h1, hr1⟩ := bind_inv hr
    obtain ⟨e1, e2, e3⟩ := av_rule_shape lib rng a _ h.w1 hdom N _ _ _ h1
    obtain ⟨⟨G, c, Yp⟩, ⟨G', c', Yw⟩⟩ := r
    change c = n at e1
    change G' = G at e2
    change c' = 1 at e3
    subst e1 e2 e3
    obtain ⟨⟨⟨nv, v⟩, d⟩, w2, h5, hr1'⟩ := bind_inv hr1
    obtain ⟨h5', rfl⟩ := lift_inv h5
    obtain ⟨F, w4, h6, hr2⟩ := bind_inv hr1'
    obtain ⟨rfl, rfl⟩ := pure_inv h6
    obtain ⟨D, w3, h4, hr3⟩ := bind_inv hr2
    obtain ⟨h4', rfl⟩ := lift_inv h4
    obtain ⟨rfl, rfl⟩ := pure_inv hr3
    have hnv : nv = G' := by
      by_contra hne
      have : (NpMat.transpose ⟨G', 1, Yw⟩).dot (NpMat.of (colMat v)) = .error .valueError := dif_neg hne
      have h7 := this.symm.trans h4'
      cases h7
    subst hnv
    refine ⟨nv, Yp, fun i => Yw i 0, v, d, ?_, h5', (hmu Yw (colMat v) D h4').trans rfl⟩
    rw [h1, ← hmat Yw]
    rfl

/-- C57: ill-typed arguments are rejected. -/
theorem C57_rejects (lib : Model.Integrals.Lib) (rng : Rng S) (fn : (m : ℕ) → Model.SimRunners.Sim (S × Files × E) m) (a : AVMap S E)
    (f : AvFun (S × Files × E)) (N NMC : IntArg) (c : ℤ) (w : S × Files × E) :
    (integrate lib rng fn none N NMC).run w = (.error .typeError, w) ∧ (integrate lib rng fn (some a) .other NMC).run w = (.error .typeError, w) ∧
    (integrate lib rng fn (some a) (.int c) .other).run w = (.error .typeError, w) ∧
    (av_integrate lib rng f none N).run w = (.error .typeError, w) ∧ (av_integrate lib rng f (some a) .other).run w = (.error .typeError, w) :=
  ⟨rfl, rfl, rfl, rfl, rfl⟩

end Props
