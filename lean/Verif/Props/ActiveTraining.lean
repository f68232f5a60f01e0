import Verif.Proofs.Groups
import Verif.Props.ActiveSurfaces
import Verif.Props.Designs
import Verif.Props.SimRunners
import Verif.Props.Tensor

/-!
# Property C56: the data the response surface is trained with
-/

open Py Model.Misc Model.Subspaces Model.QPSolver Model.Domains Model.ResponseSurfaces Model.ActiveSurfaces Proofs.Run Proofs.Groups

namespace Props

variable {S R E : Type} {M m n k NY N : ℕ}

/-- The number of columns of the design is the number of active variables. -/
theorem designPoints_cols (lib : Model.ActiveSurfaces.Lib) (rng : Rng S) (W1 : NpMat) (dom : DomKind) (N : ℤ)
    (hdom : ∀ b, dom = .bounded b → b.n = W1.cols) (w w' : S × E) (Y : NpMat)
    (h : (designPoints lib rng W1 dom N).run w = (.ok Y, w')) :
    Y.cols = W1.cols ∧ ∀ b, dom = .bounded b → 0 < N → (Y.rows : ℤ) = N := by
  unfold designPoints at h
  cases dom with
  | unbounded =>
    refine ⟨?_, fun b hb => by cases hb⟩
    obtain ⟨NN, w1, h1, h2⟩ := bind_inv h
    obtain ⟨h3, rfl⟩ := lift_inv h1
    obtain ⟨h4, rfl⟩ := lift_inv h2
    have hl : NN.length = W1.cols := by
      unfold rootList at h3
      cases hr : rootInt lib.root N W1.cols with
      | error e => rw [hr] at h3; cases h3
      | ok r =>
        rw [hr] at h3
        rw [← Except.ok.inj h3, List.length_replicate]
    unfold Model.Quadrature.gauss_hermite_design at h4
    cases hg : Model.Quadrature.gauss_hermite lib.quad (.list NN) with
    | error e => rw [hg] at h4; cases h4
    | ok r =>
      rw [hg] at h4
      obtain ⟨rs, h5, h6⟩ := (C24_tensor lib.quad NN r).1 hg
      rw [← Except.ok.inj h4, h6.cols, ← h5.length_eq, hl]
  | bounded b =>
    have hb := hdom b rfl
    dsimp only at h
    split_ifs at h with h1 h2
    · obtain ⟨a0, w1, -, q1⟩ := bind_inv h
      obtain ⟨b0, w2, -, q2⟩ := bind_inv q1
      obtain ⟨Y0, w3, q3, q4⟩ := bind_inv q2
      have h3 := (lift_inv q3).1
      have h4 := (lift_inv q4).1
      clear h q1 q2 q3 q4
      unfold Model.Designs.interval_design at h3
      dsimp only at h3
      split_ifs at h3 with h5
      simp only [Model.Misc.atleast_2d_col, Model.Misc.atleast_2d, Model.Misc.Obj.toArr] at h3
      rw [if_neg (by decide), if_true] at h3
      rw [← Except.ok.inj h3] at h4
      rw [← Except.ok.inj h4, h1]
      refine ⟨rfl, fun _ _ hN => ?_⟩
      change (((N + 2).toNat - 2 : ℕ) : ℤ) = N
      omega
    · exact absurd (Prod.mk.inj h).1 (by simp)
    · obtain ⟨Y0, w1, -, h⟩ := bind_inv h
      obtain ⟨rfl, -⟩ := pure_inv h
      refine ⟨hb, fun _ _ hN => ?_⟩
      change ((N.toNat : ℕ) : ℤ) = N
      omega
  | other => exact absurd (Prod.mk.inj h).1 (by simp)

/-- C56: a design: `NMC` points in the full space for every design point; their active variables are the design point. -/
theorem C56_design {a : AVMap S E} {V1 : Matrix (Fin (n + k)) (Fin n) ℝ} {V2 : Matrix (Fin (n + k)) (Fin k) ℝ} (h : Split a.subspaces V1 V2)
    (hreg : ShapeOK a.regularize_z n k) (hdom : ∀ b, a.dom = .bounded b → b.n = n) (lib : Model.ActiveSurfaces.Lib) (rng : Rng S)
    (N : ℤ) (NMC : ℤ) (w w' : S × Files × E) (d : Design)
    (hr : (av_design lib rng (some a) (.int N) (.int NMC)).run w = (.ok (some d), w')) :
    ∃ (T NY : ℕ) (Y : Matrix (Fin NY) (Fin n) ℝ) (Z : Fin NY → Fin k → Fin T → ℝ) (X : Matrix (Fin (NY * T)) (Fin (n + k)) ℝ)
      (ind : Matrix (Fin (NY * T)) (Fin 1) ℝ), (T : ℤ) = NMC ∧ d = ⟨NpMat.of Y, NpMat.of X, NpMat.of ind⟩ ∧ InverseOf V1 V2 Y Z X ind ∧
      (∀ (i : Fin NY) (t : Fin T), (X * V1) (finProdFinEquiv (i, t)) = Y i) ∧
      (∃ w1, (designPoints lib rng (NpMat.of V1) a.dom N).run w = (.ok (NpMat.of Y), w1)) ∧
      ∀ b, a.dom = .bounded b → 0 < N → (NY : ℤ) = N := by
  unfold av_design at hr
  dsimp only at hr
  rw [h.w1] at hr
  dsimp only at hr
  obtain ⟨Y, w1, h1, hr1⟩ := bind_inv hr
  clear hr
  obtain ⟨h2, h3⟩ := designPoints_cols lib rng _ _ _ hdom _ _ _ h1
  obtain ⟨NY, c, Y⟩ := Y
  change c = n at h2
  subst h2
  obtain ⟨o, w2, h4, hr⟩ := bind_inv hr1
  cases o with
  | none => exact absurd (pure_inv hr).1 (by simp)
  | some r =>
    obtain ⟨X, ind⟩ := r
    obtain ⟨h5, -⟩ := pure_inv hr
    have hNMC : ∃ T : ℕ, (T : ℤ) = NMC := by
      by_contra hneg
      push Not at hneg
      have hlt : NMC < 0 := by
        by_contra hge
        exact hneg NMC.toNat (by omega)
      unfold AVMap.inverse inverse at h4
      obtain ⟨Y1, w3, -, h4⟩ := bind_inv h4
      dsimp only at h4
      rw [if_pos hlt] at h4
      exact absurd (Prod.mk.inj h4).1 (by simp)
    obtain ⟨T, rfl⟩ := hNMC
    obtain ⟨Z, X', ind', -, h6, h7⟩ := C44_inverse h hreg Y T _ _ _ h4
    obtain ⟨rfl, rfl⟩ := Prod.mk.inj h6
    obtain ⟨Y', Z', h8, h9⟩ := C44_forward h h7
    refine ⟨T, NY, Y, Z, X', ind', rfl, (Option.some.inj h5).symm, h7, fun i t => ?_, ⟨w1, h1⟩, h3⟩
    rw [forward_of h] at h8
    have h10 := NpMat.of_injective (Prod.mk.inj (Except.ok.inj h8)).1
    rw [h10]
    funext j
    refine (h9 i t _ ?_).1 j
    simp [finProdFinEquiv, add_comm, mul_comm]

/-- The call of the inner `train` made by `_train`. -/
theorem train_inv {surf : Surface R} {s : Subspaces} {Y f : Arr} {v : Option NpVec} {w w' : S × Files × R × E}
    (h : (train surf s Y f v).run w = (.ok (), w')) :
    (surf.train Y f (if surf.isRBF then v else none) (if surf.isRBF then s.eigenvals else none)).run w.2.2.1 = (.ok (), w'.2.2.1) ∧
      w'.1 = w.1 ∧ w'.2.1 = w.2.1 ∧ w'.2.2.2 = w.2.2.2 := by
  unfold train at h
  cases hb : surf.isRBF
  · simp only [hb, Bool.false_eq_true, if_false] at h ⊢
    obtain ⟨h1, h2⟩ := Prod.mk.inj h
    subst h2
    exact ⟨Prod.ext h1 rfl, rfl, rfl, rfl⟩
  · simp only [hb, if_true] at h ⊢
    obtain ⟨h1, h2⟩ := Prod.mk.inj h
    subst h2
    exact ⟨Prod.ext h1 rfl, rfl, rfl, rfl⟩

theorem rows_vstack {a b c : ℕ} (A : Matrix (Fin a) (Fin c) ℝ) (B : Matrix (Fin b) (Fin c) ℝ) :
    Np.rows (Np.vstack A B) = Np.rows A ++ Np.rows B := by
  unfold Np.rows
  rw [← List.ofFn_eq_map, ← List.ofFn_eq_map, ← List.ofFn_eq_map, ← List.ofFn_fin_append]
  congr 1

theorem vstack_of {a b c : ℕ} (A : Matrix (Fin a) (Fin c) ℝ) (B : Matrix (Fin b) (Fin c) ℝ) :
    (NpMat.of A).vstack (NpMat.of B) = .ok (NpMat.of (Np.vstack A B)) := dif_pos rfl

/-- Appending the vertices. -/
theorem addVertices_of {T : ℕ} (v : Verts m n) (ch : Option (Hull n)) (cs : Option (Constraints n)) (Y : Matrix (Fin NY) (Fin n) ℝ)
    (X : Matrix (Fin (NY * T)) (Fin m) ℝ) (ind : Matrix (Fin (NY * T)) (Fin 1) ℝ) (hind : ∀ r, ind r 0 = (((r : ℕ) / T : ℕ) : ℝ))
    (hNY : 0 < NY) (hTp : 0 < T) :
    addVertices (.bounded ⟨m, n, v, ch, cs⟩) ⟨NpMat.of Y, NpMat.of X, NpMat.of ind⟩ = .ok ⟨NpMat.of (Np.vstack Y v.Y),
      NpMat.of (Np.vstack X v.X), NpMat.of (Np.vstack ind (Matrix.of fun (i : Fin v.num) _ => (NY : ℝ) - 1 + 1 + (i : ℕ)))⟩ := by
  have hpos : 0 < NY * T := Nat.mul_pos hNY hTp
  have hmax : (NpMat.of ind).amaxCol = .ok ((NY : ℝ) - 1) := by
    obtain ⟨i, h5, h6⟩ := Np.amax_ok (fun i : Fin (NY * T) => (NpMat.of ind).get i 0) hpos
    have hget : ∀ r : Fin (NY * T), (NpMat.of ind).get r 0 = (((r : ℕ) / T : ℕ) : ℝ) := fun r => (NpMat.get_of ind r 0).trans (hind r)
    have hdiv : ∀ r : Fin (NY * T), (r : ℕ) / T < NY := fun r => (Nat.div_lt_iff_lt_mul hTp).mpr r.2
    have h7 := h6 ⟨(NY - 1) * T, (Nat.mul_lt_mul_right hTp).mpr (by omega)⟩
    have h7 : (((((NY - 1) * T : ℕ)) / T : ℕ) : ℝ) ≤ (((i : ℕ) / T : ℕ) : ℝ) := by
      rw [← hget i, ← hget ⟨(NY - 1) * T, (Nat.mul_lt_mul_right hTp).mpr (by omega)⟩]
      exact h7
    rw [Nat.mul_div_cancel _ hTp] at h7
    have h8 : NY - 1 ≤ (i : ℕ) / T := by exact_mod_cast h7
    have h9 := hdiv i
    have h10 : (i : ℕ) / T = NY - 1 := by omega
    refine (h5 : (NpMat.of ind).amaxCol = _).trans ?_
    rw [hget, h10, Nat.cast_sub (by omega), Nat.cast_one]
  unfold addVertices
  simp only [vstack_of, hmax, bind, Except.bind]
  rfl

/-- A run of the simulation that returns values. -/
theorem run_inv {W : Type} {sim : (m : ℕ) → Model.SimRunners.Sim W m} {X : Matrix (Fin M) (Fin m) ℝ} {w w' : W} {F : NpMat}
    (h : (Model.SimRunners.run sim (.mat (NpMat.of X))).run w = (.ok F, w')) :
    ∃ F' : Matrix (Fin M) (Fin 1) ℝ, F = NpMat.of F' ∧ Spec.Calls (sim m) (Np.rows X) w (List.ofFn fun i => F' i 0) w' := by
  rcases C07_cases (sim m) X w with ⟨vs, w1, hc⟩ | ⟨j, e, w1, hc⟩
  · obtain ⟨F', h1, h2⟩ := C07_run_ok sim X w hc
    rw [h] at h1
    obtain ⟨h3, rfl⟩ := Prod.mk.inj h1
    exact ⟨F', Except.ok.inj h3, h2 ▸ hc⟩
  · rw [C08_run_fail sim X w hc] at h
    exact absurd (Prod.mk.inj h).1 (by simp)

variable {a : AVMap S (R × E)} {V1 : Matrix (Fin (n + k)) (Fin n) ℝ} {V2 : Matrix (Fin (n + k)) (Fin k) ℝ}

/-- C56, unbounded domain: the surface is trained with one row per design point; the value is the mean of the simulation over the
`NMC` points made for the design point, the variance is their variance. -/
theorem C56_unbounded (h : Split a.subspaces V1 V2) (hreg : ShapeOK a.regularize_z n k) (hdom : a.dom = .unbounded)
    (lib : Model.ActiveSurfaces.Lib) (rng : Rng S) (surf : Surface R) (fn : (m : ℕ) → Model.SimRunners.Sim (S × Files × R × E) m)
    (N NMC : ℤ) (w w' : S × Files × R × E)
    (hr : (train_with_interface lib rng surf a fn (.int N) (.int NMC)).run w = (.ok (some ()), w')) :
    ∃ (T NY : ℕ) (Y : Matrix (Fin NY) (Fin n) ℝ) (X : Matrix (Fin (NY * T)) (Fin (n + k)) ℝ) (ind : Matrix (Fin (NY * T)) (Fin 1) ℝ)
      (f : Fin (NY * T) → ℝ) (w1 w2 : S × Files × R × E), (T : ℤ) = NMC ∧ 0 < T ∧ 0 < NY ∧
      (av_design lib rng (some a) (.int N) (.int NMC)).run w = (.ok (some ⟨NpMat.of Y, NpMat.of X, NpMat.of ind⟩), w1) ∧
      (∀ (i : Fin NY) (t : Fin T), (X * V1) (finProdFinEquiv (i, t)) = Y i) ∧
      Spec.Calls (fn (n + k)) (Np.rows X) w1 (List.ofFn f) w2 ∧
      (surf.train (.mat (NpMat.of Y))
        (.mat (NpMat.of (Matrix.of fun (i : Fin NY) (_ : Fin 1) => Spec.meanOn Finset.univ fun t : Fin T => f (finProdFinEquiv (i, t)))))
        (if surf.isRBF then some (NpVec.of fun i : Fin NY => Spec.varOn Finset.univ fun t : Fin T => f (finProdFinEquiv (i, t))) else none)
        (if surf.isRBF then a.subspaces.eigenvals else none)).run w2.2.2.1 = (.ok (), w'.2.2.1) ∧
      w'.1 = w2.1 ∧ w'.2.1 = w2.2.1 ∧ w'.2.2.2 = w2.2.2.2 := by
  unfold train_with_interface at hr
  obtain ⟨o, w1, h1, hr⟩ := bind_inv hr
  cases o with
  | none => exact absurd (pure_inv hr).1 (by simp)
  | some d =>
    obtain ⟨T, NY, Y, Z, X, ind, hT, rfl, h2, h3, -, -⟩ := C56_design h hreg (fun b hb => by rw [hdom] at hb; cases hb) lib rng N NMC _ _ _ h1
    dsimp only at hr
    obtain ⟨d', w2, h4, hr⟩ := bind_inv hr
    have h4' := (lift_inv h4).1
    obtain rfl := (lift_inv h4).2
    clear h4
    rename' h4' => h4
    rw [hdom] at h4
    obtain rfl := Except.ok.inj h4
    obtain ⟨F, w3, h5, hr⟩ := bind_inv hr
    obtain ⟨F, rfl, h6⟩ := run_inv h5
    obtain ⟨c, w4, h7, hr⟩ := bind_inv hr
    have h7' := (lift_inv h7).1
    obtain rfl := (lift_inv h7).2
    clear h7
    rename' h7' => h7
    have hpos : 0 < NY * T := by
      by_contra hz
      have hz' : NY * T = 0 := by omega
      have : condExp (NpMat.of F) (NpMat.of ind) = .error .valueError := by
        unfold condExp
        refine (if_pos rfl).trans ?_
        unfold conditional_expectations
        exact dif_neg hz
      rw [this] at h7
      cases h7
    have hNY : 0 < NY := Nat.pos_of_mul_pos_right hpos
    have hTp : 0 < T := Nat.pos_of_mul_pos_left hpos
    rw [condExp_blocks hNY hTp F ind h2.index] at h7
    obtain rfl := Except.ok.inj h7
    obtain ⟨u, w5, h8, hr⟩ := bind_inv hr
    obtain ⟨-, rfl⟩ := pure_inv hr
    exact ⟨T, NY, Y, X, ind, fun r => F r 0, _, _, hT, hTp, hNY, h1, h3, h6, train_inv h8⟩

/-- C56, bounded domain: there is one more row per vertex of the boundary, with the simulation's value there and variance 0. -/
theorem C56_bounded (h : Split a.subspaces V1 V2) (hreg : ShapeOK a.regularize_z n k) (v : Verts (n + k) n) (ch : Option (Hull n))
    (cs : Option (Constraints n)) (hdom : a.dom = .bounded ⟨n + k, n, v, ch, cs⟩)
    (lib : Model.ActiveSurfaces.Lib) (rng : Rng S) (surf : Surface R) (fn : (m : ℕ) → Model.SimRunners.Sim (S × Files × R × E) m)
    (N NMC : ℤ) (w w' : S × Files × R × E)
    (hr : (train_with_interface lib rng surf a fn (.int N) (.int NMC)).run w = (.ok (some ()), w')) :
    ∃ (T NY : ℕ) (Y : Matrix (Fin NY) (Fin n) ℝ) (X : Matrix (Fin (NY * T)) (Fin (n + k)) ℝ) (ind : Matrix (Fin (NY * T)) (Fin 1) ℝ)
      (f : Fin (NY * T) → ℝ) (g : Fin v.num → ℝ) (w1 w2 : S × Files × R × E), (T : ℤ) = NMC ∧ 0 < T ∧ (0 < N → (NY : ℤ) = N) ∧ 0 < NY ∧
      (av_design lib rng (some a) (.int N) (.int NMC)).run w = (.ok (some ⟨NpMat.of Y, NpMat.of X, NpMat.of ind⟩), w1) ∧
      (∀ (i : Fin NY) (t : Fin T), (X * V1) (finProdFinEquiv (i, t)) = Y i) ∧
      Spec.Calls (fn (n + k)) (Np.rows X ++ Np.rows v.X) w1 (List.ofFn f ++ List.ofFn g) w2 ∧
      (surf.train (.mat (NpMat.of (Matrix.of (Fin.append (fun i => Y i) fun i => v.Y i))))
        (.mat (NpMat.of (Matrix.of fun (i : Fin (NY + v.num)) (_ : Fin 1) =>
          Fin.append (fun i : Fin NY => Spec.meanOn Finset.univ fun t : Fin T => f (finProdFinEquiv (i, t))) g i)))
        (if surf.isRBF then some (NpVec.of (Fin.append
          (fun i : Fin NY => Spec.varOn Finset.univ fun t : Fin T => f (finProdFinEquiv (i, t))) fun _ : Fin v.num => 0)) else none)
        (if surf.isRBF then a.subspaces.eigenvals else none)).run w2.2.2.1 = (.ok (), w'.2.2.1) ∧
      w'.1 = w2.1 ∧ w'.2.1 = w2.2.1 ∧ w'.2.2.2 = w2.2.2.2 := by
  unfold train_with_interface at hr
  obtain ⟨o, w1, h1, hr⟩ := bind_inv hr
  cases o with
  | none => exact absurd (pure_inv hr).1 (by simp)
  | some d =>
    obtain ⟨T, NY, Y, Z, X, ind, hT, rfl, h2, h3, -, hN⟩ := C56_design h hreg (fun b hb => by rw [hdom] at hb; cases hb; rfl) lib rng N NMC _ _ _ h1
    dsimp only at hr
    obtain ⟨d', w2, h4, hr⟩ := bind_inv hr
    have h4' := (lift_inv h4).1
    obtain rfl := (lift_inv h4).2
    clear h4
    rename' h4' => h4
    rw [hdom] at h4
    have hpos : 0 < NY * T := by
      by_contra hz
      have hz' : NY * T = 0 := by omega
      have h5 : (NpMat.of ind).amaxCol = .error .valueError := Np.amax_empty hz' _
      unfold addVertices at h4
      simp only [vstack_of, h5, bind, Except.bind] at h4
      cases h4
    have hNY : 0 < NY := Nat.pos_of_mul_pos_right hpos
    have hTp : 0 < T := Nat.pos_of_mul_pos_left hpos
    rw [addVertices_of v ch cs Y X ind h2.index hNY hTp] at h4
    obtain rfl := Except.ok.inj h4
    dsimp only at hr
    obtain ⟨F, w3, h6, hr⟩ := bind_inv hr
    obtain ⟨F, rfl, h7⟩ := run_inv h6
    obtain ⟨c, w4, h8, hr⟩ := bind_inv hr
    have h8' := (lift_inv h8).1
    obtain rfl := (lift_inv h8).2
    clear h8
    rename' h8' => h8
    rw [condExp_blocks_append hNY hTp F _ (fun r => by rw [Np.vstack_castAdd]; exact h2.index r)
      (fun i => by rw [Np.vstack_natAdd]; simp)] at h8
    obtain rfl := Except.ok.inj h8
    obtain ⟨u, w5, h9, hr⟩ := bind_inv hr
    obtain ⟨-, rfl⟩ := pure_inv hr
    refine ⟨T, NY, Y, X, ind, fun r => F (Fin.castAdd _ r) 0, fun i => F (Fin.natAdd _ i) 0, _, _, hT, hTp, hN _ hdom, hNY, h1, h3, ?_, train_inv h9⟩
    rw [rows_vstack] at h7
    rw [← List.ofFn_fin_append]
    convert h7 using 2
    funext i
    refine Fin.addCases (fun i => ?_) (fun i => ?_) i
    · rw [Fin.append_left]
    · rw [Fin.append_right]

/-- C56: training with given data uses the active variables of the inputs and the values as they are. -/
theorem C56_with_data {W1 : Matrix (Fin m) (Fin n) ℝ} {W2 : Matrix (Fin m) (Fin k) ℝ} (h1 : a.subspaces.W1 = some (NpMat.of W1))
    (h2 : a.subspaces.W2 = some (NpMat.of W2)) (surf : Surface R) (X : Matrix (Fin M) (Fin m) ℝ) (f : Arr) (v : Option NpVec)
    (w w' : S × Files × R × E) (hr : (train_with_data surf a (.mat (NpMat.of X)) f v).run w = (.ok (), w')) :
    (surf.train (.mat (NpMat.of (X * W1))) f (if surf.isRBF then v else none) (if surf.isRBF then a.subspaces.eigenvals else none)).run w.2.2.1
      = (.ok (), w'.2.2.1) ∧ w'.1 = w.1 ∧ w'.2.1 = w.2.1 ∧ w'.2.2.2 = w.2.2.2 := by
  unfold train_with_data AVMap.forward at hr
  rw [forward_mul h1 h2, PyM.run_bind_ok (PyM.run_lift _ _)] at hr
  exact train_inv hr

/-- C56: a radial basis surface is trained with the variances and the eigenvalues, a polynomial one without either; an error of the
inner training is passed on. -/
theorem C56_kinds {E : Type} (slib : Model.ResponseSurfaces.Lib) {W1 : Matrix (Fin m) (Fin n) ℝ} {W2 : Matrix (Fin m) (Fin k) ℝ}
    (X : Matrix (Fin M) (Fin m) ℝ) (f : Arr) (v : Option NpVec) :
    (∀ (a : AVMap S (RBF × E)), a.subspaces.W1 = some (NpMat.of W1) → a.subspaces.W2 = some (NpMat.of W2) → ∀ s fs r e,
      (train_with_data (rbfSurface slib) a (.mat (NpMat.of X)) f v).run (s, fs, r, e) =
        (((RBF.train slib (.mat (NpMat.of (X * W1))) f v a.subspaces.eigenvals).run r).1,
          (s, fs, ((RBF.train slib (.mat (NpMat.of (X * W1))) f v a.subspaces.eigenvals).run r).2, e))) ∧
    ∀ (a : AVMap S (PolyApprox × E)), a.subspaces.W1 = some (NpMat.of W1) → a.subspaces.W2 = some (NpMat.of W2) → ∀ s fs r e,
      (train_with_data (polySurface slib) a (.mat (NpMat.of X)) f v).run (s, fs, r, e) =
        (((PolyApprox.train slib (.mat (NpMat.of (X * W1))) f none).run r).1,
          (s, fs, ((PolyApprox.train slib (.mat (NpMat.of (X * W1))) f none).run r).2, e)) := by
  refine ⟨fun a h1 h2 s fs r e => ?_, fun a h1 h2 s fs r e => ?_⟩ <;>
  · unfold train_with_data AVMap.forward
    rw [forward_mul h1 h2, PyM.run_bind_ok (PyM.run_lift _ _)]
    rfl

/-- The subspaces can be stored. -/
example : ∃ s : Subspaces, s.W1 = some (NpMat.of !![(1 : ℝ); 0]) ∧ s.W2 = some (NpMat.of !![(0 : ℝ); 1]) :=
  ⟨⟨none, none, some (NpMat.of !![1; 0]), some (NpMat.of !![0; 1]), none, none⟩, rfl, rfl⟩

/-! ## Runs that return -/

/-- C56: when the design and the inactive variables are found, `av_design` returns. -/
theorem C56_design_returns {E : Type} {a : AVMap S E} (h : Split a.subspaces V1 V2) (lib : Model.ActiveSurfaces.Lib) (rng : Rng S) (N : ℤ)
    (T : ℕ) (w w1 w2 : S × Files × E) (Y : Matrix (Fin NY) (Fin n) ℝ) (Z : Fin NY → Fin k → Fin T → ℝ)
    (h1 : (designPoints lib rng (NpMat.of V1) a.dom N).run w = (.ok (NpMat.of Y), w1))
    (h2 : (a.regularize_z (NpMat.of Y) T).run w1 = (.ok (some ⟨NY, k, T, Z⟩), w2)) :
    ∃ X ind, (av_design lib rng (some a) (.int N) (.int T)).run w = (.ok (some ⟨NpMat.of Y, NpMat.of X, NpMat.of ind⟩), w2) ∧
      InverseOf V1 V2 Y Z X ind := by
  obtain ⟨X, ind, h3, h4⟩ := rotate_x_ok V1 V2 Y Z
  refine ⟨X, ind, ?_, h4⟩
  have h5 : (a.inverse (.mat (NpMat.of Y)) (.int T)).run w1 = (.ok (some (NpMat.of X, NpMat.of ind)), w2) := by
    unfold AVMap.inverse inverse
    have e : process_inputs (.mat (NpMat.of Y)) = .ok (NpMat.of Y) := rfl
    rw [e, PyM.run_bind_ok (PyM.run_lift _ _)]
    dsimp only
    rw [if_neg (by omega), Int.toNat_natCast, PyM.run_bind_ok h2]
    dsimp only
    rw [h.eig]
    dsimp only
    rw [h3]
    rfl
  unfold av_design
  dsimp only
  rw [h.w1]
  dsimp only
  rw [PyM.run_bind_ok h1, PyM.run_bind_ok h5]
  rfl

/-- C56: when the design, the simulation and the training of the inner surface succeed, so does the training (unbounded domain). -/
theorem C56_unbounded_returns (hdom : a.dom = .unbounded) (lib : Model.ActiveSurfaces.Lib) (rng : Rng S) (surf : Surface R)
    (fn : (m : ℕ) → Model.SimRunners.Sim (S × Files × R × E) m) (N : ℤ) (T : ℕ) (hT : 0 < T) (hNY : 0 < NY) (w w1 w2 : S × Files × R × E)
    (Y : Matrix (Fin NY) (Fin n) ℝ) (X : Matrix (Fin (NY * T)) (Fin (n + k)) ℝ) (ind : Matrix (Fin (NY * T)) (Fin 1) ℝ)
    (h1 : (av_design lib rng (some a) (.int N) (.int T)).run w = (.ok (some ⟨NpMat.of Y, NpMat.of X, NpMat.of ind⟩), w1))
    (hind : ∀ r, ind r 0 = (((r : ℕ) / T : ℕ) : ℝ)) (vs : List ℝ) (h2 : Spec.Calls (fn (n + k)) (Np.rows X) w1 vs w2)
    (h3 : ∀ (f : Fin NY → ℝ) v e, ((surf.train (.mat (NpMat.of Y)) (.mat (NpMat.of (colMat f))) v e).run w2.2.2.1).1 = .ok ()) :
    ∃ w', (train_with_interface lib rng surf a fn (.int N) (.int T)).run w = (.ok (some ()), w') := by
  obtain ⟨F, h4, -⟩ := C07_run_ok fn X w1 h2
  unfold train_with_interface
  rw [PyM.run_bind_ok h1]
  dsimp only
  have e : addVertices .unbounded ⟨NpMat.of Y, NpMat.of X, NpMat.of ind⟩ = .ok ⟨NpMat.of Y, NpMat.of X, NpMat.of ind⟩ := rfl
  rw [hdom, e, PyM.run_bind_ok (PyM.run_lift _ _)]
  dsimp only
  rw [PyM.run_bind_ok h4, condExp_blocks hNY hT F ind hind, PyM.run_bind_ok (PyM.run_lift _ _)]
  dsimp only
  unfold train
  cases surf.isRBF
  · exact ⟨_, PyM.run_bind_ok (w' := (_, _, _, _)) (a := ()) (Prod.ext (h3 _ _ _) rfl)⟩
  · exact ⟨_, PyM.run_bind_ok (w' := (_, _, _, _)) (a := ()) (Prod.ext (h3 _ _ _) rfl)⟩

/-- C56: the same for a bounded domain. -/
theorem C56_bounded_returns (v : Verts (n + k) n) (ch : Option (Hull n)) (cs : Option (Constraints n))
    (hdom : a.dom = .bounded ⟨n + k, n, v, ch, cs⟩) (lib : Model.ActiveSurfaces.Lib) (rng : Rng S) (surf : Surface R)
    (fn : (m : ℕ) → Model.SimRunners.Sim (S × Files × R × E) m) (N : ℤ) (T : ℕ) (hT : 0 < T) (hNY : 0 < NY) (w w1 w2 : S × Files × R × E)
    (Y : Matrix (Fin NY) (Fin n) ℝ) (X : Matrix (Fin (NY * T)) (Fin (n + k)) ℝ) (ind : Matrix (Fin (NY * T)) (Fin 1) ℝ)
    (h1 : (av_design lib rng (some a) (.int N) (.int T)).run w = (.ok (some ⟨NpMat.of Y, NpMat.of X, NpMat.of ind⟩), w1))
    (hind : ∀ r, ind r 0 = (((r : ℕ) / T : ℕ) : ℝ)) (vs : List ℝ) (h2 : Spec.Calls (fn (n + k)) (Np.rows X ++ Np.rows v.X) w1 vs w2)
    (h3 : ∀ (f : Fin (NY + v.num) → ℝ) u e, ((surf.train (.mat (NpMat.of (Np.vstack Y v.Y))) (.mat (NpMat.of (colMat f))) u e).run w2.2.2.1).1
      = .ok ()) :
    ∃ w', (train_with_interface lib rng surf a fn (.int N) (.int T)).run w = (.ok (some ()), w') := by
  rw [← rows_vstack] at h2
  obtain ⟨F, h4, -⟩ := C07_run_ok fn _ w1 h2
  unfold train_with_interface
  rw [PyM.run_bind_ok h1]
  dsimp only
  rw [hdom, addVertices_of v ch cs Y X ind hind hNY hT, PyM.run_bind_ok (PyM.run_lift _ _)]
  dsimp only
  rw [PyM.run_bind_ok h4, condExp_blocks_append hNY hT F _ (fun r => by rw [Np.vstack_castAdd]; exact hind r)
    (fun i => by rw [Np.vstack_natAdd]; simp), PyM.run_bind_ok (PyM.run_lift _ _)]
  dsimp only
  unfold train
  cases surf.isRBF
  · exact ⟨_, PyM.run_bind_ok (w' := (_, _, _, _)) (a := ()) (Prod.ext (h3 _ _ _) rfl)⟩
  · exact ⟨_, PyM.run_bind_ok (w' := (_, _, _, _)) (a := ()) (Prod.ext (h3 _ _ _) rfl)⟩

/-- C56: what is rejected: an object that is not a map, sizes that are not ints, a domain of another class. -/
theorem C56_rejects {E : Type} (a : AVMap S E) (W1 : NpMat) (h1 : a.subspaces.W1 = some W1) (hd : a.dom = .other) (lib : Model.ActiveSurfaces.Lib)
    (rng : Rng S) (N NMC : IntArg) (n c : ℤ) (w : S × Files × E) :
    (av_design lib rng (none : Option (AVMap S E)) N NMC).run w = (.error .typeError, w) ∧
    (∀ a : AVMap S E, (av_design lib rng (some a) .other NMC).run w = (.error .exception, w)) ∧
    (∀ a : AVMap S E, (av_design lib rng (some a) (.int n) .other).run w = (.error .exception, w)) ∧
    (av_design lib rng (some a) (.int n) (.int c)).run w = (.error .exception, w) := by
  refine ⟨rfl, fun _ => rfl, fun _ => rfl, ?_⟩
  unfold av_design
  dsimp only
  rw [h1]
  dsimp only
  rw [hd]
  rfl

/-- Two variables, the first one active. -/
noncomputable def toySubspaces : Subspaces :=
  ⟨none, some (NpMat.of (Np.hstack (Matrix.of fun (i : Fin (1 + 1)) (_ : Fin 1) => if i = 0 then 1 else 0)
    (Matrix.of fun (i : Fin (1 + 1)) (_ : Fin 1) => if i = 1 then 1 else 0))), some (NpMat.of (Matrix.of fun (i : Fin (1 + 1)) (_ : Fin 1) => if i = 0 then 1 else 0)),
    some (NpMat.of (Matrix.of fun (i : Fin (1 + 1)) (_ : Fin 1) => if i = 1 then 1 else 0)), none, none⟩

theorem toySplit : Split toySubspaces (Matrix.of fun (i : Fin (1 + 1)) (_ : Fin 1) => if i = 0 then 1 else 0)
    (Matrix.of fun (i : Fin (1 + 1)) (_ : Fin 1) => if i = 1 then 1 else 0) := by
  refine ⟨rfl, rfl, rfl, ?_⟩
  ext i j
  rw [Matrix.mul_apply, Fin.sum_univ_add]
  revert i j
  refine Fin.forall_fin_two.mpr ⟨Fin.forall_fin_two.mpr ⟨?_, ?_⟩, Fin.forall_fin_two.mpr ⟨?_, ?_⟩⟩ <;>
    simp [Np.hstack, Matrix.one_apply, Fin.append, Fin.addCases]

/-- Inactive variables 1, 2, ... for every design point. -/
def toyZ (S E : Type) : NpMat → ℕ → PyM (S × Files × E) (Option Arr3) := fun Y N => pure (some ⟨Y.rows, 1, N, fun _ _ t => t + 1⟩)

theorem toyZ_shape (S E : Type) : ShapeOK (toyZ S E) 1 1 := by
  intro NY Y N w w' Z h
  obtain ⟨h1, -⟩ := pure_inv h
  rw [← Option.some.inj h1]
  exact ⟨rfl, rfl, rfl⟩

/-- C56: on the interval from -1 to 1 the training with three design points and two points each returns, for every simulation that
does not raise and every inner surface that can be trained. -/
example (lib : Model.ActiveSurfaces.Lib) (rng : Rng S) (g : (m : ℕ) → (Fin m → ℝ) → ℝ) (surf : Surface R) (w : S × Files × R × E)
    (h : ∀ Y f v e, ((surf.train Y f v e).run w.2.2.1).1 = .ok ()) (X : Matrix (Fin 2) (Fin (1 + 1)) ℝ) :
    ∃ w', (train_with_interface lib rng surf ⟨.bounded ⟨1 + 1, 1, ⟨2, Matrix.of fun i _ => if i = 0 then -1 else 1, X⟩, none, none⟩, toySubspaces,
      toyZ S (R × E)⟩ (fun m x => pure (g m x)) (.int 3) (.int 2)).run w = (.ok (some ()), w') := by
  obtain ⟨Y, hY, -⟩ := C15_interval_design (-1) 1 (by norm_num) 3
  have h1 : (designPoints (E := Files × R × E) lib rng (NpMat.of (Matrix.of fun (i : Fin (1 + 1)) (_ : Fin 1) => if i = 0 then 1 else 0))
      (.bounded ⟨1 + 1, 1, ⟨2, Matrix.of fun i _ => if i = 0 then -1 else 1, X⟩, none, none⟩) 3).run w = (.ok (NpMat.of Y), w) := by
    unfold designPoints
    dsimp only
    rw [if_pos (NpMat.of_cols _)]
    have e0 : (NpMat.of (Matrix.of fun (i : Fin 2) (_ : Fin 1) => if i = 0 then (-1 : ℝ) else 1)).item 0 0 = .ok (-1) := by
      simp [NpMat.item, NpMat.get, NpMat.of]
    have e1 : (NpMat.of (Matrix.of fun (i : Fin 2) (_ : Fin 1) => if i = 0 then (-1 : ℝ) else 1)).item 1 0 = .ok 1 := by
      simp [NpMat.item, NpMat.get, NpMat.of]
    rw [e0, PyM.run_bind_ok (PyM.run_lift _ _), e1, PyM.run_bind_ok (PyM.run_lift _ _)]
    have hY' : Model.Designs.interval_design (-1) 1 3 = .ok (.mat (NpMat.of Y)) := hY
    rw [hY', PyM.run_bind_ok (PyM.run_lift _ _)]
    rfl
  obtain ⟨X', ind, h2, h3⟩ := C56_design_returns (a := ⟨.bounded ⟨1 + 1, 1, ⟨2, Matrix.of fun i _ => if i = 0 then -1 else 1, X⟩, none, none⟩, toySubspaces,
    toyZ S (R × E)⟩) toySplit lib rng 3 2 w w w Y (fun _ _ t => t + 1) h1 rfl
  exact C56_bounded_returns _ none none rfl lib rng surf _ 3 2 (by norm_num) (by norm_num) w w w Y X' ind h2 h3.index _ (Spec.calls_pure _ _ w) fun _ _ _ => h _ _ _ _

/-- C56: the same on an unbounded domain with one design point. -/
example (lib : Model.ActiveSurfaces.Lib) (rng : Rng S) (heig : ∀ {n : ℕ} (A : Matrix (Fin n) (Fin n) ℝ), A.transpose = A → ∃ eV, lib.quad.eig A = .ok eV)
    (hq : Proofs.Quadrature.LibOK lib.quad) (g : (m : ℕ) → (Fin m → ℝ) → ℝ) (surf : Surface R) (w : S × Files × R × E)
    (hroot : lib.root 5 1 = 5) (h : ∀ Y f v e, ((surf.train Y f v e).run w.2.2.1).1 = .ok ()) :
    ∃ w', (train_with_interface lib rng surf ⟨.unbounded, toySubspaces, toyZ S (R × E)⟩ (fun m x => pure (g m x)) (.int 5) (.int 2)).run w
      = (.ok (some ()), w') := by
  obtain ⟨r, hr⟩ := ((C24_cases lib.quad).2.2.2.2.2 heig [5]).1
  obtain ⟨h1, h2, -⟩ := C24_weights hq [5] (.inl hr)
  have h3 : (designPoints (E := Files × R × E) lib rng (NpMat.of (Matrix.of fun (i : Fin (1 + 1)) (_ : Fin 1) => if i = 0 then 1 else 0))
      .unbounded 5).run w = (.ok r.x, w) := by
    unfold designPoints
    have e0 : rootList lib.root 5 1 = .ok [.int 5] := by
      have : rootInt lib.root 5 1 = .ok 5 := by
        unfold rootInt
        rw [if_neg (by norm_num), hroot]
        norm_num
      unfold rootList
      rw [this]
      rfl
    have e1 : Model.Quadrature.gauss_hermite_design lib.quad (.list [.int 5]) = .ok r.x := (C24_cases lib.quad).2.2.2.1 _ _ hr
    dsimp only
    rw [NpMat.of_cols, e0, PyM.run_bind_ok (PyM.run_lift _ _), e1]
    rfl
  obtain ⟨x, wts⟩ := r
  obtain ⟨rows, cols, x⟩ := x
  change rows = _ at h1
  change cols = _ at h2
  norm_num at h1 h2
  subst h1 h2
  obtain ⟨X', ind, h4, h5⟩ := C56_design_returns (a := ⟨.unbounded, toySubspaces, toyZ S (R × E)⟩) toySplit lib rng 5 2 w w w x (fun _ _ t => t + 1) h3 rfl
  exact C56_unbounded_returns rfl lib rng surf _ 5 2 (by norm_num) (by norm_num) w w w x X' ind h4 h5.index _ (Spec.calls_pure _ _ w) fun _ _ _ => h _ _ _ _

end Props
