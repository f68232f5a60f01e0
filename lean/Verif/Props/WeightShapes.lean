import Verif.Model.WeightsArr
import Verif.Props.Retrain
import Verif.Props.Qphd
import Verif.Props.LocalShapes
import Verif.Props.Columns
import Verif.Proofs.Run

/-!
# Properties C96 and C133: weights of any shape
-/

open Py Model.Misc Model.ResponseSurfaces Model.Subspaces Proofs.Run
open Model.GradientsArr (Weights)
open Model.WeightsArr (row weighted fitArr)

namespace Props

variable {S E : Type} {M m : ℕ}

/-- One weight for each of `M` samples: a column, or one number for all of them. -/
inductive PerSample (M : ℕ) : Weights → (Fin M → ℝ) → Prop
  | column (u : Fin M → ℝ) : PerSample M (.mat (wcol u)) u
  | number (c : ℝ) : PerSample M (.mat (wcol fun _ : Fin 1 => c)) fun _ => c
  | single (c : ℝ) : PerSample M (.vec 1 fun _ => c) fun _ => c

/-! ## Broadcasting -/

theorem zipB_inv {op : ℝ → ℝ → ℝ} {A B C : NpMat} (h : NpMat.zipB op A B = .ok C) :
    NpMat.bdim A.rows B.rows = some C.rows ∧ NpMat.bdim A.cols B.cols = some C.cols := by
  unfold NpMat.zipB at h
  split at h
  · rename_i r c h1 h2
    obtain rfl := Except.ok.inj h
    exact ⟨h1, h2⟩
  · cases h

theorem bdim_inv {a b c : ℕ} (h : NpMat.bdim a b = some c) : (b = a ∧ c = a) ∨ (a = 1 ∧ c = b) ∨ (b = 1 ∧ c = a) := by
  unfold NpMat.bdim at h
  split_ifs at h with h1 h2 h3
  · exact .inl ⟨h1.symm, (Option.some.inj h).symm⟩
  · exact .inr (.inl ⟨h2, (Option.some.inj h).symm⟩)
  · exact .inr (.inr ⟨h3, (Option.some.inj h).symm⟩)

theorem zipB_number (op : ℝ → ℝ → ℝ) (A : Matrix (Fin M) (Fin m) ℝ) (c : ℝ) :
    NpMat.zipB op (NpMat.of A) (wcol fun _ : Fin 1 => c) = .ok (NpMat.of (Matrix.of fun i j => op (A i j) c)) := by
  simp only [NpMat.zipB, wcol, NpMat.of_rows, NpMat.of_cols, NpMat.bdim_one_right]
  congr 1
  change NpMat.mk M m _ = NpMat.mk M m _
  congr 1
  ext i j
  rw [Matrix.of_apply, Matrix.of_apply, NpMat.bget_of]
  rfl

theorem zipB_number_left (op : ℝ → ℝ → ℝ) (A : Matrix (Fin M) (Fin m) ℝ) (c : ℝ) :
    NpMat.zipB op (wcol fun _ : Fin 1 => c) (NpMat.of A) = .ok (NpMat.of (Matrix.of fun i j => op c (A i j))) := by
  simp only [NpMat.zipB, wcol, NpMat.of_rows, NpMat.of_cols, NpMat.bdim_one_left]
  congr 1
  change NpMat.mk M m _ = NpMat.mk M m _
  congr 1
  ext i j
  rw [Matrix.of_apply, Matrix.of_apply, NpMat.bget_of]
  rfl

theorem zipB_wcol_left (op : ℝ → ℝ → ℝ) (A : Matrix (Fin M) (Fin m) ℝ) (u : Fin M → ℝ) :
    NpMat.zipB op (wcol u) (NpMat.of A) = .ok (NpMat.of (Matrix.of fun i j => op (u i) (A i j))) := by
  simp only [NpMat.zipB, wcol, NpMat.of_rows, NpMat.of_cols, NpMat.bdim_self, NpMat.bdim_one_left]
  congr 1
  change NpMat.mk M m _ = NpMat.mk M m _
  congr 1
  ext i j
  rw [Matrix.of_apply, Matrix.of_apply, NpMat.bget_of]
  congr 1
  exact bget_wcol u i j

theorem PerSample.weighted {wts : Weights} {u : Fin M → ℝ} (h : PerSample M wts u) (A : Matrix (Fin M) (Fin m) ℝ) :
    Model.WeightsArr.weighted wts (NpMat.of A) = .ok (NpMat.of (Matrix.of fun i j => u i * A i j)) := by
  cases h with
  | column => exact zipB_wcol_left _ A u
  | number c => exact zipB_number_left _ A c
  | single c => exact zipB_number_left _ A c

theorem perSample_mat (w : NpMat) (h1 : w.cols = 1) (h2 : w.rows = M ∨ w.rows = 1) : ∃ u, PerSample M (.mat w) u := by
  obtain ⟨r, c, w⟩ := w
  change c = 1 at h1
  subst h1
  have e : ∀ {r : ℕ} (w : Matrix (Fin r) (Fin 1) ℝ), NpMat.mk r 1 w = wcol fun i => w i 0 := fun w => by
    change NpMat.of _ = NpMat.of _
    congr 1
    ext i j
    rw [Subsingleton.elim j 0]
    rfl
  change r = M ∨ r = 1 at h2
  rw [e w]
  rcases h2 with rfl | rfl
  · exact ⟨_, .column _⟩
  · refine ⟨fun _ => w 0 0, ?_⟩
    have : (fun i : Fin 1 => w i 0) = fun _ => w 0 0 := funext fun i => by rw [Subsingleton.elim i 0]
    rw [this]
    exact .number _

theorem perSample_vec (w : Fin 1 → ℝ) : ∃ u, PerSample M (.vec 1 w) u := by
  refine ⟨fun _ => w 0, ?_⟩
  have : w = fun _ => w 0 := funext fun i => by rw [Subsingleton.elim i 0]
  rw [this]
  exact .single _

/-- The shape of the product with a column tells whether there is a weight for each sample. -/
theorem perSample_of_weighted (hM : 2 ≤ M) {wts : Weights} (hw : wts ≠ .none) {b : Matrix (Fin M) (Fin 1) ℝ} {C : NpMat}
    (h : weighted wts (NpMat.of b) = .ok C) (hC : C.cols = 1) : ∃ u, PerSample M wts u := by
  cases wts with
  | none => exact absurd rfl hw
  | vec n w =>
    obtain ⟨-, h2⟩ := zipB_inv h
    have : n = 1 := by
      rcases bdim_inv h2 with h | h | h
      · exact h.1.symm
      · exact h.1
      · exact (h.2.symm.trans hC : (row w).cols = 1)
    subst this
    exact perSample_vec w
  | mat w =>
    obtain ⟨h1, h2⟩ := zipB_inv h
    refine perSample_mat w ?_ ?_
    · rcases bdim_inv h2 with h | h | h
      · exact h.1.symm
      · exact h.1
      · omega
    · rcases bdim_inv h1 with h | h | h
      · exact .inl h.1.symm
      · exact .inr h.1
      · exact absurd h.1 (by change M ≠ 1; omega)

/-! ## `PolynomialApproximation.train` -/

/-- C133: with a weight for each sample, in any of the shapes, `train` does what the model with typed weights does. -/
theorem C133_train_matches (lib : Model.ResponseSurfaces.Lib) (X : Matrix (Fin M) (Fin m) ℝ) (f : Arr) {wts : Weights} {u : Fin M → ℝ}
    (h : PerSample M wts u) (w : PolyApprox) :
    (Model.WeightsArr.train lib (.mat (NpMat.of X)) f wts).run w = (PolyApprox.train lib (.mat (NpMat.of X)) f (some (NpVec.of u))).run w ∧
    (Model.WeightsArr.train lib (.mat (NpMat.of X)) f .none).run w = (PolyApprox.train lib (.mat (NpMat.of X)) f none).run w := by
  unfold Model.WeightsArr.train PolyApprox.train
  rw [PyM.run_bind_ok (PyM.run_get w), PyM.run_bind_ok (PyM.run_get w), PyM.run_bind_ok (PyM.run_get w), PyM.run_bind_ok (PyM.run_get w)]
  cases hp : process_inputs_outputs (.mat (NpMat.of X)) f with
  | error e => exact ⟨rfl, rfl⟩
  | ok q =>
    obtain ⟨X', F⟩ := q
    obtain ⟨rfl, hr, hc⟩ : X' = NpMat.of X ∧ F.rows = M ∧ F.cols = 1 := by
      unfold process_inputs_outputs process_inputs at hp
      dsimp only at hp
      split at hp
      · split_ifs at hp with h1 h2
        · injection hp with hp
          injection hp with e1 e2
          subst e1 e2
          push Not at h1 h2
          exact ⟨rfl, h1, h2⟩
      · cases hp
    obtain ⟨r, c, F⟩ := F
    change r = M at hr
    change c = 1 at hc
    subst hr hc
    dsimp only
    have key : ∀ (v : Option (Fin r → ℝ)) (ws : Weights), (∀ {c : ℕ} (A : Matrix (Fin r) (Fin c) ℝ),
        weighted ws (NpMat.of A) = .ok (NpMat.of (Matrix.of fun i j => (v.getD fun _ => 1) i * A i j))) →
        (Model.WeightsArr.trainMat lib w.N X (NpMat.of F) ws).run w
          = (trainMat lib w.N X (fun i => F i 0) v).run w := by
      intro v ws hws
      unfold trainMat Model.WeightsArr.trainMat
      split_ifs with h1
      · rfl
      · cases polynomial_bases X w.N with
        | error e => rfl
        | ok b =>
          obtain ⟨I, B⟩ := b
          dsimp only
          have e1 : (applyWeights v B fun i => F i 0) = (Matrix.of fun i j => (v.getD fun _ => 1) i * B i j, fun i => (v.getD fun _ => 1) i * F i 0) := by
            cases v with
            | none =>
              simp only [applyWeights, Option.getD_none, one_mul]
              rfl
            | some v => rfl
          have e2 : (fun i : Fin r => (NpMat.of (colMat fun i => (v.getD fun _ => 1) i * F i 0)).get i 0) = fun i => (v.getD fun _ => 1) i * F i 0 :=
            funext fun i => NpMat.get_of _ i (0 : Fin 1)
          have e3 : NpMat.of (Matrix.of fun i j => (v.getD fun _ => 1) i * F i j) = NpMat.of (colMat fun i => (v.getD fun _ => 1) i * F i 0) := by
            congr 1
            ext i j
            rw [Subsingleton.elim j 0]
            rfl
          rw [hws B, hws F, e3, e1]
          dsimp only
          unfold fitArr
          rw [dif_pos ⟨rfl, rfl⟩]
          dsimp only [NpMat.of_rows]
          rw [e2]
          rfl
    have hF : (fun i : Fin r => (NpMat.mk r 1 F).get i 0) = fun i => F i 0 := funext fun i => NpMat.get_of F i (0 : Fin 1)
    constructor
    · refine (key (some u) wts fun A => h.weighted A).trans ?_
      rw [dif_pos (by rfl)]
      change _ = (trainMat lib w.N X (fun i => (NpMat.mk r 1 F).get i 0) _).run w
      rw [hF]
      rfl
    · refine (key none .none fun A => ?_).trans ?_
      · simp only [Model.WeightsArr.weighted, Option.getD_none, one_mul]
        rfl
      · change _ = (trainMat lib w.N X (fun i => (NpMat.mk r 1 F).get i 0) _).run w
        rw [hF]
        rfl

/-- What is left of a surface by a `train` that raises: `X` and `f` may be new. -/
def KeepsFit (w w' : PolyApprox) : Prop :=
  w'.N = w.N ∧ w'.poly_weights = w.poly_weights ∧ w'.Rsqr = w.Rsqr ∧ w'.g = w.g ∧ w'.H = w.H

theorem basis_ok (hm : 1 ≤ m) (N : ℕ) (X : Matrix (Fin M) (Fin m) ℝ) : ∃ (I : List (Fin m → ℕ)) (B : Matrix (Fin M) (Fin I.length) ℝ),
    polynomial_bases X N = .ok ⟨I, B⟩ ∧ I.length = (N + m).choose m := by
  obtain ⟨I, hI, -, -, -, hlen⟩ := C25_enumerates N m hm
  refine ⟨I, monomials X I, ?_, hlen⟩
  unfold polynomial_bases
  rw [hI]

theorem choose_ge_two {N : ℕ} (hm : 1 ≤ m) (hN : 1 ≤ N) : 2 ≤ (N + m).choose m := by
  have h1 : (1 + m).choose m ≤ (N + m).choose m := Nat.choose_le_choose m (by omega)
  have h2 : (1 + m).choose m = 1 + m := by
    rw [Nat.choose_symm_of_eq_add (Nat.add_comm 1 m), Nat.choose_one_right]
  omega

/-- C133: `train` refuses all other weights, and keeps the fit it had. -/
theorem C133_train_refuses (lib : Model.ResponseSurfaces.Lib) (hm : 1 ≤ m) (X : Matrix (Fin M) (Fin m) ℝ) (f : Fin M → ℝ) {wts : Weights}
    (hw : wts ≠ .none) (h : ¬ ∃ u, PerSample M wts u) (w : PolyApprox) (hN : 1 ≤ w.N) :
    ∃ er w', (Model.WeightsArr.train lib (.mat (NpMat.of X)) (.mat (wcol f)) wts).run w = (.error er, w') ∧ KeepsFit w w' ∧
      ((w.N + m).choose m ≤ M → er = .valueError) := by
  unfold Model.WeightsArr.train
  rw [PyM.run_bind_ok (PyM.run_get w), process_col]
  change ∃ er w', (Model.WeightsArr.trainMat lib w.N X (wcol f) wts).run w = _ ∧ _
  have hk : KeepsFit w w := ⟨rfl, rfl, rfl, rfl, rfl⟩
  unfold Model.WeightsArr.trainMat
  by_cases hM : M < (w.N + m).choose m
  · rw [if_pos hM]
    exact ⟨_, _, rfl, hk, fun h => absurd h (by omega)⟩
  rw [if_neg hM]
  obtain ⟨I, B, hB, hlen⟩ := basis_ok hm w.N X
  have hM2 : 2 ≤ M := (choose_ge_two hm hN).trans (by omega)
  rw [hB]
  dsimp only
  have herr : ∀ {A : NpMat} {e}, weighted wts A = .error e → e = .valueError := by
    intro A e he
    have key : ∀ {B : NpMat}, NpMat.zipB (· * ·) B A = .error e → e = .valueError := by
      intro B hB
      unfold NpMat.zipB at hB
      split at hB
      · cases hB
      · exact (Except.error.inj hB).symm
    cases wts with
    | none => cases he
    | vec n v => exact key he
    | mat v => exact key he
  cases h1 : weighted wts (NpMat.of B) with
  | error e => exact ⟨_, _, rfl, hk, fun _ => herr h1⟩
  | ok B' =>
    dsimp only
    cases h2 : weighted wts (wcol f) with
    | error e => exact ⟨_, _, rfl, hk, fun _ => herr h2⟩
    | ok f' =>
      dsimp only
      have hc : f'.cols ≠ 1 := fun hc => h (perSample_of_weighted hM2 hw h2 hc)
      unfold fitArr
      rw [dif_neg fun h => hc h.2, PyM.run_bind_ok (PyM.run_modify _ _)]
      exact ⟨_, _, rfl, ⟨rfl, rfl, rfl, rfl, rfl⟩, fun _ => rfl⟩

/-- C96 fails: a vector with as many weights as the surface has coefficients is refused, but only after `X` and `f` have been replaced. -/
theorem C96_weights_refuted (lib : Model.ResponseSurfaces.Lib) (hm : 1 ≤ m) (X : Matrix (Fin M) (Fin m) ℝ) (f : Fin M → ℝ) (w : PolyApprox) (hN : 1 ≤ w.N)
    (hM : (w.N + m).choose m ≤ M) (v : Fin ((w.N + m).choose m) → ℝ) :
    (Model.WeightsArr.train lib (.mat (NpMat.of X)) (.mat (wcol f)) (.vec _ v)).run w
      = (.error .valueError, { w with X := some (NpMat.of X), f := some (NpMat.of (Matrix.of fun i j => v j * f i)) }) := by
  unfold Model.WeightsArr.train
  rw [PyM.run_bind_ok (PyM.run_get w), process_col]
  change (Model.WeightsArr.trainMat lib w.N X (wcol f) _).run w = _
  unfold Model.WeightsArr.trainMat
  rw [if_neg (by exact not_lt.mpr hM)]
  obtain ⟨I, B, hB, hlen⟩ := basis_ok hm w.N X
  have h2 := choose_ge_two hm hN
  rw [hB]
  dsimp only
  obtain ⟨B', h1⟩ : ∃ B', weighted (.vec _ v) (NpMat.of B) = .ok B' := by
    generalize (w.N + m).choose m = p at *
    subst hlen
    exact ⟨_, NpMat.zipB_row_left _ _ B⟩
  have h3 : weighted (.vec _ v) (wcol f) = .ok (NpMat.of (Matrix.of fun i j => v j * f i)) := by
    change NpMat.zipB _ (NpMat.of _) (NpMat.of _) = _
    rw [zipB_row_col, NpMat.zipB_row_left]
    rfl
  rw [h1, h3]
  dsimp only
  unfold fitArr
  rw [dif_neg (fun h => by have := h.2; rw [NpMat.of_cols] at this; omega), PyM.run_bind_ok (PyM.run_modify _ _)]
  rfl

/-- Two points and a line: with the weights `(1, 1)` as a vector the new object has data but no coefficients. -/
example (lib : Model.ResponseSurfaces.Lib) : ∃ w', (Model.WeightsArr.train lib (.mat (NpMat.of !![0; 1])) (.mat (wcol ![3, 5])) (.vec 2 ![1, 1])).run { N := 1 }
    = (.error .valueError, w') ∧ w'.X = some (NpMat.of !![0; 1]) ∧ w'.poly_weights = none := by
  exact ⟨_, C96_weights_refuted lib le_rfl !![0; 1] ![3, 5] { N := 1 } le_rfl (by decide) ![1, 1], rfl, rfl⟩

/-! ## The subspace functions -/

theorem shape_inv (hM : 2 ≤ M) {w : NpMat} {r c : ℕ} (h1 : NpMat.bdim M w.rows = some r) (h2 : NpMat.bdim 1 w.cols = some c) (hc : c = 1) :
    w.cols = 1 ∧ (w.rows = M ∨ w.rows = 1) := by
  constructor
  · rcases bdim_inv h2 with h | h | h <;> omega
  · rcases bdim_inv h1 with h | h | h
    · exact .inl h.1
    · omega
    · exact .inr h.1

theorem map_wcol {n : ℕ} (g : ℝ → ℝ) (u : Fin n → ℝ) : (wcol u).map g = wcol fun i => g (u i) := rfl

theorem ols_number (lib : Model.Subspaces.Lib) (X : Matrix (Fin M) (Fin m) ℝ) (f : Fin M → ℝ) (c : ℝ) :
    ols_subspace lib (.mat (NpMat.of X)) (.mat (wcol f)) (wcol fun _ : Fin 1 => c)
      = ols_subspace lib (.mat (NpMat.of X)) (.mat (wcol f)) (wcol fun _ : Fin M => c) := by
  unfold ols_subspace
  rw [process_col]
  have key : ∀ {k : ℕ} (A : Matrix (Fin M) (Fin k) ℝ), NpMat.zipB (· * ·) (NpMat.of A) ((wcol fun _ : Fin 1 => c).map Real.sqrt)
      = NpMat.zipB (· * ·) (NpMat.of A) ((wcol fun _ : Fin M => c).map Real.sqrt) := by
    intro k A
    rw [map_wcol, map_wcol, zipB_number, zipB_wcol]
  have k1 : NpMat.zipB (· * ·) ⟨(NpMat.of X).rows, 1 + (NpMat.of X).cols, Np.hstack (Np.ones (NpMat.of X).rows 1) (NpMat.of X).val⟩ ((wcol fun _ : Fin 1 => c).map Real.sqrt)
      = NpMat.zipB (· * ·) ⟨(NpMat.of X).rows, 1 + (NpMat.of X).cols, Np.hstack (Np.ones (NpMat.of X).rows 1) (NpMat.of X).val⟩ ((wcol fun _ : Fin M => c).map Real.sqrt) :=
    key (Np.hstack (Np.ones M 1) X)
  have k2 : NpMat.zipB (· * ·) (wcol f) ((wcol fun _ : Fin 1 => c).map Real.sqrt) = NpMat.zipB (· * ·) (wcol f) ((wcol fun _ : Fin M => c).map Real.sqrt) :=
    key (Matrix.of fun i (_ : Fin 1) => f i)
  dsimp only [bind, Except.bind]
  rw [k1, k2]

/-- C133: whenever `ols_subspace` returns, weight `i` has been used for sample `i`. -/
theorem C133_ols (lib : Model.Subspaces.Lib) (hM : 2 ≤ M) (X : Matrix (Fin M) (Fin m) ℝ) (f : Fin M → ℝ) (wts : Weights) (p : EigPair)
    (h : Model.WeightsArr.ols_subspace lib (.mat (NpMat.of X)) (.mat (wcol f)) wts = .ok p) :
    ∃ u, PerSample M wts u ∧ ols_subspace lib (.mat (NpMat.of X)) (.mat (wcol f)) (wcol u) = .ok p := by
  have main : ∀ w : NpMat, ols_subspace lib (.mat (NpMat.of X)) (.mat (wcol f)) w = .ok p → w.cols = 1 ∧ (w.rows = M ∨ w.rows = 1) := by
    intro w hw
    unfold ols_subspace at hw
    rw [process_col] at hw
    dsimp only [bind, Except.bind] at hw
    split at hw
    · cases hw
    · split at hw
      · cases hw
      · rename_i b hb
        split_ifs at hw with hc
        obtain ⟨h1, h2⟩ := zipB_inv hb
        exact shape_inv hM h1 h2 hc.2
  cases wts with
  | none => cases h
  | vec n w =>
    obtain ⟨h1, -⟩ := main _ h
    change n = 1 at h1
    subst h1
    have : w = fun _ => w 0 := funext fun i => by rw [Subsingleton.elim i 0]
    rw [this] at h ⊢
    exact ⟨_, .single _, (ols_number lib X f (w 0)).symm.trans h⟩
  | mat w =>
    obtain ⟨h1, h2⟩ := main _ h
    obtain ⟨u, hu⟩ := perSample_mat w h1 h2
    refine ⟨u, hu, ?_⟩
    cases hu with
    | column => exact h
    | number c => exact (ols_number lib X f c).symm.trans h

theorem qphd_perSample (lib : Model.Subspaces.Lib) (X : Matrix (Fin M) (Fin m) ℝ) (f : Fin M → ℝ) {wts : Weights} {u : Fin M → ℝ} (h : PerSample M wts u) :
    Model.WeightsArr.qphd_subspace lib (.mat (NpMat.of X)) (.mat (wcol f)) wts = qphd_subspace lib (.mat (NpMat.of X)) (.mat (wcol f)) (wcol u) := by
  unfold Model.WeightsArr.qphd_subspace qphd_subspace
  rw [process_col]
  dsimp only [bind, Except.bind]
  cases gamma (NpMat.of X) with
  | error e => rfl
  | ok γ =>
    dsimp only
    have hv : toVec (wcol u) = .ok (NpVec.of u) := rfl
    rw [hv]
    dsimp only
    rw [(C133_train_matches lib.surf X (.mat (wcol f)) h { N := 2 }).1]
    generalize (PolyApprox.train lib.surf (.mat (NpMat.of X)) (.mat (wcol f)) (some (NpVec.of u))).run { N := 2 } = R
    rcases R with ⟨_ | _, pr⟩
    · rfl
    · dsimp only
      cases pr.g <;> cases pr.H <;> rfl

/-- C133: whenever `qphd_subspace` returns, weight `i` has been used for sample `i`, or there were no weights. -/
theorem C133_qphd (lib : Model.Subspaces.Lib) (hm : 1 ≤ m) (X : Matrix (Fin M) (Fin m) ℝ) (f : Fin M → ℝ) (wts : Weights) (hw : wts ≠ .none) (p : EigPair)
    (h : Model.WeightsArr.qphd_subspace lib (.mat (NpMat.of X)) (.mat (wcol f)) wts = .ok p) :
    ∃ u, PerSample M wts u ∧ qphd_subspace lib (.mat (NpMat.of X)) (.mat (wcol f)) (wcol u) = .ok p := by
  by_cases hu : ∃ u, PerSample M wts u
  · obtain ⟨u, hu⟩ := hu
    exact ⟨u, hu, (qphd_perSample lib X f hu).symm.trans h⟩
  · exfalso
    obtain ⟨er, w', h1, -⟩ := C133_train_refuses lib.surf hm X f hw hu { N := 2 } (by norm_num)
    unfold Model.WeightsArr.qphd_subspace at h
    rw [process_col] at h
    dsimp only [bind, Except.bind] at h
    cases hg : gamma (NpMat.of X) with
    | error e =>
      rw [hg] at h
      cases h
    | ok γ =>
      rw [hg] at h
      dsimp only at h
      rw [h1] at h
      cases h

/-- C133: `opg_subspace` takes a weight for each sample as a column or as a vector. -/
theorem C133_opg (lib : Model.Subspaces.Lib) (rng : Rng S) (X : Matrix (Fin M) (Fin m) ℝ) (f u : Fin M → ℝ) {wts : Weights}
    (h : wts = .vec M u ∨ wts = .mat (wcol u)) :
    (Model.WeightsArr.opg_subspace lib rng (.mat (NpMat.of X)) (.mat (wcol f)) wts : PyM (S × E) EigPair)
      = opg_subspace lib rng (.mat (NpMat.of X)) (.mat (wcol f)) (wcol u) := by
  unfold Model.WeightsArr.opg_subspace opg_subspace
  rw [process_col]
  dsimp only
  rw [dif_pos ⟨rfl, rfl⟩]
  have h1 := (C128_matches_partial lib.grad (fun _ => randint (E := E) rng _) X f u .none (f := .mat (wcol f)) (.inr rfl)).1 wts h
  rw [h1]
  have e : (fun i : Fin M => (wcol f).get i 0) = f := funext fun i => NpMat.get_of (Matrix.of fun i (_ : Fin 1) => f i) i (0 : Fin 1)
  have e' : (fun i : Fin (NpMat.of X).rows => (wcol f).get i 0) = f := e
  rw [e']
  funext w
  change PyM.run _ w = PyM.run _ w
  change PyM.run ((Model.Gradients.local_linear_gradients lib.grad (randint rng M) X f .none (some u) >>= fun D => pure (NpMat.of D)) >>= _) w
    = PyM.run (Model.Gradients.local_linear_gradients lib.grad (randint rng M) X f .none (some u) >>= _) w
  cases hr : (Model.Gradients.local_linear_gradients lib.grad (randint (E := E) rng M) X f .none (some u)).run w with
  | mk a w' =>
    cases a with
    | error er =>
      exact (PyM.run_bind_error (PyM.run_bind_error hr)).trans (PyM.run_bind_error hr).symm
    | ok D =>
      refine (PyM.run_bind_ok ((PyM.run_bind_ok hr).trans rfl)).trans (Eq.symm ?_)
      exact PyM.run_bind_ok (f := fun D' : Matrix (Fin (Model.Gradients.numModels M m)) (Fin m) ℝ =>
        PyM.lift (active_subspace lib (.mat (NpMat.of D')) (NpMat.of (Matrix.of fun _ _ => 1 / ((Model.Gradients.numModels M m : ℕ) : ℝ))))) hr

/-- A weight for each entry of an `M` by `m` array: the array itself, or one row for all of them. -/
inductive PerEntry (M m : ℕ) : Weights → Matrix (Fin M) (Fin m) ℝ → Prop
  | full (V : Matrix (Fin M) (Fin m) ℝ) : PerEntry M m (.mat (NpMat.of V)) V
  | row (v : Fin m → ℝ) : PerEntry M m (.mat (NpMat.of (Matrix.of fun (_ : Fin 1) j => v j))) (Matrix.of fun _ j => v j)
  | vec (v : Fin m → ℝ) : PerEntry M m (.vec m v) (Matrix.of fun _ j => v j)

/-- The sum over the samples of the derivative in direction `k` times the weighted derivative in direction `l`. -/
def entryOuter (G V : Matrix (Fin M) (Fin m) ℝ) : Matrix (Fin m) (Fin m) ℝ := Matrix.of fun k l => ∑ i, G i k * (G i l * V i l)

theorem active_of_zip (lib : Model.Subspaces.Lib) (G V : Matrix (Fin M) (Fin m) ℝ) (w : NpMat)
    (h : NpMat.zipB (· * ·) (NpMat.of G) w = .ok (NpMat.of (Matrix.of fun i j => G i j * V i j))) :
    active_subspace lib (.mat (NpMat.of G)) w = sorted_eigh lib (NpMat.of (entryOuter G V)) := by
  unfold active_subspace
  change (do
    let dfw ← NpMat.zipB (· * ·) (NpMat.of G) w
    let C ← NpMat.dot (NpMat.of G).transpose dfw
    sorted_eigh lib C) = _
  rw [h]
  change (do
    let C ← NpMat.dot (NpMat.of G.transpose) (NpMat.of (Matrix.of fun i j => G i j * V i j))
    sorted_eigh lib C) = _
  rw [dot_of]
  rfl

theorem zipB_row (G : Matrix (Fin M) (Fin m) ℝ) (v : Fin m → ℝ) :
    NpMat.zipB (· * ·) (NpMat.of G) (NpMat.of (Matrix.of fun (_ : Fin 1) j => v j)) = .ok (NpMat.of (Matrix.of fun i j => G i j * v j)) := by
  simp only [NpMat.zipB, NpMat.of_rows, NpMat.of_cols, NpMat.bdim_self, NpMat.bdim_one_right]
  congr 1
  change NpMat.mk M m _ = NpMat.mk M m _
  congr 1
  ext i j
  rw [Matrix.of_apply, Matrix.of_apply, NpMat.bget_of, NpMat.bget_of_row]
  rfl

theorem zipB_full (G V : Matrix (Fin M) (Fin m) ℝ) :
    NpMat.zipB (· * ·) (NpMat.of G) (NpMat.of V) = .ok (NpMat.of (Matrix.of fun i j => G i j * V i j)) := by
  simp only [NpMat.zipB, NpMat.of_rows, NpMat.of_cols, NpMat.bdim_self]
  congr 1
  change NpMat.mk M m _ = NpMat.mk M m _
  congr 1
  ext i j
  rw [Matrix.of_apply, Matrix.of_apply, NpMat.bget_of, NpMat.bget_of]

/-- C133: weights with as many columns as there are inputs are applied to the entries of the gradients, in one of the two
factors of the outer product. -/
theorem C133_active_entries (lib : Model.Subspaces.Lib) (G : Matrix (Fin M) (Fin m) ℝ) {wts : Weights} {V : Matrix (Fin M) (Fin m) ℝ} (h : PerEntry M m wts V) :
    Model.WeightsArr.active_subspace lib (.mat (NpMat.of G)) wts = sorted_eigh lib (NpMat.of (entryOuter G V)) := by
  cases h with
  | full => exact active_of_zip lib G V _ (zipB_full G V)
  | row v => exact active_of_zip lib G (Matrix.of fun _ j => v j) _ (zipB_row G v)
  | vec v => exact active_of_zip lib G (Matrix.of fun _ j => v j) _ (zipB_row G v)

/-- C133: with a weight for each sample, in any of the shapes, `active_subspace` decomposes the average outer product. -/
theorem C133_active_matches (lib : Model.Subspaces.Lib) (G : Matrix (Fin M) (Fin m) ℝ) {wts : Weights} {u : Fin M → ℝ} (h : PerSample M wts u) :
    Model.WeightsArr.active_subspace lib (.mat (NpMat.of G)) wts = active_subspace lib (.mat (NpMat.of G)) (wcol u) := by
  have num : ∀ c : ℝ, active_subspace lib (.mat (NpMat.of G)) (wcol fun _ : Fin 1 => c) = active_subspace lib (.mat (NpMat.of G)) (wcol fun _ : Fin M => c) :=
    fun c => (active_of_zip lib G (Matrix.of fun _ _ => c) _ (zipB_number _ G c)).trans (active_of_zip lib G (Matrix.of fun _ _ => c) _ (zipB_wcol _ G _)).symm
  cases h with
  | column => rfl
  | number c => exact num c
  | single c => exact num c

/-- C133: whenever `active_subspace` returns, the weights were one for each sample or one for each entry of the gradients. -/
theorem C133_active_partial (lib : Model.Subspaces.Lib) (G : Matrix (Fin M) (Fin m) ℝ) (wts : Weights) (p : EigPair)
    (h : Model.WeightsArr.active_subspace lib (.mat (NpMat.of G)) wts = .ok p) :
    (∃ u, PerSample M wts u) ∨ ∃ V, PerEntry M m wts V := by
  have main : ∀ w : NpMat, active_subspace lib (.mat (NpMat.of G)) w = .ok p → (w.rows = M ∨ w.rows = 1) ∧ (w.cols = 1 ∨ w.cols = m) := by
    intro w hw
    unfold active_subspace at hw
    change (do
      let dfw ← NpMat.zipB (· * ·) (NpMat.of G) w
      let C ← NpMat.dot (NpMat.of G).transpose dfw
      sorted_eigh lib C) = _ at hw
    dsimp only [bind, Except.bind] at hw
    split at hw
    · cases hw
    · rename_i B hB
      obtain ⟨h1, h2⟩ := zipB_inv hB
      split at hw
      · cases hw
      · rename_i C hC
        unfold NpMat.dot at hC
        split_ifs at hC with hd
        obtain rfl := Except.ok.inj hC
        have hsq : B.cols = m := by
          by_contra hne
          cases hw.symm.trans ((C34_errors lib m B.cols _).1 hne)
        change B.rows = M at hd
        change NpMat.bdim M w.rows = _ at h1
        change NpMat.bdim m w.cols = _ at h2
        constructor
        · rcases bdim_inv h1 with h | h | h <;> omega
        · rcases bdim_inv h2 with h | h | h <;> omega
  cases wts with
  | none => cases h
  | vec n w =>
    obtain ⟨-, h1⟩ := main _ h
    change n = 1 ∨ n = m at h1
    rcases h1 with rfl | rfl
    · have : w = fun _ => w 0 := funext fun i => by rw [Subsingleton.elim i 0]
      rw [this]
      exact .inl ⟨_, .single _⟩
    · exact .inr ⟨_, .vec w⟩
  | mat w =>
    obtain ⟨h1, h2⟩ := main _ h
    rcases h2 with h2 | h2
    · exact .inl (perSample_mat w h2 h1)
    · obtain ⟨r, c, w⟩ := w
      change c = m at h2
      subst h2
      rcases h1 with h1 | h1
      · change r = M at h1
        subst h1
        exact .inr ⟨w, .full w⟩
      · change r = 1 at h1
        subst h1
        have e : NpMat.mk 1 c w = NpMat.of (Matrix.of fun (_ : Fin 1) j => w 0 j) := by
          change NpMat.of _ = NpMat.of _
          congr 1
          ext i j
          rw [Subsingleton.elim i 0]
          rfl
        rw [e]
        exact .inr ⟨_, .row _⟩

/-- C133: equal weights do the same in every shape. -/
theorem C133_uniform (lib : Model.Subspaces.Lib) (G : Matrix (Fin M) (Fin m) ℝ) {wts : Weights} (c : ℝ) (h : PerEntry M m wts (Matrix.of fun _ _ => c)) :
    Model.WeightsArr.active_subspace lib (.mat (NpMat.of G)) wts = active_subspace lib (.mat (NpMat.of G)) (wcol fun _ : Fin M => c) := by
  rw [C133_active_entries lib G h]
  exact (active_of_zip lib G (Matrix.of fun _ _ => c) _ (zipB_wcol _ G _)).symm

/-- C133: a vector with a weight for each sample is accepted and used for something else when there are as many samples as
inputs.  With the gradients (1, 0) and (2, 0) and the weights 3/4 and 1/4, the eigenvalues sum to 7/4 for the weights as a
column and to 15/4 for the vector. -/
theorem C133_active_refuted (lib : Model.Subspaces.Lib) (hl : SubLibOK lib) :
    ∃ (G : Matrix (Fin 2) (Fin 2) ℝ) (u : Fin 2 → ℝ) (e e' : Fin 2 → ℝ) (W W' : Matrix (Fin 2) (Fin 2) ℝ),
      Model.WeightsArr.active_subspace lib (.mat (NpMat.of G)) (.mat (wcol u)) = .ok ⟨2, e, W⟩ ∧
      Model.WeightsArr.active_subspace lib (.mat (NpMat.of G)) (.vec 2 u) = .ok ⟨2, e', W'⟩ ∧
      ∑ j, e j = 7 / 4 ∧ ∑ j, e' j = 15 / 4 := by
  obtain ⟨e, W, h1, -, -, h2, -⟩ := C35_active_subspace lib hl (by norm_num) !![1, 0; 2, 0] ![3 / 4, 1 / 4] (by
    intro i; fin_cases i <;> norm_num)
  obtain ⟨e', W', h1', -, -, h2', -⟩ := C35_active_subspace lib hl (by norm_num) !![1, 0; 2, 0] ![15 / 4, 0] (by
    intro i; fin_cases i <;> norm_num)
  refine ⟨!![1, 0; 2, 0], ![3 / 4, 1 / 4], e, e', W, W', h1, ?_, ?_, ?_⟩
  · rw [C133_active_entries lib _ (.vec _), ← h1', active_subspace_eq]
    congr 2
    ext k l
    fin_cases k <;> fin_cases l <;> norm_num [entryOuter, gradOuter, Fin.sum_univ_two]
  · rw [h2]
    norm_num [Fin.sum_univ_two]
  · rw [h2']
    norm_num [Fin.sum_univ_two]

/-! ## `compute` -/

/-- C133: with a weight for each sample, `compute` does what the model with typed weights does. -/
theorem C133_compute (lib : Model.Subspaces.Lib) (rng : Rng S) (X : Matrix (Fin M) (Fin m) ℝ) (f : Fin M → ℝ) (G : Matrix (Fin M) (Fin m) ℝ)
    {wts : Weights} {u : Fin M → ℝ} (h : PerSample M wts u) (sstype ptype : String) (nboot : ℤ) (hs : sstype = "OPG" ∨ 0 < nboot → wts = .mat (wcol u)) :
    Model.WeightsArr.compute lib rng (some (.mat (NpMat.of X))) (some (.mat (wcol f))) (some (.mat (NpMat.of G))) wts sstype ptype nboot
      = compute lib rng (some (.mat (NpMat.of X))) (some (.mat (wcol f))) (some (.mat (NpMat.of G))) (some (wcol u)) sstype ptype nboot := by
  have hd : Model.WeightsArr.orDefault M wts = wts := by cases h <;> rfl
  have hss : ∀ t, SS.ofString sstype = some t →
      (Model.WeightsArr.ssCall lib rng t (some (NpMat.of X)) (some (.mat (wcol f))) (some (.mat (NpMat.of G))) wts : PyM (S × Subspaces) EigPair)
        = ssCall lib rng t (some (NpMat.of X)) (some (.mat (wcol f))) (some (.mat (NpMat.of G))) (wcol u) := by
    intro t ht
    cases t with
    | AS => exact congrArg PyM.lift (C133_active_matches lib G h)
    | OLS =>
      refine congrArg PyM.lift ?_
      cases h with
      | column => rfl
      | number c => exact ols_number lib X f c
      | single c => exact ols_number lib X f c
    | QPHD => exact congrArg PyM.lift (qphd_perSample lib X f h)
    | OPG =>
      refine C133_opg lib rng X f u (.inr (hs (.inl ?_)))
      unfold SS.ofString at ht
      split_ifs at ht with h1 h2 h3 h4 <;> first | exact h4 | cases ht
  unfold Model.WeightsArr.compute compute
  have hc : checkInputs (some (.mat (NpMat.of X))) (some (.mat (NpMat.of G))) = .ok ⟨some (NpMat.of X), some (.mat (NpMat.of G)), M, m⟩ := rfl
  rw [hc]
  funext w
  refine (PyM.run_bind_ok (w' := w) rfl).trans (Eq.trans ?_ (PyM.run_bind_ok (w' := w) rfl).symm)
  dsimp only
  rw [hd]
  cases ht : SS.ofString sstype with
  | none => rfl
  | some t =>
    dsimp only
    rw [hss t ht, Option.getD_some]
    have hb : ∀ p : EigPair, (Model.WeightsArr.bootStep lib rng t p (some (NpMat.of X)) (some (.mat (wcol f))) (some (.mat (NpMat.of G))) wts ptype nboot : PyM (S × Subspaces) _)
        = bootStep lib rng t p (some (NpMat.of X)) (some (.mat (wcol f))) (some (.mat (NpMat.of G))) (wcol u) ptype nboot := by
      intro p
      by_cases hn : 0 < nboot
      · rw [hs (.inr hn)]
        rfl
      · cases h with
        | column => rfl
        | number c =>
          change bootStep lib rng t p _ _ _ _ ptype nboot = _
          unfold bootStep
          rw [if_neg hn, if_neg hn]
        | single c =>
          unfold Model.WeightsArr.bootStep bootStep
          dsimp only
          rw [if_neg hn, if_neg hn]
    simp only [hb]

/-- C133: without weights every sample has the weight `1 / M`. -/
theorem C133_default (lib : Model.Subspaces.Lib) (rng : Rng S) (X : Matrix (Fin M) (Fin m) ℝ) (f : Fin M → ℝ) (G : Matrix (Fin M) (Fin m) ℝ)
    (sstype ptype : String) (nboot : ℤ) :
    Model.WeightsArr.compute lib rng (some (.mat (NpMat.of X))) (some (.mat (wcol f))) (some (.mat (NpMat.of G))) .none sstype ptype nboot
      = compute lib rng (some (.mat (NpMat.of X))) (some (.mat (wcol f))) (some (.mat (NpMat.of G))) (some (wcol fun _ : Fin M => 1 / (M : ℝ))) sstype ptype nboot :=
  (show Model.WeightsArr.compute lib rng _ _ _ .none sstype ptype nboot
    = Model.WeightsArr.compute lib rng (some (.mat (NpMat.of X))) (some (.mat (wcol f))) (some (.mat (NpMat.of G))) (.mat (wcol fun _ : Fin M => 1 / (M : ℝ))) sstype ptype nboot
    from rfl).trans (C133_compute lib rng X f G (.column _) sstype ptype nboot fun _ => rfl)

/-! ## Examples -/

example (lib : Model.Subspaces.Lib) (hl : SubLibOK lib) : ∃ p, Model.WeightsArr.qphd_subspace lib (.mat (NpMat.of (Matrix.of ![![-2], ![0], ![1]])))
    (.mat (wcol ![4, 0, 1])) (.vec 1 fun _ => 1 / 3) = .ok p := by
  obtain ⟨-, e, W, h, -⟩ := C37_fails lib hl
  exact ⟨_, (qphd_perSample lib _ _ (.single (1 / 3))).trans h⟩

example (lib : Model.Subspaces.Lib) (hl : SubLibOK lib) : ∃ p, Model.WeightsArr.ols_subspace lib (.mat (NpMat.of !![0; 1; 2])) (.mat (wcol ![4, 0, 1]))
    (.vec 1 fun _ => 1 / 3) = .ok p := by
  obtain ⟨e, W, a, s, h, -⟩ := C36_ols lib hl (by norm_num) !![0; 1; 2] ![4, 0, 1] (fun _ => 1 / 3) (fun _ => by norm_num)
  exact ⟨_, (ols_number lib _ _ _).trans h⟩

/-- A vector with a weight for each sample. -/
example (lib : Model.Subspaces.Lib) (p : EigPair) :
    Model.WeightsArr.ols_subspace lib (.mat (NpMat.of !![0; 1; 2])) (.mat (wcol ![4, 0, 1])) (.vec 3 ![1, 2, 3]) ≠ .ok p := by
  intro h
  obtain ⟨u, hu, -⟩ := C133_ols lib (by norm_num) _ _ _ p h
  cases hu

example (lib : Model.Subspaces.Lib) (p : EigPair) :
    Model.WeightsArr.active_subspace lib (.mat (NpMat.of !![0, 1; 1, 3; 2, 2])) (.vec 3 ![1, 2, 3]) ≠ .ok p := by
  intro h
  rcases C133_active_partial lib _ _ p h with ⟨u, hu⟩ | ⟨V, hV⟩
  · cases hu
  · cases hV

example : PerEntry 3 2 (.mat (NpMat.of !![1, 2])) (Matrix.of fun _ j => ![1, 2] j) := by
  have : (!![1, 2] : Matrix (Fin 1) (Fin 2) ℝ) = Matrix.of fun _ j => ![1, 2] j := by
    ext i j
    fin_cases i
    rfl
  rw [this]
  exact .row _

end Props
