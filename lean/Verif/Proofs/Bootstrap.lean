import Verif.Props.Qphd
import Verif.Props.Partition
import Verif.Proofs.KyFan

/-!
# Subspace estimates of samples and of their bootstrap replicates
-/

open Py Model.Subspaces Model.Misc Spec Matrix Proofs.Eigh Props

namespace Proofs.Bootstrap

variable {S E α β W : Type} {M m : ℕ}

theorem bind_ok {x : PyM W α} {f : α → PyM W β} {w w' : W} {b : β} (h : (x >>= f).run w = (.ok b, w')) :
    ∃ a w1, x.run w = (.ok a, w1) ∧ (f a).run w1 = (.ok b, w') := by
  rw [PyM.run_bind] at h
  rcases hx : x.run w with ⟨r, w1⟩
  rw [hx] at h
  cases r with
  | ok a => exact ⟨a, w1, rfl, h⟩
  | error e => simp at h

/-! ## Computations that leave the object alone -/

/-- The computation changes only the state of the generator. -/
def Framed (x : PyM (S × E) α) : Prop := ∀ w, (x.run w).2.2 = w.2

theorem framed_pure (a : α) : Framed (pure a : PyM (S × E) α) := fun _ => rfl
theorem framed_lift (a : Except Err α) : Framed (PyM.lift a : PyM (S × E) α) := fun _ => rfl
theorem framed_raise (e : Err) : Framed (PyM.raise e : PyM (S × E) α) := fun _ => rfl
theorem framed_draw (f : S → α × S) : Framed (Rng.draw f : PyM (S × E) α) := fun _ => rfl

theorem framed_bind {x : PyM (S × E) α} {f : α → PyM (S × E) β} (hx : Framed x) (hf : ∀ a, Framed (f a)) :
    Framed (x >>= f) := by
  intro w
  rw [PyM.run_bind]
  have h1 := hx w
  rcases h : x.run w with ⟨r, w1⟩
  rw [h] at h1
  cases r with
  | ok a => exact (hf a w1).trans h1
  | error e => exact h1

theorem framed_dite {c : Prop} [Decidable c] {x : c → PyM (S × E) α} {y : ¬c → PyM (S × E) α} (hx : ∀ h, Framed (x h))
    (hy : ∀ h, Framed (y h)) : Framed (if h : c then x h else y h) := by
  by_cases h : c
  · rw [dif_pos h]; exact hx h
  · rw [dif_neg h]; exact hy h

theorem framed_randint (rng : Rng S) (n : ℕ) : Framed (randint rng n : PyM (S × E) (Fin n)) := by
  cases n with
  | zero => exact framed_raise _
  | succ n => exact framed_draw _

theorem framed_foldlM {γ : Type} (l : List γ) (g : β → γ → PyM (S × E) β) (hg : ∀ b c, Framed (g b c)) (b : β) :
    Framed (l.foldlM g b) := by
  induction l generalizing b with
  | nil => exact framed_pure b
  | cons c l ih => rw [List.foldlM_cons]; exact framed_bind (hg b c) ih

theorem framed_opg (lib : Model.Subspaces.Lib) (rng : Rng S) (X f : Arr) (weights : NpMat) :
    Framed (opg_subspace lib rng X f weights : PyM (S × E) EigPair) := by
  unfold opg_subspace
  split
  · exact framed_raise _
  · split
    · refine framed_bind ?_ fun _ => framed_lift _
      unfold Model.Gradients.local_linear_gradients
      split
      · exact framed_raise _
      · refine framed_foldlM _ _ (fun b c => ?_) _
        exact framed_bind (framed_randint rng _) fun _ => framed_bind (framed_lift _) fun _ => framed_pure _
    · exact framed_raise _

theorem framed_ssCall (lib : Model.Subspaces.Lib) (rng : Rng S) (t : SS) (X : Option NpMat) (f df : Option Arr)
    (weights : NpMat) : Framed (ssCall lib rng t X f df weights : PyM (S × E) EigPair) := by
  unfold ssCall
  split
  · split
    · exact framed_lift _
    · exact framed_raise _
  · split
    · exact framed_lift _
    · exact framed_raise _
  · split
    · exact framed_lift _
    · exact framed_raise _
  · split
    · exact framed_opg _ _ _ _ _
    · exact framed_raise _

theorem framed_replicate (rng : Rng S) (d : Data) : Framed (bootstrap_replicate rng d : PyM (S × E) Data) := by
  unfold bootstrap_replicate
  split
  · exact framed_raise _
  · exact framed_bind (framed_draw _) fun _ => framed_lift _

theorem framed_bootLoop (lib : Model.Subspaces.Lib) (rng : Rng S) (t : SS) (d : Data) (V : Matrix (Fin m) (Fin m) ℝ) (n : ℕ) :
    Framed (bootLoop lib rng t d V n : PyM (S × E) _) := by
  induction n with
  | zero => exact framed_pure _
  | succ n ih =>
    unfold bootLoop
    refine framed_bind (framed_replicate rng d) fun d0 => framed_bind (framed_ssCall _ _ _ _ _ _ _) fun p0 => ?_
    split
    · exact framed_bind ih fun _ => framed_pure _
    · exact framed_raise _

theorem framed_ranges (lib : Model.Subspaces.Lib) (rng : Rng S) (t : SS) (p : EigPair) (X : Option NpMat) (f df : Option Arr)
    (weights : NpMat) (k : ℕ) : Framed (bootstrap_ranges lib rng t p X f df weights k : PyM (S × E) BootRes) := by
  unfold bootstrap_ranges
  cases df.mapM process_inputs with
  | error e => exact framed_raise _
  | ok df =>
    simp only
    refine framed_dite (fun _ => ?_) fun _ => ?_
    · exact framed_bind (framed_bootLoop _ _ _ _ _ _) fun _ => framed_pure _
    · exact framed_bind (framed_replicate _ _) fun _ => framed_bind (framed_ssCall _ _ _ _ _ _ _) fun _ => framed_raise _

/-! ## The subspace functions on samples of consistent shape -/

/-- A sample as run-time data. -/
def dataOf (X : Option (Matrix (Fin M) (Fin m) ℝ)) (f : Option (Fin M → ℝ)) (df : Option (Matrix (Fin M) (Fin m) ℝ))
    (w : Fin M → ℝ) : Data :=
  ⟨X.map NpMat.of, f.map fun f => .mat (wcol f), df.map NpMat.of, wcol w⟩

/-- The subspace estimate of a sample. -/
noncomputable def estimate (lib : Model.Subspaces.Lib) (rng : Rng S) (t : SS) (X : Option (Matrix (Fin M) (Fin m) ℝ))
    (f : Option (Fin M → ℝ)) (df : Option (Matrix (Fin M) (Fin m) ℝ)) (w : Fin M → ℝ) : PyM (S × E) EigPair :=
  ssCall lib rng t (X.map NpMat.of) (f.map fun f => .mat (wcol f)) (df.map fun G => .mat (NpMat.of G)) (wcol w)

/-- The result is an orthogonal matrix with non-negative descending values. -/
def GoodPair (m : ℕ) (p : EigPair) : Prop :=
  ∃ (e : Fin m → ℝ) (V : Matrix (Fin m) (Fin m) ℝ), p = ⟨m, e, V⟩ ∧ V.transpose * V = 1 ∧ (∀ j, 0 ≤ e j) ∧ Antitone e

theorem sorted_eigh_good {lib : Model.Subspaces.Lib} (hl : SubLibOK lib) {C : Matrix (Fin m) (Fin m) ℝ} (hC : C.transpose = C)
    {p : EigPair} (h : sorted_eigh lib (NpMat.of C) = .ok p) : GoodPair m p := by
  rcases Nat.eq_zero_or_pos m with h0 | hm
  · rw [(C34_errors lib m m C).2 h0 h0] at h
    exact absurd h (by simp)
  · obtain ⟨e, V, h1, h2, h3, h4, -⟩ := C34_sorted lib hl hm C hC
    rw [h1] at h
    exact ⟨e, V, (Except.ok.inj h).symm, orth_of_entry h4, h2, h3⟩

theorem gradOuter_symm (G : Matrix (Fin M) (Fin m) ℝ) (w : Fin M → ℝ) : (gradOuter G w).transpose = gradOuter G w := by
  ext k l
  rw [Matrix.transpose_apply, gradOuter, Matrix.of_apply, Matrix.of_apply]
  exact Finset.sum_congr rfl fun i _ => by ring

theorem qphd_few (lib : Model.Subspaces.Lib) (X : Matrix (Fin M) (Fin m) ℝ) (f w : Fin M → ℝ) (hM : M < (2 + m).choose m)
    (p : EigPair) : qphd_subspace lib (.mat (NpMat.of X)) (.mat (wcol f)) (wcol w) ≠ .ok p := by
  have h1 := C27_too_few lib.surf { N := 2 } X f (some w) hM
  intro h
  unfold qphd_subspace at h
  rw [process_col] at h
  cases hg : gamma (NpMat.of X) with
  | error e =>
    simp only [bind, Except.bind] at h
    rw [hg] at h
    exact absurd h (by simp)
  | ok γ =>
    simp only [bind, Except.bind] at h
    rw [hg] at h
    simp only at h
    have hv : toVec (wcol w) = .ok (NpVec.of w) := rfl
    rw [hv] at h
    simp only at h
    erw [h1] at h
    exact absurd h (by simp)

theorem estimate_good {lib : Model.Subspaces.Lib} (hl : SubLibOK lib) (rng : Rng S) (t : SS)
    (X : Option (Matrix (Fin M) (Fin m) ℝ)) (f : Option (Fin M → ℝ)) (df : Option (Matrix (Fin M) (Fin m) ℝ)) (w : Fin M → ℝ)
    {u u' : S × E} {p : EigPair} (h : (estimate lib rng t X f df w).run u = (.ok p, u')) : GoodPair m p := by
  unfold estimate at h
  cases t with
  | AS =>
    cases df with
    | none => exact absurd (congrArg Prod.fst h) (by simp [ssCall])
    | some G =>
      have h1 : active_subspace lib (.mat (NpMat.of G)) (wcol w) = .ok p := congrArg Prod.fst h
      rw [active_subspace_eq] at h1
      exact sorted_eigh_good hl (gradOuter_symm G w) h1
  | OLS =>
    cases X with
    | none => exact absurd (congrArg Prod.fst h) (by simp [ssCall])
    | some X =>
      cases f with
      | none => exact absurd (congrArg Prod.fst h) (by simp [ssCall])
      | some f =>
        have h1 : ols_subspace lib (.mat (NpMat.of X)) (.mat (wcol f)) (wcol w) = .ok p := congrArg Prod.fst h
        obtain ⟨v, -, h2⟩ := ols_eq lib X f w
        rw [h2] at h1
        exact sorted_eigh_good hl (by ext k l; simp [mul_comm]) h1
  | QPHD =>
    cases X with
    | none => exact absurd (congrArg Prod.fst h) (by simp [ssCall])
    | some X =>
      cases f with
      | none => exact absurd (congrArg Prod.fst h) (by simp [ssCall])
      | some f =>
        have h1 : qphd_subspace lib (.mat (NpMat.of X)) (.mat (wcol f)) (wcol w) = .ok p := congrArg Prod.fst h
        rcases lt_or_ge M ((2 + m).choose m) with hM | hM
        · exact absurd h1 (qphd_few lib X f w hM p)
        · rcases Nat.eq_zero_or_pos m with h0 | hm
          · exfalso
            subst h0
            unfold qphd_subspace at h1
            rw [process_col] at h1
            have hg : gamma (NpMat.of X) = .error .valueError := by
              unfold gamma
              rw [Np.amax_empty (show (NpMat.of X).rows * (NpMat.of X).cols = 0 from Nat.mul_zero _)]
            simp only [bind, Except.bind] at h1
            rw [hg] at h1
            exact absurd h1 (by simp)
          · have hM0 : 0 < M := lt_of_lt_of_le (Nat.choose_pos (by omega)) hM
            obtain ⟨γ, hγ⟩ : ∃ γ, gamma (NpMat.of X) = .ok γ := by
              rcases gamma_of X hM0 hm with ⟨-, h⟩ | ⟨-, h⟩ <;> exact ⟨_, h⟩
            obtain ⟨P, -, -, h2⟩ := qphd_eq lib hl.lstsq hm X f w hM hγ
            rw [h2] at h1
            refine sorted_eigh_good hl ?_ h1
            ext k l
            rw [Matrix.transpose_apply, Matrix.of_apply, Matrix.of_apply, mul_comm (MvPolynomial.eval 0 _)]
            congr 2
            exact Finset.sum_congr rfl fun r _ => mul_comm _ _
  | OPG =>
    cases X with
    | none => exact absurd (congrArg Prod.fst h) (by simp [ssCall])
    | some X =>
      cases f with
      | none => exact absurd (congrArg Prod.fst h) (by simp [ssCall])
      | some f =>
        have h1 : (opg_subspace lib rng (.mat (NpMat.of X)) (.mat (wcol f)) (wcol w)).run u = (.ok p, u') := h
        unfold opg_subspace at h1
        rw [process_col] at h1
        simp only at h1
        rw [dif_pos ⟨rfl, rfl⟩] at h1
        obtain ⟨G, u1, -, h2⟩ := bind_ok h1
        have h3 : active_subspace lib (.mat (NpMat.of G))
          (wcol fun _ => 1 / ((Model.Gradients.numModels M m : ℕ) : ℝ)) = .ok p := congrArg Prod.fst h2
        rw [active_subspace_eq] at h3
        exact sorted_eigh_good hl (gradOuter_symm _ _) h3

/-! ## Replicates -/

theorem takeRows_of {a c k : ℕ} (A : Matrix (Fin a) (Fin c) ℝ) (ind : Fin k → Fin a) :
    (NpMat.of A).takeRows (fun i => (ind i : ℕ)) = .ok (NpMat.of (A.submatrix ind id)) :=
  dif_pos fun i => (ind i).isLt

theorem take_dataOf (X : Option (Matrix (Fin M) (Fin m) ℝ)) (f : Option (Fin M → ℝ)) (df : Option (Matrix (Fin M) (Fin m) ℝ))
    (w : Fin M → ℝ) {k : ℕ} (ind : Fin k → Fin M) :
    (dataOf X f df w).take (fun i => (ind i : ℕ))
      = .ok (dataOf (X.map fun X => X.submatrix ind id) (f.map fun f => f ∘ ind) (df.map fun X => X.submatrix ind id) (w ∘ ind)) := by
  have hc : ∀ v : Fin M → ℝ, (wcol v).takeRows (fun i => (ind i : ℕ)) = .ok (wcol (v ∘ ind)) := fun v =>
    takeRows_of (Matrix.of fun i (_ : Fin 1) => v i) ind
  have h1 : (X.map NpMat.of).mapM (fun X => X.takeRows fun i => (ind i : ℕ))
      = .ok ((X.map fun X => X.submatrix ind id).map NpMat.of) := by
    cases X with
    | none => rfl
    | some X =>
      change (do let a ← (NpMat.of X).takeRows fun i => (ind i : ℕ); pure (some a)) = _
      rw [takeRows_of]
      rfl
  have h2 : (f.map fun f => Arr.mat (wcol f)).mapM (fun f => f.takeRows fun i => (ind i : ℕ))
      = .ok ((f.map fun f => f ∘ ind).map fun f => Arr.mat (wcol f)) := by
    cases f with
    | none => rfl
    | some f =>
      change (do let a ← (Arr.mat (wcol f)).takeRows fun i => (ind i : ℕ); pure (some a)) = _
      unfold Arr.takeRows
      simp only
      rw [hc]
      rfl
  have h3 : (df.map NpMat.of).mapM (fun X => X.takeRows fun i => (ind i : ℕ))
      = .ok ((df.map fun X => X.submatrix ind id).map NpMat.of) := by
    cases df with
    | none => rfl
    | some X =>
      change (do let a ← (NpMat.of X).takeRows fun i => (ind i : ℕ); pure (some a)) = _
      rw [takeRows_of]
      rfl
  unfold Data.take dataOf
  simp only [bind, Except.bind]
  rw [h1]
  simp only
  rw [h2]
  simp only
  rw [h3]
  simp only
  rw [hc]
  rfl

theorem replicate_ok (rng : Rng S) (X : Option (Matrix (Fin M) (Fin m) ℝ)) (f : Option (Fin M → ℝ))
    (df : Option (Matrix (Fin M) (Fin m) ℝ)) (w : Fin M → ℝ) (hM : 0 < M) (u : S × E) :
    ∃ (ind : Fin M → Fin M) (u' : S × E), (bootstrap_replicate rng (dataOf X f df w)).run u
      = (.ok (dataOf (X.map fun X => X.submatrix ind id) (f.map fun f => f ∘ ind) (df.map fun X => X.submatrix ind id)
          (w ∘ ind)), u') := by
  obtain ⟨K, rfl⟩ : ∃ K, M = K + 1 := ⟨M - 1, by omega⟩
  unfold bootstrap_replicate
  change ∃ ind u', (do
    let ind ← Rng.draw (randints rng K (K + 1))
    PyM.lift ((dataOf X f df w).take fun i => (ind i : ℕ))).run u = _
  refine ⟨(randints rng K (K + 1) u.1).1, ((randints rng K (K + 1) u.1).2, u.2),
    (PyM.run_bind_ok (Rng.run_draw _ u)).trans ?_⟩
  rw [PyM.run_lift, take_dataOf]

theorem replicate_inv (rng : Rng S) (X : Option (Matrix (Fin M) (Fin m) ℝ)) (f : Option (Fin M → ℝ))
    (df : Option (Matrix (Fin M) (Fin m) ℝ)) (w : Fin M → ℝ) (u u' : S × E) (d0 : Data)
    (h : (bootstrap_replicate rng (dataOf X f df w)).run u = (.ok d0, u')) :
    ∃ ind : Fin M → Fin M, d0 = dataOf (X.map fun X => X.submatrix ind id) (f.map fun f => f ∘ ind)
      (df.map fun X => X.submatrix ind id) (w ∘ ind) := by
  rcases Nat.eq_zero_or_pos M with h0 | hM
  · subst h0
    exact absurd (congrArg Prod.fst h) (by unfold bootstrap_replicate; simp [dataOf, wcol])
  · obtain ⟨ind, u1, h1⟩ := replicate_ok rng X f df w hM u
    rw [h1] at h
    exact ⟨ind, (Except.ok.inj (Prod.mk.inj h).1).symm⟩

theorem estimate_eq (lib : Model.Subspaces.Lib) (rng : Rng S) (t : SS) (X : Option (Matrix (Fin M) (Fin m) ℝ))
    (f : Option (Fin M → ℝ)) (df : Option (Matrix (Fin M) (Fin m) ℝ)) (w : Fin M → ℝ) :
    (ssCall lib rng t (dataOf X f df w).X (dataOf X f df w).f ((dataOf X f df w).df.map .mat) (dataOf X f df w).weights
      : PyM (S × E) EigPair) = estimate lib rng t X f df w := by
  unfold estimate dataOf
  simp only [Option.map_map]
  rfl

end Proofs.Bootstrap
