import Verif.Model.GradientsArr
import Verif.Props.LocalWeights

/-!
# Property C128: `local_linear_gradients` and arrays that do not match
-/

open Py Proofs.SimRunners

namespace Props

open Model.Gradients (Lib PArg neighbours checkP numModels)
open Model.GradientsArr (Weights)

variable {W : Type} {M m : ℕ}

/-- `f` is an array of at least as many outputs as there are inputs, and `x` are the first ones. -/
inductive OutputsFor (M : ℕ) : Arr → (Fin M → ℝ) → Prop
  | vec {n : ℕ} (h : M ≤ n) (y : Fin n → ℝ) : OutputsFor M (.vec n y) fun i => y (Fin.castLE h i)
  | col {n : ℕ} (h : M ≤ n) (y : Matrix (Fin n) (Fin 1) ℝ) : OutputsFor M (.mat (.of y)) fun i => y (Fin.castLE h i) 0

/-- The same for the weights; the default is `1/M`. -/
inductive WeightsFor (M : ℕ) : Weights → (Fin M → ℝ) → Prop
  | none : WeightsFor M .none fun _ => 1 / M
  | vec {n : ℕ} (h : M ≤ n) (y : Fin n → ℝ) : WeightsFor M (.vec n y) fun i => y (Fin.castLE h i)
  | col {n : ℕ} (h : M ≤ n) (y : Matrix (Fin n) (Fin 1) ℝ) : WeightsFor M (.mat (.of y)) fun i => y (Fin.castLE h i) 0

theorem WeightsFor.root {wts : Weights} {u : Fin M → ℝ} (h : WeightsFor M wts u) (ii : Fin M) :
    wts.root M ii = .ok ⟨1, fun _ => Real.sqrt (u ii)⟩ := by
  cases h with
  | none => rfl
  | vec h y => exact dif_pos (lt_of_lt_of_le ii.2 h)
  | col h y =>
    refine (dif_pos (show (ii : ℕ) < (NpMat.of y).rows from lt_of_lt_of_le ii.2 h)).trans ?_
    congr 2
    funext (j : Fin 1)
    obtain rfl : j = 0 := Subsingleton.elim _ _
    rfl

theorem OutputsFor.target {f : Arr} {x : Fin M → ℝ} (h : OutputsFor M f x) {p : ℕ} (s : Fin p → Fin M) (c : ℝ) :
    Model.GradientsArr.target f s ⟨1, fun _ => c⟩ = .ok fun k => x (s k) * c := by
  cases h with
  | vec h y => exact (dif_pos (fun k => lt_of_lt_of_le (s k).2 h)).trans (dif_pos rfl)
  | col h y =>
    exact (dif_pos (show ∀ k, (s k : ℕ) < (NpMat.of y).rows from fun k => lt_of_lt_of_le (s k).2 h)).trans
      (dif_pos (show 1 = 1 ∧ (NpMat.of y).cols = 1 from ⟨rfl, rfl⟩))

/-- What one model does with such arrays. -/
theorem localModel_for (lib : Lib) (X : Matrix (Fin M) (Fin m) ℝ) {f : Arr} {x : Fin M → ℝ} (hf : OutputsFor M f x) {wts : Weights}
    {u : Fin M → ℝ} (hw : WeightsFor M wts u) (p : ℕ) (ii : Fin M) :
    Model.GradientsArr.localModel lib X f wts p ii = Model.Gradients.localModel lib X x u p ii := by
  unfold Model.GradientsArr.localModel Model.Gradients.localModel
  dsimp only
  split_ifs with h
  · rw [hw.root ii]
    change (do
      let A ← Model.GradientsArr.scale (Np.hstack (Np.ones p 1) (X.submatrix (fun k => (neighbours lib X ii p).get (k.cast h.symm)) id))
        ⟨1, fun _ => Real.sqrt (u ii)⟩
      let b ← Model.GradientsArr.target f (fun k => (neighbours lib X ii p).get (k.cast h.symm)) ⟨1, fun _ => Real.sqrt (u ii)⟩
      return fun j => lib.lstsq A b (Fin.natAdd 1 j)) = _
    rw [hf.target]
    rfl
  · rfl

theorem localLoop_for (lib : Lib) (r : PyM W (Fin M)) (X : Matrix (Fin M) (Fin m) ℝ) {f : Arr} {x : Fin M → ℝ} (hf : OutputsFor M f x)
    {wts : Weights} {u : Fin M → ℝ} (hw : WeightsFor M wts u) (p MM : ℕ) :
    Model.GradientsArr.localLoop lib r X f wts p MM = Model.Gradients.localLoop lib r X x u p MM := by
  unfold Model.GradientsArr.localLoop Model.Gradients.localLoop
  simp only [localModel_for lib X hf hw]

theorem gradients_for (lib : Lib) (r : (M : ℕ) → PyM W (Fin M)) (X : Matrix (Fin M) (Fin m) ℝ) {f : Arr} {x : Fin M → ℝ}
    (hf : OutputsFor M f x) {wts : Weights} {u : Fin M → ℝ} (hw : WeightsFor M wts u) (p : PArg) :
    Model.GradientsArr.local_linear_gradients lib r (.mat (.of X)) f p wts =
      (Model.Gradients.local_linear_gradients lib (r M) X x p (some u) >>= fun D => pure (NpMat.of D)) := by
  unfold Model.GradientsArr.local_linear_gradients Model.Gradients.local_linear_gradients
  change (match checkP M m p with
    | .error e => PyM.raise e
    | .ok p => do
      let df ← Model.GradientsArr.localLoop lib (r M) X f wts p (numModels M m)
      return NpMat.of df) = _
  cases checkP M m p with
  | error e => rfl
  | ok p =>
    dsimp only
    rw [localLoop_for lib (r M) X hf hw]
    rfl

/-- C128, the part that holds: `M` outputs, as a vector or a column, and `M` weights, as a vector or a column, or none, are used as
documented; the result is that of C12 to C14. -/
theorem C128_matches_partial (lib : Lib) (r : (M : ℕ) → PyM W (Fin M)) (X : Matrix (Fin M) (Fin m) ℝ) (x u : Fin M → ℝ) (p : PArg)
    {f : Arr} (hf : f = .vec M x ∨ f = .mat (.of (Matrix.of fun i (_ : Fin 1) => x i))) :
    (∀ wts : Weights, wts = .vec M u ∨ wts = .mat (.of (Matrix.of fun i (_ : Fin 1) => u i)) →
      Model.GradientsArr.local_linear_gradients lib r (.mat (.of X)) f p wts =
        (Model.Gradients.local_linear_gradients lib (r M) X x p (some u) >>= fun D => pure (NpMat.of D))) ∧
    Model.GradientsArr.local_linear_gradients lib r (.mat (.of X)) f p .none =
      (Model.Gradients.local_linear_gradients lib (r M) X x p none >>= fun D => pure (NpMat.of D)) := by
  have h1 : OutputsFor M f x := by
    rcases hf with rfl | rfl
    · exact .vec le_rfl x
    · exact .col le_rfl _
  refine ⟨fun wts hw => ?_, gradients_for lib r X h1 .none p⟩
  have h2 : WeightsFor M wts u := by
    rcases hw with rfl | rfl
    · exact .vec le_rfl u
    · exact .col le_rfl _
  exact gradients_for lib r X h1 h2 p

/-- C128 fails: outputs and weights in excess are ignored without a complaint, for all inputs, draws and `p`. -/
theorem C128_extra_ignored (lib : Lib) (r : (M : ℕ) → PyM W (Fin M)) (X : Matrix (Fin M) (Fin m) ℝ) (p : PArg) {n l : ℕ} (hn : M ≤ n)
    (hl : M ≤ l) (y : Fin n → ℝ) (u : Fin l → ℝ) :
    Model.GradientsArr.local_linear_gradients lib r (.mat (.of X)) (.vec n y) p (.vec l u) =
      Model.GradientsArr.local_linear_gradients lib r (.mat (.of X)) (.vec M fun i => y (Fin.castLE hn i)) p (.vec M fun i => u (Fin.castLE hl i)) ∧
    Model.GradientsArr.local_linear_gradients lib r (.mat (.of X)) (.mat (.of (Matrix.of fun i (_ : Fin 1) => y i))) p
        (.mat (.of (Matrix.of fun i (_ : Fin 1) => u i))) =
      Model.GradientsArr.local_linear_gradients lib r (.mat (.of X)) (.vec M fun i => y (Fin.castLE hn i)) p (.vec M fun i => u (Fin.castLE hl i)) := by
  have h0 := gradients_for lib r X (.vec le_rfl fun i : Fin M => y (Fin.castLE hn i)) (.vec le_rfl fun i : Fin M => u (Fin.castLE hl i)) p
  constructor
  · rw [gradients_for lib r X (.vec hn y) (.vec hl u) p]
    exact h0.symm
  · rw [gradients_for lib r X (.col hn _) (.col hl _) p]
    exact h0.symm

/-! ## Loops on arrays -/

theorem arrLoop_ok {lib : Lib} {randint : PyM W (Fin M)} {X : Matrix (Fin M) (Fin m) ℝ} {f : Arr} {wts : Weights} {p : ℕ} (MM : ℕ)
    (h : ∀ w, ∃ ii w', randint.run w = (.ok ii, w') ∧ ∃ g, Model.GradientsArr.localModel lib X f wts p ii = .ok g) (w : W) :
    ∃ df w', (Model.GradientsArr.localLoop lib randint X f wts p MM).run w = (.ok df, w') := by
  unfold Model.GradientsArr.localLoop
  generalize Np.zeros MM m = D
  induction List.finRange MM generalizing D w with
  | nil => exact ⟨D, w, rfl⟩
  | cons i l ih =>
    obtain ⟨ii, w', h1, g, h2⟩ := h w
    obtain ⟨df, w2, h3⟩ := ih w' (Matrix.updateRow D i g)
    refine ⟨df, w2, ?_⟩
    rw [List.foldlM_cons, PyM.run_bind_ok (a := Matrix.updateRow D i g) (w' := w')]
    · exact h3
    · rw [PyM.run_bind_ok h1, h2]
      rfl

theorem arrLoop_fail {lib : Lib} {randint : PyM W (Fin M)} {X : Matrix (Fin M) (Fin m) ℝ} {f : Arr} {wts : Weights} {p : ℕ} {MM : ℕ}
    (hMM : MM ≠ 0) {e : Err} (w : W)
    (h : ∃ ii w', randint.run w = (.ok ii, w') ∧ Model.GradientsArr.localModel lib X f wts p ii = .error e) :
    ∃ w', (Model.GradientsArr.localLoop lib randint X f wts p MM).run w = (.error e, w') := by
  unfold Model.GradientsArr.localLoop
  obtain ⟨k, rfl⟩ := Nat.exists_eq_succ_of_ne_zero hMM
  obtain ⟨ii, w', h1, h2⟩ := h
  refine ⟨w', ?_⟩
  rw [List.finRange_succ, List.foldlM_cons]
  refine PyM.run_bind_error ?_
  rw [PyM.run_bind_ok h1, h2]
  rfl

theorem arr_run {lib : Lib} {r : (M : ℕ) → PyM W (Fin M)} {X : Matrix (Fin M) (Fin m) ℝ} {f : Arr} {wts : Weights} {p : ℕ}
    (hp1 : m + 1 ≤ p) (hp2 : p ≤ M) :
    Model.GradientsArr.local_linear_gradients lib r (.mat (.of X)) f (.int p) wts =
      (Model.GradientsArr.localLoop lib (r M) X f wts p (numModels M m) >>= fun D => pure (NpMat.of D)) := by
  unfold Model.GradientsArr.local_linear_gradients
  change (match checkP M m (.int p) with
    | .error e => PyM.raise e
    | .ok p => do
      let df ← Model.GradientsArr.localLoop lib (r M) X f wts p (numModels M m)
      return NpMat.of df) = _
  rw [checkP_ok hp1 hp2]

/-! ## Too few outputs -/

/-- One model with `n` outputs returns if and only if all neighbours have one. -/
theorem localModel_short (lib : Lib) {X : Matrix (Fin M) (Fin m) ℝ} (hX : Function.Injective fun i => X i) {n : ℕ} (y : Fin n → ℝ) {p : ℕ}
    (hp : p < M) (ii : Fin M) :
    ((∀ k ∈ neighbours lib X ii p, (k : ℕ) < n) → ∃ g, Model.GradientsArr.localModel lib X (.vec n y) .none p ii = .ok g) ∧
    ((∃ k ∈ neighbours lib X ii p, n ≤ (k : ℕ)) → Model.GradientsArr.localModel lib X (.vec n y) .none p ii = .error .indexError) := by
  have hlen := length_neighbours_distinct lib hX ii p hp
  unfold Model.GradientsArr.localModel
  dsimp only
  rw [dif_pos hlen]
  constructor
  · intro h
    have : Model.GradientsArr.target (.vec n y) (fun k => (neighbours lib X ii p).get (k.cast hlen.symm)) ⟨1, fun _ => Real.sqrt (1 / M)⟩ = .ok _ :=
      (dif_pos (fun k => h _ (List.get_mem _ _))).trans (dif_pos rfl)
    change ∃ g, (do
      let b ← Model.GradientsArr.target (.vec n y) (fun k => (neighbours lib X ii p).get (k.cast hlen.symm)) ⟨1, fun _ => Real.sqrt (1 / M)⟩
      return fun j => lib.lstsq (Real.sqrt (1 / M) • Np.hstack (Np.ones p 1) (X.submatrix (fun k => (neighbours lib X ii p).get (k.cast hlen.symm)) id))
        b (Fin.natAdd 1 j)) = .ok g
    rw [this]
    exact ⟨_, rfl⟩
  · rintro ⟨k, hk, hkn⟩
    have : Model.GradientsArr.target (.vec n y) (fun k => (neighbours lib X ii p).get (k.cast hlen.symm)) ⟨1, fun _ => Real.sqrt (1 / M)⟩
        = .error .indexError := by
      refine dif_neg fun h => ?_
      obtain ⟨i, hi, rfl⟩ := List.getElem_of_mem hk
      have := h ⟨i, by omega⟩
      simp only [List.get_eq_getElem, Fin.val_cast] at this
      omega
    change (do
      let b ← Model.GradientsArr.target (.vec n y) (fun k => (neighbours lib X ii p).get (k.cast hlen.symm)) ⟨1, fun _ => Real.sqrt (1 / M)⟩
      _) = _
    rw [this]
    rfl

/-- C128 fails: with one output too few the call returns or raises, depending on the draws.  If the generator always draws row 0 and
the last row is farther from it than all others, it returns; if the first draw is the last row, it raises `IndexError`. -/
theorem C128_short (lib : Lib) (hlib : LibOK lib) (r : (M : ℕ) → PyM W (Fin M)) {n : ℕ} (X : Matrix (Fin (n + 2)) (Fin m) ℝ)
    (hX : Function.Injective fun i => X i) (y : Fin (n + 1) → ℝ) {p : ℕ} (hm : 2 ≤ m) (hp1 : m + 1 ≤ p) (hp2 : p ≤ n) (w : W) :
    ((∀ w, ∃ w', (r (n + 2)).run w = (.ok 0, w')) →
      (∀ i : Fin (n + 2), i ≠ Fin.last (n + 1) → ∑ j, (X i j - X 0 j) ^ 2 < ∑ j, (X (Fin.last (n + 1)) j - X 0 j) ^ 2) →
      ∃ D w', (Model.GradientsArr.local_linear_gradients lib r (.mat (.of X)) (.vec (n + 1) y) (.int p) .none).run w = (.ok D, w')) ∧
    ((∃ w', (r (n + 2)).run w = (.ok (Fin.last (n + 1)), w')) →
      ∃ w', (Model.GradientsArr.local_linear_gradients lib r (.mat (.of X)) (.vec (n + 1) y) (.int p) .none).run w
        = (.error .indexError, w')) := by
  rw [arr_run hp1 (by omega)]
  constructor
  · intro hr hfar
    obtain ⟨df, w', h⟩ := arrLoop_ok (lib := lib) (randint := r (n + 2)) (X := X) (f := .vec (n + 1) y) (wts := .none) (p := p)
      (numModels (n + 2) m) (fun w => by
        obtain ⟨w', h⟩ := hr w
        refine ⟨0, w', h, (localModel_short lib hX y (by omega) 0).1 fun k hk => ?_⟩
        obtain ⟨h0, hcard, hnear⟩ := C13_nearest_others_partial lib hlib X hX 0 rfl p (by omega)
        by_contra hkn
        have hkl : k = Fin.last (n + 1) := Fin.ext (by simp; omega)
        subst hkl
        -- some other row is not among the neighbours
        obtain ⟨b, hb⟩ : ∃ b, b ∉ insert (0 : Fin (n + 2)) (neighbours lib X 0 p).toFinset := by
          by_contra hall
          push Not at hall
          have h1 := Finset.card_le_card (fun b _ => hall b : Finset.univ ⊆ insert (0 : Fin (n + 2)) (neighbours lib X 0 p).toFinset)
          have h2 := Finset.card_insert_le (0 : Fin (n + 2)) (neighbours lib X 0 p).toFinset
          rw [Finset.card_univ, Fintype.card_fin] at h1
          omega
        rw [Finset.mem_insert, not_or] at hb
        have h1 := hnear _ (List.mem_toFinset.mpr hk) b hb.2 hb.1
        have h2 := hfar b (fun h => hb.2 (by rw [h]; exact List.mem_toFinset.mpr hk))
        linarith) w
    exact ⟨NpMat.of df, w', by rw [PyM.run_bind_ok h]; rfl⟩
  · rintro ⟨w1, hr⟩
    obtain ⟨w', h⟩ := arrLoop_fail (lib := lib) (randint := r (n + 2)) (X := X) (f := .vec (n + 1) y) (wts := .none) (p := p)
      (numModels_pos hm (by omega : m < n + 2)) w ⟨_, w1, hr, (localModel_short lib hX y (by omega) _).2
        ⟨_, C13_centre_included lib hlib X hX (Fin.last (n + 1)) (by simp) p (by omega), by simp⟩⟩
    exact ⟨w', PyM.run_bind_error h⟩

/-! ## Outputs of another shape -/

/-- C128: outputs with several columns (and at least as many rows as there are inputs) raise `ValueError`, three-dimensional ones
`LinAlgError`, a number `IndexError` - but only if there are two inputs or more. -/
theorem C128_shapes (lib : Lib) (r : (M : ℕ) → PyM W (Fin M)) (hr : RandintOK (r M)) (X : Matrix (Fin M) (Fin m) ℝ)
    (hX : Function.Injective fun i => X i) {p : ℕ} (hm : 2 ≤ m) (hp1 : m + 1 ≤ p) (hp2 : p < M) {wts : Weights} {u : Fin M → ℝ}
    (hw : WeightsFor M wts u) (w : W) :
    (∀ {n c : ℕ} (Y : Matrix (Fin n) (Fin c) ℝ), M ≤ n → c ≠ 1 →
      ∃ w', (Model.GradientsArr.local_linear_gradients lib r (.mat (.of X)) (.mat (.of Y)) (.int p) wts).run w = (.error .valueError, w')) ∧
    (∀ a b c l d, M ≤ a →
      ∃ w', (Model.GradientsArr.local_linear_gradients lib r (.mat (.of X)) (.nd a b c l d) (.int p) wts).run w = (.error .linAlgError, w')) ∧
    ∀ y, ∃ w', (Model.GradientsArr.local_linear_gradients lib r (.mat (.of X)) (.scalar y) (.int p) wts).run w = (.error .indexError, w') := by
  have main : ∀ (f : Arr) (e : Err), (∀ (s : Fin p → Fin M) (c : ℝ), Model.GradientsArr.target f s ⟨1, fun _ => c⟩ = .error e) →
      ∃ w', (Model.GradientsArr.local_linear_gradients lib r (.mat (.of X)) f (.int p) wts).run w = (.error e, w') := by
    intro f e hf
    rw [arr_run hp1 hp2.le]
    obtain ⟨ii, w1, h1⟩ := hr w
    obtain ⟨w', h⟩ := arrLoop_fail (lib := lib) (randint := r M) (X := X) (f := f) (wts := wts) (p := p)
      (numModels_pos hm (by omega : m < M)) (e := e) w ⟨ii, w1, h1, by
        have hlen := length_neighbours_distinct lib hX ii p hp2
        unfold Model.GradientsArr.localModel
        dsimp only
        rw [dif_pos hlen, hw.root ii]
        change (do
          let b ← Model.GradientsArr.target f (fun k => (neighbours lib X ii p).get (k.cast hlen.symm)) ⟨1, fun _ => Real.sqrt (u ii)⟩
          _) = _
        rw [hf]
        rfl⟩
    exact ⟨w', PyM.run_bind_error h⟩
  refine ⟨fun {n c} Y hn hc => main _ _ fun s t => ?_, fun a b c l d ha => main _ _ fun s t => ?_, fun y => main _ _ fun s t => rfl⟩
  · exact (dif_pos (show ∀ k, (s k : ℕ) < (NpMat.of Y).rows from fun k => lt_of_lt_of_le (s k).2 hn)).trans (dif_neg fun h => hc h.2)
  · exact if_pos fun k => lt_of_lt_of_le (s k).2 ha

/-- C128 fails: with one input no outputs and no weights are looked at; the call returns an array without rows whatever they are. -/
theorem C128_one_input (lib : Lib) (r : (M : ℕ) → PyM W (Fin M)) (X : Matrix (Fin M) (Fin 1) ℝ) (f : Arr) (wts : Weights) {p : ℕ}
    (hp1 : 2 ≤ p) (hp2 : p ≤ M) (w : W) :
    (Model.GradientsArr.local_linear_gradients lib r (.mat (.of X)) f (.int p) wts).run w
      = (.ok (NpMat.of (Matrix.of fun (i : Fin 0) (_ : Fin 1) => i.elim0)), w) := by
  rw [arr_run hp1 hp2]
  have h0 : numModels M 1 = 0 := by simp [numModels]
  generalize numModels M 1 = MM at h0
  subst h0
  change (Except.ok (NpMat.of _), w) = _
  congr 4
  ext i
  exact i.elim0

/-- C128 fails: weights with `m + 1` columns in place of one are accepted with one-dimensional outputs and `p = m + 1`. -/
theorem C128_wide_weights (lib : Lib) (r : (M : ℕ) → PyM W (Fin M)) (hr : RandintOK (r M)) (X : Matrix (Fin M) (Fin m) ℝ)
    (hX : Function.Injective fun i => X i) (hM : m + 1 < M) (y : Fin M → ℝ) (u : Matrix (Fin M) (Fin (1 + m)) ℝ) (w : W) :
    ∃ D w', (Model.GradientsArr.local_linear_gradients lib r (.mat (.of X)) (.vec M y) (.int ((m + 1 : ℕ) : ℤ)) (.mat (.of u))).run w = (.ok D, w') := by
  rw [arr_run le_rfl hM.le]
  obtain ⟨df, w', h⟩ := arrLoop_ok (lib := lib) (randint := r M) (X := X) (f := .vec M y) (wts := .mat (.of u)) (p := m + 1)
    (numModels M m) (fun w => by
      obtain ⟨ii, w', h⟩ := hr w
      refine ⟨ii, w', h, ?_⟩
      have hlen := length_neighbours_distinct lib hX ii (m + 1) hM
      unfold Model.GradientsArr.localModel
      dsimp only
      rw [dif_pos hlen]
      have h1 : (Weights.mat (.of u)).root M ii = .ok ⟨1 + m, fun j => Real.sqrt (u ii j)⟩ := dif_pos ii.2
      have h2 : ∀ A : Matrix (Fin (m + 1)) (Fin (1 + m)) ℝ, ∃ A', Model.GradientsArr.scale A ⟨1 + m, fun j => Real.sqrt (u ii j)⟩ = .ok A' := by
        intro A
        unfold Model.GradientsArr.scale
        split_ifs with a b
        · exact ⟨_, rfl⟩
        · exact ⟨_, rfl⟩
        · exact absurd rfl b
      have h3 : ∀ s : Fin (m + 1) → Fin M, ∃ b, Model.GradientsArr.target (.vec M y) s ⟨1 + m, fun j => Real.sqrt (u ii j)⟩ = .ok b := by
        intro s
        unfold Model.GradientsArr.target
        dsimp only
        rw [dif_pos fun k => (s k).2]
        split_ifs with a b
        · exact ⟨_, rfl⟩
        · exact ⟨_, rfl⟩
        · exact absurd (Nat.add_comm 1 m) b
      rw [h1]
      obtain ⟨A', h2⟩ := h2 (Np.hstack (Np.ones (m + 1) 1) (X.submatrix (fun k => (neighbours lib X ii (m + 1)).get (k.cast hlen.symm)) id))
      obtain ⟨b, h3⟩ := h3 fun k => (neighbours lib X ii (m + 1)).get (k.cast hlen.symm)
      change ∃ g, (do
        let A ← Model.GradientsArr.scale (Np.hstack (Np.ones (m + 1) 1) (X.submatrix (fun k => (neighbours lib X ii (m + 1)).get (k.cast hlen.symm)) id))
          ⟨1 + m, fun j => Real.sqrt (u ii j)⟩
        let b ← Model.GradientsArr.target (.vec M y) (fun k => (neighbours lib X ii (m + 1)).get (k.cast hlen.symm)) ⟨1 + m, fun j => Real.sqrt (u ii j)⟩
        return fun j => lib.lstsq A b (Fin.natAdd 1 j)) = .ok g
      rw [h2, h3]
      exact ⟨_, rfl⟩) w
  exact ⟨NpMat.of df, w', by rw [PyM.run_bind_ok h]; rfl⟩

/-- C128: inputs that are not two-dimensional raise `ValueError`. -/
theorem C128_inputs (lib : Lib) (r : (M : ℕ) → PyM W (Fin M)) (X f : Arr) (hX : X.ndim ≠ 2) (p : PArg) (wts : Weights) (w : W) :
    (Model.GradientsArr.local_linear_gradients lib r X f p wts).run w = (.error .valueError, w) := by
  cases X with
  | mat A => exact absurd rfl hX
  | scalar x => rfl
  | vec n x => rfl
  | nd a b c r d => rfl

/-- Five points in the plane, the last one far away: with four outputs the call returns for one generator and raises for another. -/
example (lib : Lib) (hlib : LibOK lib) (y : Fin 4 → ℝ) : ∃ X : Matrix (Fin 5) (Fin 2) ℝ,
    (∃ D, (Model.GradientsArr.local_linear_gradients lib (fun n => if h : 0 < n then (pure ⟨0, h⟩ : PyM Unit (Fin n)) else PyM.raise .valueError)
      (.mat (.of X)) (.vec 4 y) (.int 3) .none).run () = (.ok D, ())) ∧
    (Model.GradientsArr.local_linear_gradients lib (fun n => if h : 4 < n then (pure ⟨4, h⟩ : PyM Unit (Fin n)) else PyM.raise .valueError)
      (.mat (.of X)) (.vec 4 y) (.int 3) .none).run () = (.error .indexError, ()) := by
  refine ⟨!![0, 0; 1, 0; 0, 1; 1, 1; 9, 9], ?_, ?_⟩
  · obtain ⟨D, w', h⟩ := (C128_short lib hlib (fun n => if h : 0 < n then (pure ⟨0, h⟩ : PyM Unit (Fin n)) else PyM.raise .valueError) (n := 3)
      !![0, 0; 1, 0; 0, 1; 1, 1; 9, 9] (by
        intro i j h
        have h0 := congrFun h 0
        have h1 := congrFun h 1
        fin_cases i <;> fin_cases j <;> simp_all) y (p := 3) le_rfl le_rfl le_rfl ()).1 (fun w => ⟨w, rfl⟩) (by
        intro i hi
        fin_cases i <;> simp [Fin.sum_univ_two] at hi ⊢ <;> norm_num)
    exact ⟨D, h⟩
  · obtain ⟨w', h⟩ := (C128_short lib hlib (fun n => if h : 4 < n then (pure ⟨4, h⟩ : PyM Unit (Fin n)) else PyM.raise .valueError) (n := 3)
      !![0, 0; 1, 0; 0, 1; 1, 1; 9, 9] (by
        intro i j h
        have h0 := congrFun h 0
        have h1 := congrFun h 1
        fin_cases i <;> fin_cases j <;> simp_all) y (p := 3) le_rfl le_rfl le_rfl ()).2 ⟨(), rfl⟩
    exact h

/-- Matching weights. -/
example (u : Fin M → ℝ) : WeightsFor M (.vec M u) u := .vec le_rfl u

end Props
