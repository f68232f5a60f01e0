import Verif.Props.Compute

/-!
# Properties C42, C43 (where they fail), C43 and C72 for `OPG`
-/

open Py Model.Subspaces Model.Misc Spec Matrix Proofs.Eigh Proofs.Bootstrap

namespace Props

variable {S E : Type} {M m : ℕ}

/-! ## C42 fails -/

/-- An unknown partition type is noticed only after the eigenpairs have been stored. -/
theorem compute_unknown_ptype {lib : Model.Subspaces.Lib} (hl : SubLibOK lib) (rng : Rng S)
    (X : Option (Matrix (Fin M) (Fin m) ℝ)) (f : Option (Fin M → ℝ)) (df : Option (Matrix (Fin M) (Fin m) ℝ))
    (weights : Option (Fin M → ℝ)) (h : X ≠ none ∨ df ≠ none) (sstype ptype : String) (t : SS)
    (ht : SS.ofString sstype = some t) (w w1 : S × Subspaces) (p : EigPair)
    (hest : (estimate lib rng t X f df (weightsOf weights)).run w = (.ok p, w1)) (hp : ptype ∉ ["EVG", "RS", "LI"]) :
    (computeOn lib rng X f df weights sstype ptype 0).run w
      = (.error .exception, (w1.1, withBoot none (withEig p w1.2))) := by
  obtain ⟨e, V, rfl, -⟩ := estimate_good hl rng t _ _ _ _ hest
  simp only [List.mem_cons, List.not_mem_nil, or_false, not_or] at hp
  unfold computeOn compute
  rw [PyM.run_bind_ok (lift_of (checkInputs_of X df h) w)]
  simp only [getD_weights]
  rw [ht]
  simp only
  have hest' : (ssCall lib rng t (X.map NpMat.of) (f.map fun f => .mat (wcol f)) (df.map fun X => .mat (NpMat.of X))
    (wcol (weightsOf weights))).run w = (.ok ⟨m, e, V⟩, w1) := hest
  rw [PyM.run_bind_ok hest']
  rw [PyM.run_bind_ok (show (modifyObj (withEig ⟨m, e, V⟩)).run w1 = (.ok (), (w1.1, withEig ⟨m, e, V⟩ w1.2)) from rfl)]
  unfold bootStep
  rw [if_neg (by norm_num), if_neg (by tauto)]
  rw [PyM.run_bind_ok (show (pure none : PyM (S × Subspaces) (Option BootRes)).run _ = (.ok none, _) from rfl)]
  rw [PyM.run_bind_ok (show (modifyObj (withBoot none)).run (w1.1, withEig ⟨m, e, V⟩ w1.2)
    = (.ok (), (w1.1, withBoot none (withEig ⟨m, e, V⟩ w1.2))) from rfl)]
  have hc : chooseDim ptype ⟨m, e, V⟩ m none = .error .exception := by
    unfold chooseDim
    rw [if_neg hp.1, if_neg hp.2.1, if_neg hp.2.2]
  rw [PyM.run_bind_error (lift_of hc _)]

theorem diag_first {a b : ℝ} (hab : b < a) {e : Fin 2 → ℝ} {W : Matrix (Fin 2) (Fin 2) ℝ}
    (h : IsSortedEigh !![a, 0; 0, b] e W) : W 1 0 = 0 ∧ W 0 0 ≠ 0 := by
  have h0 := fun j => congrFun (h.vec j) 0
  have h1 := fun j => congrFun (h.vec j) 1
  simp only [Matrix.mulVec, dotProduct, Fin.sum_univ_two, Matrix.of_apply, Matrix.cons_val_zero, Matrix.cons_val_one, zero_mul,
    add_zero, zero_add, Pi.smul_apply, smul_eq_mul, Matrix.cons_val', Matrix.cons_val_fin_one] at h0 h1
  have o00 := h.orth 0 0
  have o01 := h.orth 0 1
  have o11 := h.orth 1 1
  simp only [Fin.sum_univ_two, if_true, Fin.isValue, zero_ne_one, if_false] at o00 o01 o11
  have han := h.anti (show (0 : Fin 2) ≤ 1 by decide)
  have key : W 1 0 = 0 := by
    by_contra hne
    have e0 : e 0 = b := by
      have := h1 0
      exact mul_right_cancel₀ hne this.symm
    have w00 : W 0 0 = 0 := by
      have := h0 0
      rw [e0] at this
      have h2 : (a - b) * W 0 0 = 0 := by linarith
      exact (mul_eq_zero.mp h2).resolve_left (by linarith)
    have w11 : W 1 1 = 0 := by
      rw [w00, zero_mul, zero_add] at o01
      exact (mul_eq_zero.mp o01).resolve_left hne
    have w01 : W 0 1 ≠ 0 := by
      intro hz
      rw [hz, w11] at o11
      norm_num at o11
    have e1 : e 1 = a := mul_right_cancel₀ w01 (h0 1).symm
    linarith
  refine ⟨key, fun hz => ?_⟩
  rw [key, hz] at o00
  norm_num at o00

theorem diag_second {a b : ℝ} (hab : a < b) {e : Fin 2 → ℝ} {W : Matrix (Fin 2) (Fin 2) ℝ}
    (h : IsSortedEigh !![a, 0; 0, b] e W) : W 0 0 = 0 := by
  have h0 := fun j => congrFun (h.vec j) 0
  have h1 := fun j => congrFun (h.vec j) 1
  simp only [Matrix.mulVec, dotProduct, Fin.sum_univ_two, Matrix.of_apply, Matrix.cons_val_zero, Matrix.cons_val_one, zero_mul,
    add_zero, zero_add, Pi.smul_apply, smul_eq_mul, Matrix.cons_val', Matrix.cons_val_fin_one] at h0 h1
  have o01 := h.orth 0 1
  have o11 := h.orth 1 1
  simp only [Fin.sum_univ_two, if_true, Fin.isValue, zero_ne_one, if_false] at o01 o11
  have han := h.anti (show (0 : Fin 2) ≤ 1 by decide)
  by_contra hne
  have e0 : e 0 = a := mul_right_cancel₀ hne (h0 0).symm
  have w10 : W 1 0 = 0 := by
    have := h1 0
    rw [e0] at this
    have h2 : (b - a) * W 1 0 = 0 := by linarith
    exact (mul_eq_zero.mp h2).resolve_left (by linarith)
  have w01 : W 0 1 = 0 := by
    rw [w10, zero_mul, add_zero] at o01
    exact (mul_eq_zero.mp o01).resolve_left hne
  have w11 : W 1 1 ≠ 0 := by
    intro hz
    rw [hz, w01] at o11
    norm_num at o11
  have e1 : e 1 = b := mul_right_cancel₀ w11 (h1 1).symm
  linarith

theorem gradOuter_diag (x y : ℝ) : gradOuter !![x, 0; 0, y] (weightsOf (M := 2) none) = !![x ^ 2 / 2, 0; 0, y ^ 2 / 2] := by
  ext k l
  simp only [gradOuter, weightsOf, Option.getD_none, Matrix.of_apply, Fin.sum_univ_two]
  fin_cases k <;> fin_cases l <;> simp <;> ring

theorem estimate_diag {lib : Model.Subspaces.Lib} (hl : SubLibOK lib) (rng : Rng S) (x y : ℝ) (w : S × E) :
    ∃ (e : Fin 2 → ℝ) (V : Matrix (Fin 2) (Fin 2) ℝ),
      (estimate lib rng .AS none none (some !![x, 0; 0, y]) (weightsOf (M := 2) none)).run w = (.ok ⟨2, e, V⟩, w) ∧
      IsSortedEigh !![x ^ 2 / 2, 0; 0, y ^ 2 / 2] e V := by
  obtain ⟨e, V, h1, h2, -⟩ := C35_active_subspace lib hl (by norm_num) (!![x, 0; 0, y] : Matrix (Fin 2) (Fin 2) ℝ)
    (weightsOf none) (fun i => by simp [weightsOf])
  rw [gradOuter_diag] at h2
  refine ⟨e, V, ?_, h2⟩
  change (active_subspace lib (.mat (NpMat.of !![x, 0; 0, y])) (wcol (weightsOf none)), w) = _
  rw [h1]

/-- C42 fails: a second `compute` with a misspelt partition type raises, but leaves the object with the new eigenvectors next
to the old `W1` and `W2`. -/
theorem C42_fails {lib : Model.Subspaces.Lib} (hl : SubLibOK lib) (rng : Rng S) (st : S) :
    ∃ w1 w2 : S × Subspaces,
      (computeOn lib rng none none (some (!![2, 0; 0, 1] : Matrix (Fin 2) (Fin 2) ℝ)) none "AS" "EVG" 0).run (st, {}) = (.ok (), w1) ∧
      (computeOn lib rng none none (some (!![1, 0; 0, 2] : Matrix (Fin 2) (Fin 2) ℝ)) none "AS" "EGV" 0).run w1
        = (.error .exception, w2) ∧ w2.2.W1 ≠ none ∧ ¬ IsSplit w2.2 := by
  obtain ⟨e, V, h1, h2⟩ := estimate_diag hl rng 2 1 (st, ({} : Subspaces))
  obtain ⟨e0, V0, w1, hp, h3, h4, -, h5, -⟩ := compute_ok hl rng (by norm_num) (by norm_num) none none
    (some (!![2, 0; 0, 1] : Matrix (Fin 2) (Fin 2) ℝ)) none (.inr (by simp)) "AS" "EVG" .AS rfl 0 (st, {}) (st, {}) _ h1
    (fun h => absurd h (by norm_num)) (.inl rfl)
  obtain ⟨e', V', h6, h7⟩ := estimate_diag hl rng 1 2 w1
  have h8 := compute_unknown_ptype hl rng none none (some (!![1, 0; 0, 2] : Matrix (Fin 2) (Fin 2) ℝ)) none (.inr (by simp))
    "AS" "EGV" .AS rfl w1 w1 _ h6 (by decide)
  obtain rfl : V = V0 := by
    have := (EigPair.mk.inj hp).2.2
    exact eq_of_heq this
  refine ⟨w1, _, h3, h8, ?_, ?_⟩
  · obtain ⟨_, _, _, V1, _, -, hh, -⟩ := h4
    change w1.2.W1 ≠ none
    rw [hh]
    simp
  · rintro ⟨m', n', A', B', -, hA', hB', -, hn1', hn2', hs', -⟩
    obtain ⟨m, n, A, B, -, hA, hB, -, hn1, hn2, hs, -⟩ := h4
    have ea : NpMat.of A = NpMat.of V := Option.some.inj (hA.symm.trans h5)
    have ea' : NpMat.of A' = NpMat.of V' := Option.some.inj (hA'.symm.trans rfl)
    have eb : NpMat.of B' = NpMat.of B := Option.some.inj (hB'.symm.trans hB)
    have hm : m = 2 := congrArg NpMat.rows ea
    have hm' : m' = 2 := congrArg NpMat.rows ea'
    subst hm hm'
    have d0 := diag_first (by norm_num) h2
    have d1 := diag_second (by norm_num) h7
    have g1 : (NpMat.of A).get 0 0 = V 0 0 := by rw [ea]; exact NpMat.get_of V 0 0
    have g1' : (NpMat.of A').get 0 0 = V' 0 0 := by rw [ea']; exact NpMat.get_of V' 0 0
    have g2 : (NpMat.of A).get 0 0 = A 0 0 := NpMat.get_of A 0 0
    have g2' : (NpMat.of A').get 0 0 = A' 0 0 := NpMat.get_of A' 0 0
    have g3 : (NpMat.of B).get 0 0 = B 0 ⟨0, hn1⟩ := NpMat.get_of B 0 ⟨0, hn1⟩
    have g3' : (NpMat.of B').get 0 0 = B' 0 ⟨0, hn1'⟩ := NpMat.get_of B' 0 ⟨0, hn1'⟩
    have g4 := hs 0 0 ⟨0, hn1⟩ rfl
    have g4' := hs' 0 0 ⟨0, hn1'⟩ rfl
    rw [eb, g3] at g3'
    exact d0.2 (by rw [← g1, g2, ← g4, g3', g4', ← g2', g1', d1])

/-! ## C43 for `OPG` -/

theorem libOK_grad {lib : Model.Subspaces.Lib} (hl : SubLibOK lib) : LibOK lib.grad :=
  ⟨fun v => hl.argsort _ v, fun A b => hl.lstsq _ _ A b⟩

theorem randintOK (rng : Rng S) (hM : 0 < M) : RandintOK (randint rng M : PyM (S × E) (Fin M)) := by
  intro w
  obtain ⟨K, rfl⟩ : ∃ K, M = K + 1 := ⟨M - 1, by omega⟩
  exact ⟨_, _, rfl⟩

theorem default_p (hm : 2 ≤ m) (hM : ⌊(1.7 : ℝ) * m⌋₊ < M) (lib : Model.Gradients.Lib) {W : Type} (r : PyM W (Fin M))
    (X : Matrix (Fin M) (Fin m) ℝ) (f : Fin M → ℝ) (w : Option (Fin M → ℝ)) :
    m + 1 ≤ ⌊(1.7 : ℝ) * m⌋₊ ∧ Model.Gradients.local_linear_gradients lib r X f .none w
      = Model.Gradients.local_linear_gradients lib r X f (.int ⌊(1.7 : ℝ) * m⌋₊) w := by
  have hfl : m + 1 ≤ ⌊(1.7 : ℝ) * m⌋₊ := by
    apply Nat.le_floor
    push_cast
    have : (2 : ℝ) ≤ m := by exact_mod_cast hm
    linarith
  refine ⟨hfl, ?_⟩
  have : Model.Gradients.checkP M m .none = Model.Gradients.checkP M m (.int ⌊(1.7 : ℝ) * m⌋₊) := by
    unfold Model.Gradients.checkP
    simp only [min_eq_left hM.le]
  unfold Model.Gradients.local_linear_gradients
  rw [this]

/-- `opg_subspace` on a sample of consistent shape. -/
theorem opg_eq (lib : Model.Subspaces.Lib) (rng : Rng S) (X : Matrix (Fin M) (Fin m) ℝ) (f w : Fin M → ℝ) :
    (opg_subspace lib rng (.mat (NpMat.of X)) (.mat (wcol f)) (wcol w) : PyM (S × E) EigPair)
      = (Model.Gradients.local_linear_gradients lib.grad (randint rng M) X f .none (some w) >>= fun df =>
          PyM.lift (active_subspace lib (.mat (NpMat.of df)) (wcol fun _ : Fin (Model.Gradients.numModels M m) =>
            1 / (Model.Gradients.numModels M m : ℝ)))) := by
  unfold opg_subspace
  rw [process_col]
  refine (dif_pos ⟨rfl, rfl⟩).trans ?_
  have hf : (fun i : Fin M => (wcol f).get i 0) = f := by
    funext i
    exact NpMat.get_of (Matrix.of fun i (_ : Fin 1) => f i) i 0
  change (Model.Gradients.local_linear_gradients lib.grad (randint rng M) X (fun i : Fin M => (wcol f).get i 0) .none (some w)
      >>= fun df => PyM.lift (active_subspace lib (.mat (NpMat.of df)) (wcol fun _ : Fin (Model.Gradients.numModels M m) =>
        1 / (Model.Gradients.numModels M m : ℝ))) : PyM (S × E) EigPair) = _
  rw [hf]

/-- C72: `opg_subspace` on values of an affine function: the slope is a multiple of the first eigenvector, its squared length
the first eigenvalue and the other eigenvalues are zero, whatever the generator draws. -/
theorem C72_opg_affine {lib : Model.Subspaces.Lib} (hl : SubLibOK lib) (rng : Rng S) (hm : 2 ≤ m)
    (X : Matrix (Fin M) (Fin m) ℝ) (hX : Function.Injective fun i => X i) (hM : ⌊(1.7 : ℝ) * m⌋₊ < M)
    (hgp : GeneralPosition X ⌊(1.7 : ℝ) * m⌋₊) (a : ℝ) (s : Fin m → ℝ) (w : Fin M → ℝ) (hw : ∀ i, 0 < w i) (u : S × E) :
    ∃ (e : Fin m → ℝ) (W : Matrix (Fin m) (Fin m) ℝ) (u' : S × E),
      (opg_subspace lib rng (.mat (NpMat.of X)) (.mat (wcol fun i => a + ∑ k, X i k * s k)) (wcol w)).run u = (.ok ⟨m, e, W⟩, u') ∧
      e ⟨0, by omega⟩ = ∑ k, s k ^ 2 ∧ (∀ j : Fin m, (j : ℕ) ≠ 0 → e j = 0) ∧
      ∃ c : ℝ, c ^ 2 = ∑ k, s k ^ 2 ∧ ∀ i, s i = c * W i ⟨0, by omega⟩ := by
  obtain ⟨hp, heq⟩ := default_p hm hM lib.grad (randint rng M : PyM (S × E) (Fin M)) X (fun i => a + ∑ k, X i k * s k) (some w)
  obtain ⟨df, u1, h1, h2⟩ := C12_affine (libOK_grad hl) (randintOK rng (by omega)) X hX _ hp hM hgp a s
    (fun i => a + ∑ k, X i k * s k) (fun i => rfl) (some w) (fun v hv i => by rw [← Option.some.inj hv]; exact hw i) u
  rw [opg_eq, PyM.run_bind_ok ((congrArg (fun x => PyM.run x u) heq).trans h1), active_subspace_eq]
  have hk : (Model.Gradients.numModels M m : ℝ) ≠ 0 := by exact_mod_cast numModels_pos hm (by omega)
  have hG : gradOuter df (fun _ => 1 / (Model.Gradients.numModels M m : ℝ)) = Matrix.of fun k l => s k * s l := by
    ext k l
    simp only [gradOuter, Matrix.of_apply, h2]
    rw [Finset.sum_const, Finset.card_univ, Fintype.card_fin, nsmul_eq_mul]
    field_simp
  rw [hG]
  obtain ⟨e, W, h, hs⟩ := C34_posSemidef lib hl (by omega) _ (rank_one_posSemidef s)
  obtain ⟨h3, h4, h5⟩ := rank_one (by omega) hs
  exact ⟨e, W, u1, lift_of h u1, h3, h4, h5⟩

/-- C43, `OPG` without bootstrap: with distinct points and more samples than the default number of neighbours, `compute`
succeeds. -/
theorem C43_succeeds_opg_partial {lib : Model.Subspaces.Lib} (hl : SubLibOK lib) (rng : Rng S) (hm : 2 ≤ m)
    (X : Matrix (Fin M) (Fin m) ℝ) (f : Fin M → ℝ) (df : Option (Matrix (Fin M) (Fin m) ℝ)) (weights : Option (Fin M → ℝ))
    (hX : Function.Injective fun i => X i) (hM : ⌊(1.7 : ℝ) * m⌋₊ < M) (nboot : ℤ) (hn : nboot ≤ 0) (w : S × Subspaces) :
    ∃ w', (computeOn lib rng (some X) (some f) df weights "OPG" "EVG" nboot).run w = (.ok (), w') ∧ IsSplit w'.2 := by
  obtain ⟨hp, heq⟩ := default_p hm hM lib.grad (randint rng M : PyM (S × Subspaces) (Fin M)) X f (some (weightsOf weights))
  obtain ⟨G, w1, h1⟩ := C14_completes_partial lib.grad (randintOK rng (by omega)) X hX f (some (weightsOf weights)) _ hp hM w
  obtain ⟨e, V, h2, -⟩ := C34_sorted lib hl (by omega) _ (gradOuter_symm G fun _ => 1 / (Model.Gradients.numModels M m : ℝ))
  have hest : (estimate lib rng .OPG (some X) (some f) df (weightsOf weights)).run w = (.ok ⟨m, e, V⟩, w1) := by
    change (opg_subspace lib rng (.mat (NpMat.of X)) (.mat (wcol f)) (wcol (weightsOf weights))).run w = _
    rw [opg_eq, PyM.run_bind_ok ((congrArg (fun x => PyM.run x w) heq).trans h1), active_subspace_eq]
    exact lift_of h2 w1
  obtain ⟨_, _, w', -, h5, h6, -⟩ := compute_ok hl rng hm (by omega) (some X) (some f) df weights (.inl (by simp)) "OPG" "EVG" .OPG rfl
    nboot w w1 _ hest (fun h => absurd h (by omega)) (.inl rfl)
  exact ⟨w', h5, h6⟩

/-- Four distinct points in the plane. -/
def quad : Matrix (Fin 4) (Fin 2) ℝ := !![0, 0; 1, 0; 0, 1; 1, 1]

theorem quad_injective : Function.Injective fun i => quad i := by
  intro i j h
  have h0 := congrFun h 0
  have h1 := congrFun h 1
  fin_cases i <;> fin_cases j <;> simp [quad] at h0 h1 ⊢

theorem floor_two : ⌊(1.7 : ℝ) * ((2 : ℕ) : ℝ)⌋₊ = 3 := by
  rw [Nat.floor_eq_iff (by norm_num)]
  norm_num

example {lib : Model.Subspaces.Lib} (hl : SubLibOK lib) (rng : Rng S) (f : Fin 4 → ℝ) (w : S × Subspaces) :
    ∃ w', (computeOn lib rng (some quad) (some f) none none "OPG" "EVG" 0).run w = (.ok (), w') ∧ IsSplit w'.2 :=
  C43_succeeds_opg_partial hl rng le_rfl quad f none none quad_injective (by rw [floor_two]; norm_num) 0 le_rfl w

/-- C72 applies: four points in the plane, no three on a line. -/
example {lib : Model.Subspaces.Lib} (hl : SubLibOK lib) (rng : Rng S) (u : S × E) : ∃ (e : Fin 2 → ℝ) (W : Matrix (Fin 2) (Fin 2) ℝ)
    (u' : S × E), (opg_subspace lib rng (.mat (NpMat.of (!![0, 0; 1, 0; 0, 1; 2, 3] : Matrix (Fin 4) (Fin 2) ℝ)))
      (.mat (wcol fun i => 5 + ∑ k, (!![0, 0; 1, 0; 0, 1; 2, 3] : Matrix (Fin 4) (Fin 2) ℝ) i k * ![3, 4] k))
      (wcol fun _ : Fin 4 => 1)).run u = (.ok ⟨2, e, W⟩, u') ∧ e 0 = 25 := by
  obtain ⟨e, W, u', h1, h2, -⟩ := C72_opg_affine hl rng le_rfl !![0, 0; 1, 0; 0, 1; 2, 3] general_position_example.1
    (by rw [floor_two]; norm_num) (by rw [floor_two]; exact general_position_example.2.1) 5 ![3, 4] (fun _ => 1)
    (fun _ => one_pos) u
  refine ⟨e, W, u', h1, h2.trans ?_⟩
  rw [Fin.sum_univ_two]
  norm_num

theorem randints_zero (rng : Rng S) (hr : ∀ n s, (rng.randint n s).1 = 0) (n k : ℕ) (s : S) (i : Fin k) :
    (randints rng n k s).1 i = 0 := by
  induction k generalizing s with
  | zero => exact i.elim0
  | succ k ih =>
    unfold randints
    refine Fin.cases ?_ (fun j => ?_) i
    · exact hr n s
    · exact ih _ j

/-- No neighbours are left when all points coincide: `opg_subspace` raises. -/
theorem opg_const {lib : Model.Subspaces.Lib} (rng : Rng S) (hm : 2 ≤ m) (X : Matrix (Fin M) (Fin m) ℝ)
    (hX : ∀ i j, X i = X j) (f w : Fin M → ℝ) (hM : ⌊(1.7 : ℝ) * m⌋₊ < M) (u : S × E) :
    ∃ u', (opg_subspace lib rng (.mat (NpMat.of X)) (.mat (wcol f)) (wcol w)).run u = (.error .valueError, u') := by
  obtain ⟨hp, heq⟩ := default_p hm hM lib.grad (randint rng M : PyM (S × E) (Fin M)) X f (some w)
  have hcheck : Model.Gradients.checkP M m (.int ⌊(1.7 : ℝ) * m⌋₊) = .ok ⌊(1.7 : ℝ) * m⌋₊ := by
    have h1 : ¬ M ≤ m := by omega
    have h2 : ¬ ((⌊(1.7 : ℝ) * m⌋₊ : ℤ) < m + 1 ∨ (⌊(1.7 : ℝ) * m⌋₊ : ℤ) > M) := by omega
    simp only [Model.Gradients.checkP, h1, if_false, h2]
    rfl
  have hfail : ∃ u', (Model.Gradients.local_linear_gradients lib.grad (randint rng M : PyM (S × E) (Fin M)) X f
      (.int ⌊(1.7 : ℝ) * m⌋₊) (some w)).run u = (.error .valueError, u') := by
    simp only [Model.Gradients.local_linear_gradients, hcheck]
    refine localLoop_fail (randintOK rng (by omega)) _ (numModels_pos hm (by omega)) _ (fun ii => ?_) u
    have hnil : Model.Gradients.neighbours lib.grad X ii ⌊(1.7 : ℝ) * m⌋₊ = [] := by
      simp only [Model.Gradients.neighbours]
      rw [List.filter_eq_nil_iff.mpr]
      · rw [List.map_nil, List.take_nil]
      · intro k _
        simp [sqDist_eq_zero.mpr (hX k ii)]
    simp only [Model.Gradients.localModel]
    rw [dif_neg (by rw [hnil, List.length_nil]; omega)]
  obtain ⟨u', h⟩ := hfail
  refine ⟨u', ?_⟩
  rw [opg_eq, PyM.run_bind_error ((congrArg (fun x => PyM.run x u) heq).trans h)]

/-- C43 fails: with admissible arguments (`OPG`, bootstrap, four distinct points in the plane) `compute` can raise `ValueError`:
a bootstrap replicate that repeats one point leaves no neighbours. -/
theorem C43_fails {lib : Model.Subspaces.Lib} (hl : SubLibOK lib) (rng : Rng S) (hr : ∀ n s, (rng.randint n s).1 = 0)
    (f : Fin 4 → ℝ) (w : S × Subspaces) :
    (∃ w', (computeOn lib rng (some quad) (some f) none none "OPG" "EVG" 0).run w = (.ok (), w')) ∧
    ∃ w', (computeOn lib rng (some quad) (some f) none none "OPG" "EVG" 1).run w = (.error .valueError, w') := by
  have hM : ⌊(1.7 : ℝ) * ((2 : ℕ) : ℝ)⌋₊ < 4 := by rw [floor_two]; norm_num
  refine ⟨?_, ?_⟩
  · obtain ⟨w', h, -⟩ := C43_succeeds_opg_partial hl rng le_rfl quad f none none quad_injective hM 0 le_rfl w
    exact ⟨w', h⟩
  set wt : Fin 4 → ℝ := weightsOf none with hwt
  obtain ⟨hp, heq⟩ := default_p le_rfl hM lib.grad (randint rng 4 : PyM (S × Subspaces) (Fin 4)) quad f (some wt)
  obtain ⟨G, w1, h1⟩ := C14_completes_partial lib.grad (randintOK rng (by omega)) quad quad_injective f (some wt) _ hp hM w
  obtain ⟨e, V, h2, -⟩ := C34_sorted lib hl (by omega) _ (gradOuter_symm G fun _ => 1 / (Model.Gradients.numModels 4 2 : ℝ))
  have hest : (ssCall lib rng .OPG ((some quad).map NpMat.of) ((some f).map fun f => .mat (wcol f))
      ((none : Option (Matrix (Fin 4) (Fin 2) ℝ)).map fun X => .mat (NpMat.of X)) (wcol wt)).run w = (.ok ⟨2, e, V⟩, w1) := by
    change (opg_subspace lib rng (.mat (NpMat.of quad)) (.mat (wcol f)) (wcol wt)).run w = _
    rw [opg_eq, PyM.run_bind_ok ((congrArg (fun x => PyM.run x w) heq).trans h1), active_subspace_eq]
    exact lift_of h2 w1
  unfold computeOn compute
  rw [PyM.run_bind_ok (lift_of (checkInputs_of (some quad) none (.inl (by simp))) w)]
  simp only [getD_weights]
  rw [show SS.ofString "OPG" = some .OPG from rfl]
  simp only
  rw [PyM.run_bind_ok hest]
  set w2 : S × Subspaces := (w1.1, withEig ⟨2, e, V⟩ w1.2) with hw2
  rw [PyM.run_bind_ok (show (modifyObj (withEig ⟨2, e, V⟩)).run w1 = (.ok (), w2) from rfl)]
  suffices hb : ∃ w', (bootstrap_ranges lib rng .OPG ⟨2, e, V⟩ ((some quad).map NpMat.of) ((some f).map fun f => .mat (wcol f))
      ((none : Option (Matrix (Fin 4) (Fin 2) ℝ)).map fun X => .mat (NpMat.of X)) (wcol wt) 0).run w2 = (.error .valueError, w') by
    obtain ⟨w', hb⟩ := hb
    refine ⟨w', ?_⟩
    rw [PyM.run_bind_error]
    unfold bootStep
    rw [if_pos (by norm_num)]
    exact PyM.run_bind_error hb
  rw [ranges_eq lib rng .OPG e V (some quad) (some f) none wt (.inl (by simp)) 0]
  unfold bootLoop
  have hrep : ∃ w3, (bootstrap_replicate rng (dataOf (some quad) (some f) none wt)).run w2
      = (.ok (dataOf (some (quad.submatrix (fun _ : Fin 4 => 0) id)) (some (f ∘ fun _ : Fin 4 => 0)) none
        (wt ∘ fun _ : Fin 4 => 0)), w3) := by
    unfold bootstrap_replicate
    change ∃ w3, (do
      let ind ← Rng.draw (randints rng 3 4)
      PyM.lift ((dataOf (some quad) (some f) none wt).take fun i => (ind i : ℕ))).run w2 = _
    refine ⟨_, (PyM.run_bind_ok (show (Rng.draw (randints rng 3 4)).run w2
      = (.ok (randints rng 3 4 w2.1).1, ((randints rng 3 4 w2.1).2, w2.2)) from rfl)).trans (lift_of ?_ _)⟩
    rw [take_dataOf]
    have : (randints rng 3 4 w2.1).1 = fun _ => 0 := funext fun i => randints_zero rng hr 3 4 _ i
    rw [this]
    rfl
  obtain ⟨w3, hrep⟩ := hrep
  obtain ⟨w4, h4⟩ := opg_const (lib := lib) (E := Subspaces) rng le_rfl (quad.submatrix (fun _ : Fin 4 => 0) id) (fun i j => rfl)
    (f ∘ fun _ : Fin 4 => 0) (wt ∘ fun _ : Fin 4 => 0) hM w3
  refine ⟨w4, ?_⟩
  rw [PyM.run_bind_error]
  rw [PyM.run_bind_ok hrep]
  rw [PyM.run_bind_error]
  exact h4

end Props
