import Verif.Model.MiscArr
import Verif.Proofs.Cholesky
import Verif.Props.Columns
import Verif.Props.Misc

/-!
# Property C139: the mean and the covariance of Gaussian inputs
-/

open Py Model.Misc

namespace Props

variable {M m n : ℕ}

/-! ## What is to be shown -/

/-- The symmetric matrix with the lower triangle of `A`. -/
def lowerSym (A : Matrix (Fin n) (Fin n) ℝ) : Matrix (Fin n) (Fin n) ℝ := Matrix.of fun i j => if j ≤ i then A i j else A j i

/-- Contract of `np.linalg.cholesky` for square matrices: only the lower triangle is read. -/
def CholLower (chol : Model.MiscArr.Chol) : Prop :=
  ∀ (n : ℕ) (A : Matrix (Fin n) (Fin n) ℝ), ((lowerSym A).PosDef → ∃ L, chol n A = .ok L ∧ Spec.IsCholesky (lowerSym A) L) ∧
    (¬ (lowerSym A).PosDef → chol n A = .error .linAlgError)

theorem cholLower_exists : ∃ chol, CholLower chol := by
  classical
  exact ⟨fun _ A => if h : (lowerSym A).PosDef then .ok (Proofs.Cholesky.exists_cholesky h).choose else .error .linAlgError,
    fun _ A => ⟨fun h => ⟨_, dif_pos h, (Proofs.Cholesky.exists_cholesky h).choose_spec⟩, fun h => dif_neg h⟩⟩

theorem lowerSym_of_symm {A : Matrix (Fin n) (Fin n) ℝ} (h : A.transpose = A) : lowerSym A = A := by
  ext i j
  simp only [lowerSym, Matrix.of_apply]
  split_ifs with hij
  · rfl
  · exact congrFun (congrFun h i) j

/-! ## What is accepted -/

/-- C139: a normalizer is made exactly when the covariance is a square matrix whose lower triangle is that of a positive definite one,
whatever the size of the mean; otherwise there is a `LinAlgError`. -/
theorem C139_init_partial {chol : Model.MiscArr.Chol} (hc : CholLower chol) (mu : List ℝ) (C : Arr) :
    (∃ (n : ℕ) (A L : Matrix (Fin n) (Fin n) ℝ), C = .mat (NpMat.of A) ∧ (lowerSym A).PosDef ∧ Spec.IsCholesky (lowerSym A) L ∧
      Model.MiscArr.Normalizer.init chol mu C = .ok ⟨Model.MiscArr.meanRow mu, NpMat.of L⟩) ∨
    ((¬ ∃ (n : ℕ) (A : Matrix (Fin n) (Fin n) ℝ), C = .mat (NpMat.of A) ∧ (lowerSym A).PosDef) ∧
      Model.MiscArr.Normalizer.init chol mu C = .error .linAlgError) := by
  cases C with
  | mat A =>
    obtain ⟨r, c, A⟩ := A
    by_cases h : r = c
    · subst h
      by_cases hp : (lowerSym A).PosDef
      · obtain ⟨L, h1, h2⟩ := (hc r A).1 hp
        refine .inl ⟨r, A, L, rfl, hp, h2, ?_⟩
        simp only [Model.MiscArr.Normalizer.init, Model.MiscArr.cholesky, dite_true, bind, Except.bind]
        have : chol r (A.submatrix id (Fin.cast rfl)) = .ok L := h1
        rw [this]
        rfl
      · refine .inr ⟨?_, ?_⟩
        · rintro ⟨n, B, hB, hpB⟩
          injection hB with hB
          obtain rfl : r = n := congrArg NpMat.rows hB
          obtain rfl : A = B := NpMat.of_injective hB
          exact hp hpB
        · simp only [Model.MiscArr.Normalizer.init, Model.MiscArr.cholesky, dite_true, bind, Except.bind]
          have : chol r (A.submatrix id (Fin.cast rfl)) = .error .linAlgError := (hc r A).2 hp
          rw [this]
          rfl
    · refine .inr ⟨?_, ?_⟩
      · rintro ⟨n, B, hB, -⟩
        injection hB with hB
        exact h ((congrArg NpMat.rows hB).trans (congrArg NpMat.cols hB).symm)
      · simp only [Model.MiscArr.Normalizer.init, Model.MiscArr.cholesky, bind, Except.bind]
        rw [dif_neg h]
  | scalar x => exact .inr ⟨by simp, rfl⟩
  | vec n x => exact .inr ⟨by simp, rfl⟩
  | nd a b c r d => exact .inr ⟨by simp, rfl⟩

/-! ## What is done with it -/

theorem solve_of {L : Matrix (Fin n) (Fin n) ℝ} (hu : IsUnit L.det) (B : Matrix (Fin n) (Fin m) ℝ) :
    Model.MiscArr.solve (NpMat.of L) (NpMat.of B) = .ok (NpMat.of (L⁻¹ * B)) := by
  unfold Model.MiscArr.solve
  rw [dif_pos (show (NpMat.of L).rows = (NpMat.of L).cols from rfl), dif_pos (show (NpMat.of B).rows = (NpMat.of L).rows from rfl)]
  have : Np.solve ((NpMat.of L).val.submatrix id (Fin.cast (show (NpMat.of L).rows = (NpMat.of L).cols from rfl)))
      ((NpMat.of B).val.submatrix (Fin.cast (show (NpMat.of L).rows = (NpMat.of B).rows from rfl)) id) = .ok (L⁻¹ * B) := by
    change Np.solve L B = _
    unfold Np.solve
    exact if_pos hu
  rw [this]
  rfl

theorem dot_factor (L : Matrix (Fin n) (Fin n) ℝ) (X : NpMat) :
    (∀ h : n = X.cols, X.dot (NpMat.of L).transpose = .ok ⟨X.rows, n, X.val * L.transpose.submatrix (Fin.cast h.symm) id⟩) ∧
    (n ≠ X.cols → X.dot (NpMat.of L).transpose = .error .valueError) := by
  unfold NpMat.dot
  exact ⟨fun h => dif_pos (show (NpMat.of L).transpose.rows = X.cols from h), fun h => dif_neg (show ¬ (NpMat.of L).transpose.rows = X.cols from h)⟩

/-- C139: if the size of the mean is the order of the covariance, the methods are those of `Model.Misc`, so that C03 holds for them. -/
theorem C139_methods (mu : Fin n → ℝ) (L : Matrix (Fin n) (Fin n) ℝ) (hu : IsUnit L.det) (X : Matrix (Fin M) (Fin n) ℝ) :
    (Model.MiscArr.Normalizer.mk (Model.MiscArr.meanRow (List.ofFn mu)) (NpMat.of L)).normalize (.mat (NpMat.of X)) =
      (UnboundedNormalizer.mk mu L).normalize (.mat (NpMat.of X)) ∧
    (Model.MiscArr.Normalizer.mk (Model.MiscArr.meanRow (List.ofFn mu)) (NpMat.of L)).unnormalize (.mat (NpMat.of X)) =
      (UnboundedNormalizer.mk mu L).unnormalize (.mat (NpMat.of X)) := by
  have hrow : Model.MiscArr.meanRow (List.ofFn mu) = NpMat.of (Matrix.of fun (_ : Fin 1) j => mu j) := by
    unfold Model.MiscArr.meanRow
    have : ∀ (l : List ℝ) (hl : l.length = n), (∀ j : Fin n, l.get (Fin.cast hl.symm j) = mu j) →
        NpMat.of (Matrix.of fun (_ : Fin 1) (j : Fin l.length) => l.get j) = NpMat.of (Matrix.of fun (_ : Fin 1) j => mu j) := by
      intro l hl h
      subst hl
      congr 1
      ext _ j
      exact h j
    exact this _ (List.length_ofFn) fun j => by simp
  constructor
  · rw [Proofs.Misc.unormalize_of _ hu, hrow]
    simp only [Model.MiscArr.Normalizer.normalize, process_inputs, bind, Except.bind, NpMat.zipB_row_right, NpMat.transpose_of, solve_of hu]
    rfl
  · rw [Proofs.Misc.uunnormalize_of, hrow]
    simp only [Model.MiscArr.Normalizer.unnormalize, process_inputs, bind, Except.bind]
    rw [(dot_factor L (NpMat.of X)).1 rfl]
    exact NpMat.zipB_row_right _ (X * L.transpose) _

/-- C139: what is accepted later. `unnormalize` takes as many columns as the covariance has, if the mean has this size or one entry, or
if the covariance is a number; `normalize` takes the numbers of columns that broadcast with the mean to the order of the covariance. All
else is a `ValueError`. -/
theorem C139_accepted (mu : List ℝ) (L : Matrix (Fin n) (Fin n) ℝ) (hu : IsUnit L.det) (X : NpMat) :
    ((∃ Y, (Model.MiscArr.Normalizer.mk (Model.MiscArr.meanRow mu) (NpMat.of L)).unnormalize (.mat X) = .ok Y) ↔
      X.cols = n ∧ (mu.length = n ∨ mu.length = 1 ∨ n = 1)) ∧
    ((∃ Y, (Model.MiscArr.Normalizer.mk (Model.MiscArr.meanRow mu) (NpMat.of L)).normalize (.mat X) = .ok Y) ↔
      NpMat.bdim X.cols mu.length = some n) ∧
    (∀ e, (Model.MiscArr.Normalizer.mk (Model.MiscArr.meanRow mu) (NpMat.of L)).unnormalize (.mat X) = .error e → e = .valueError) ∧
    (∀ e, (Model.MiscArr.Normalizer.mk (Model.MiscArr.meanRow mu) (NpMat.of L)).normalize (.mat X) = .error e → e = .valueError) := by
  have hU : (Model.MiscArr.Normalizer.mk (Model.MiscArr.meanRow mu) (NpMat.of L)).unnormalize (.mat X) =
      if h : n = X.cols then NpMat.zipB (· + ·) ⟨X.rows, n, X.val * L.transpose.submatrix (Fin.cast h.symm) id⟩ (Model.MiscArr.meanRow mu)
      else .error .valueError := by
    simp only [Model.MiscArr.Normalizer.unnormalize, process_inputs, bind, Except.bind]
    by_cases h : n = X.cols
    · rw [dif_pos h, (dot_factor L X).1 h]
    · rw [dif_neg h, (dot_factor L X).2 h]
  have hN : (Model.MiscArr.Normalizer.mk (Model.MiscArr.meanRow mu) (NpMat.of L)).normalize (.mat X) =
      (NpMat.zipB (· - ·) X (Model.MiscArr.meanRow mu)).bind fun X0 => (Model.MiscArr.solve (NpMat.of L) X0.transpose).bind
        fun Z => .ok Z.transpose := rfl
  have hz : ∀ (op : ℝ → ℝ → ℝ) (A : NpMat), (NpMat.bdim A.cols mu.length = none → NpMat.zipB op A (Model.MiscArr.meanRow mu) = .error .valueError) ∧
      ∀ c, NpMat.bdim A.cols mu.length = some c → ∃ B : Matrix (Fin A.rows) (Fin c) ℝ, NpMat.zipB op A (Model.MiscArr.meanRow mu) = .ok (NpMat.of B) := by
    intro op A
    have hr : NpMat.bdim A.rows (Model.MiscArr.meanRow mu).rows = some A.rows := NpMat.bdim_one_right _
    have hcc : (Model.MiscArr.meanRow mu).cols = mu.length := rfl
    refine ⟨fun h => zipB_none (by rw [hcc]; exact h), fun c h => ?_⟩
    unfold NpMat.zipB
    rw [hr, hcc, h]
    exact ⟨_, rfl⟩
  have hsolve : ∀ {c : ℕ} (B : Matrix (Fin X.rows) (Fin c) ℝ), (c = n → ∃ Z, Model.MiscArr.solve (NpMat.of L) (NpMat.of B).transpose = .ok Z) ∧
      (c ≠ n → Model.MiscArr.solve (NpMat.of L) (NpMat.of B).transpose = .error .valueError) := by
    intro c B
    refine ⟨fun h => ?_, fun h => ?_⟩
    · subst h
      exact ⟨_, solve_of hu _⟩
    · unfold Model.MiscArr.solve
      rw [dif_pos (show (NpMat.of L).rows = (NpMat.of L).cols from rfl), dif_neg (show ¬ (NpMat.of B).transpose.rows = (NpMat.of L).rows from h)]
  refine ⟨?_, ?_, ?_, ?_⟩
  · rw [hU]
    by_cases h : n = X.cols
    · rw [dif_pos h]
      obtain ⟨z1, z2⟩ := hz (· + ·) ⟨X.rows, n, X.val * L.transpose.submatrix (Fin.cast h.symm) id⟩
      cases hb : NpMat.bdim n mu.length with
      | none =>
        rw [z1 hb]
        refine ⟨fun ⟨Y, hY⟩ => (by cases hY), fun ⟨_, h'⟩ => ?_⟩
        exfalso
        unfold NpMat.bdim at hb
        split_ifs at hb with h1 h2 h3
        omega
      | some c =>
        obtain ⟨B, hB⟩ := z2 c hb
        rw [hB]
        refine ⟨fun _ => ⟨h.symm, ?_⟩, fun _ => ⟨_, rfl⟩⟩
        unfold NpMat.bdim at hb
        split_ifs at hb with h1 h2 h3 <;> omega
    · rw [dif_neg h]
      exact ⟨fun ⟨Y, hY⟩ => (by cases hY), fun h' => absurd h'.1.symm h⟩
  · rw [hN]
    obtain ⟨z1, z2⟩ := hz (· - ·) X
    cases hb : NpMat.bdim X.cols mu.length with
    | none =>
      rw [z1 hb]
      exact ⟨fun ⟨Y, hY⟩ => (by cases hY), fun h => by cases h⟩
    | some c =>
      obtain ⟨B, hB⟩ := z2 c hb
      rw [hB]
      by_cases h : c = n
      · obtain ⟨Z, hZ⟩ := (hsolve B).1 h
        simp only [Except.bind, hZ, h]
        exact ⟨fun _ => trivial, fun _ => ⟨_, rfl⟩⟩
      · simp only [Except.bind, (hsolve B).2 h]
        exact ⟨fun ⟨Y, hY⟩ => (by cases hY), fun h' => absurd (Option.some.inj h') h⟩
  · intro e he
    rw [hU] at he
    by_cases h : n = X.cols
    · rw [dif_pos h] at he
      obtain ⟨z1, z2⟩ := hz (· + ·) ⟨X.rows, n, X.val * L.transpose.submatrix (Fin.cast h.symm) id⟩
      cases hb : NpMat.bdim n mu.length with
      | none =>
        rw [z1 hb] at he
        cases he
        rfl
      | some c =>
        obtain ⟨B, hB⟩ := z2 c hb
        rw [hB] at he
        cases he
    · rw [dif_neg h] at he
      cases he
      rfl
  · intro e he
    rw [hN] at he
    obtain ⟨z1, z2⟩ := hz (· - ·) X
    cases hb : NpMat.bdim X.cols mu.length with
    | none =>
      rw [z1 hb] at he
      cases he
      rfl
    | some c =>
      obtain ⟨B, hB⟩ := z2 c hb
      rw [hB] at he
      by_cases h : c = n
      · obtain ⟨Z, hZ⟩ := (hsolve B).1 h
        simp only [Except.bind, hZ] at he
        cases he
      · simp only [Except.bind, (hsolve B).2 h] at he
        cases he
        rfl

theorem factor_one {L : Matrix (Fin n) (Fin n) ℝ} (h : Spec.IsCholesky 1 L) : L = 1 := by
  have hu := isUnit_det_of_isCholesky h
  -- lower triangular, and equal to the transposed inverse
  have hL : L.BlockTriangular OrderDual.toDual := fun i j hij => h.lower i j (OrderDual.toDual_lt_toDual.mp hij)
  have hinv : L⁻¹ = L.transpose := Matrix.inv_eq_right_inv h.mul
  letI : Invertible L := Matrix.invertibleOfIsUnitDet L hu
  have hT : L⁻¹.BlockTriangular OrderDual.toDual := Matrix.blockTriangular_inv_of_blockTriangular hL
  have hoff : ∀ i j, i ≠ j → L i j = 0 := by
    intro i j hij
    rcases lt_or_gt_of_ne hij with h1 | h1
    · exact h.lower i j h1
    · have := hT (OrderDual.toDual_lt_toDual.mpr h1 : OrderDual.toDual i < OrderDual.toDual j)
      rwa [hinv, Matrix.transpose_apply] at this
  ext i j
  by_cases hij : i = j
  · subst hij
    have h1 := congrFun (congrFun h.mul i) i
    rw [Matrix.mul_apply, Finset.sum_eq_single i (fun k _ hk => by rw [hoff i k (Ne.symm hk), zero_mul]) (by simp), Matrix.transpose_apply,
      Matrix.one_apply_eq] at h1
    rw [Matrix.one_apply_eq]
    have := h.diag_pos i
    nlinarith
  · rw [hoff i j hij, Matrix.one_apply_ne hij]

/-- C139 as documented is violated: a mean of one entry is used for all inputs; a mean of three entries makes a normalizer for two inputs
that refuses every array; and of a matrix that is not symmetric, which is no covariance, the upper triangle is ignored. -/
theorem C139_refuted {chol : Model.MiscArr.Chol} (hc : CholLower chol) :
    (∃ s, Model.MiscArr.Normalizer.init chol [5] (.mat (NpMat.of (1 : Matrix (Fin 2) (Fin 2) ℝ))) = .ok s ∧
      s.unnormalize (.mat (NpMat.of (0 : Matrix (Fin 1) (Fin 2) ℝ))) = .ok (NpMat.of (Matrix.of fun (_ : Fin 1) (_ : Fin 2) => (5 : ℝ)))) ∧
    (∃ s, Model.MiscArr.Normalizer.init chol [5, 6, 7] (.mat (NpMat.of (1 : Matrix (Fin 2) (Fin 2) ℝ))) = .ok s ∧
      ∀ X : NpMat, X.cols = 2 → s.unnormalize (.mat X) = .error .valueError ∧ s.normalize (.mat X) = .error .valueError) ∧
    (∃ A : Matrix (Fin 2) (Fin 2) ℝ, A.transpose ≠ A ∧ ∀ mu, Model.MiscArr.Normalizer.init chol mu (.mat (NpMat.of A)) =
      Model.MiscArr.Normalizer.init chol mu (.mat (NpMat.of (1 : Matrix (Fin 2) (Fin 2) ℝ))) ∧ ∃ s, Model.MiscArr.Normalizer.init chol mu (.mat (NpMat.of A)) = .ok s) := by
  have key : ∀ (A : Matrix (Fin 2) (Fin 2) ℝ), lowerSym A = 1 → ∀ mu, Model.MiscArr.Normalizer.init chol mu (.mat (NpMat.of A)) =
      .ok ⟨Model.MiscArr.meanRow mu, NpMat.of (1 : Matrix (Fin 2) (Fin 2) ℝ)⟩ := by
    intro A hA mu
    rcases C139_init_partial hc mu (.mat (NpMat.of A)) with ⟨n, B, L, hB, hp, hL, h⟩ | ⟨h, -⟩
    · injection hB with hB
      obtain rfl : 2 = n := congrArg NpMat.rows hB
      obtain rfl : A = B := NpMat.of_injective hB
      rw [hA] at hL
      rw [h, factor_one hL]
    · exact absurd ⟨2, A, rfl, by rw [hA]; exact Matrix.PosDef.one⟩ h
  have h1 : lowerSym (1 : Matrix (Fin 2) (Fin 2) ℝ) = 1 := lowerSym_of_symm Matrix.transpose_one
  have hu : IsUnit (1 : Matrix (Fin 2) (Fin 2) ℝ).det := by simp
  refine ⟨⟨_, key 1 h1 _, ?_⟩, ⟨_, key 1 h1 _, fun X hX => ?_⟩, ⟨!![1, 5; 0, 1], ?_, fun mu => ⟨?_, _, key _ ?_ mu⟩⟩⟩
  · simp only [Model.MiscArr.Normalizer.unnormalize, process_inputs, bind, Except.bind]
    rw [(dot_factor (1 : Matrix (Fin 2) (Fin 2) ℝ) (NpMat.of (0 : Matrix (Fin 1) (Fin 2) ℝ))).1 rfl]
    have hz : NpMat.zipB (· + ·) (NpMat.of ((0 : Matrix (Fin 1) (Fin 2) ℝ) * (1 : Matrix (Fin 2) (Fin 2) ℝ).transpose)) (Model.MiscArr.meanRow [5])
        = .ok (NpMat.of (Matrix.of fun (i : Fin 1) (j : Fin 2) =>
          (NpMat.of ((0 : Matrix (Fin 1) (Fin 2) ℝ) * (1 : Matrix (Fin 2) (Fin 2) ℝ).transpose)).bget i j + (Model.MiscArr.meanRow [5]).bget i j)) := rfl
    refine Eq.trans hz ?_
    congr 2
    ext i j
    rw [Matrix.of_apply, NpMat.bget_of, Matrix.zero_mul, Matrix.zero_apply, zero_add]
    rfl
  · obtain ⟨a1, a2, a3, a4⟩ := C139_accepted [5, 6, 7] 1 hu X
    constructor
    · cases h : (Model.MiscArr.Normalizer.mk (Model.MiscArr.meanRow [5, 6, 7]) (NpMat.of (1 : Matrix (Fin 2) (Fin 2) ℝ))).unnormalize (.mat X) with
      | ok Y => simpa using (a1.mp ⟨Y, h⟩).2
      | error e => rw [a3 e h]
    · cases h : (Model.MiscArr.Normalizer.mk (Model.MiscArr.meanRow [5, 6, 7]) (NpMat.of (1 : Matrix (Fin 2) (Fin 2) ℝ))).normalize (.mat X) with
      | ok Y =>
        have := a2.mp ⟨Y, h⟩
        simp [NpMat.bdim, hX] at this
      | error e => rw [a4 e h]
  · intro h
    have := congrFun (congrFun h 1) 0
    simp at this
  · rw [key 1 h1, key]
    ext i j
    fin_cases i <;> fin_cases j <;> simp [lowerSym]
  · ext i j
    fin_cases i <;> fin_cases j <;> simp [lowerSym]

/-- A covariance matrix that is not diagonal. -/
example : (lowerSym (!![2, 1; 1, 2] : Matrix (Fin 2) (Fin 2) ℝ)).PosDef := by
  rw [lowerSym_of_symm (by ext i j; fin_cases i <;> fin_cases j <;> rfl)]
  refine Matrix.PosDef.of_dotProduct_mulVec_pos (by ext i j; fin_cases i <;> fin_cases j <;> simp) fun x hx => ?_
  have hx' : x 0 ≠ 0 ∨ x 1 ≠ 0 := by
    by_contra h
    push Not at h
    exact hx (by ext i; fin_cases i <;> simp [h])
  simp [Matrix.mulVec, dotProduct, Fin.sum_univ_two]
  rcases hx' with h | h <;> have := sq_pos_of_ne_zero h <;> nlinarith [sq_nonneg (x 0 + x 1), sq_nonneg (x 0), sq_nonneg (x 1)]

end Props
