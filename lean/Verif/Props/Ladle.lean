import Verif.Props.Bootstrap
import Verif.Proofs.Volume

/-!
# Property C98: the variability of the bootstrapped subspaces in Li's ladle
-/

open Py Model.Subspaces Model.Misc Spec Matrix Proofs.Eigh Proofs.Bootstrap Proofs.Volume

namespace Props

variable {S E : Type} {M m : ℕ}

/-- The span of the first `n` columns. -/
def lead (V : Matrix (Fin m) (Fin m) ℝ) (n : ℕ) : Submodule ℝ (Fin m → ℝ) :=
  Submodule.span ℝ {v | ∃ i : Fin m, (i : ℕ) < n ∧ v = fun r => V r i}

/-- The absolute value of the determinant of the inner products of the first `i` columns of `V` with those of `V'`. -/
noncomputable def overlap (V V' : Matrix (Fin m) (Fin m) ℝ) (i : Fin m) : ℝ :=
  |(Matrix.of fun a b : Fin i => ∑ r, V r (Fin.castLE i.2.le a) * V' r (Fin.castLE i.2.le b)).det|

theorem firstCols_orth {V : Matrix (Fin m) (Fin m) ℝ} (hV : V.transpose * V = 1) (n : ℕ) (h : n ≤ m) :
    (Np.firstCols V n h).transpose * Np.firstCols V n h = 1 := by
  ext a b
  have h1 := congrFun (congrFun hV (Fin.castLE h a)) (Fin.castLE h b)
  rw [Matrix.mul_apply] at h1 ⊢
  refine h1.trans ?_
  rw [Matrix.one_apply, Matrix.one_apply]
  simp only [Fin.castLE_inj]

theorem overlap_eq (V V' : Matrix (Fin m) (Fin m) ℝ) (i : Fin m) :
    overlap V V' i = |((Np.firstCols V i i.2.le).transpose * Np.firstCols V' i i.2.le).det| := rfl

theorem overlap_le {V V' : Matrix (Fin m) (Fin m) ℝ} (hV : V.transpose * V = 1) (hV' : V'.transpose * V' = 1) (i : Fin m) :
    0 ≤ overlap V V' i ∧ overlap V V' i ≤ 1 :=
  ⟨abs_nonneg _, by rw [overlap_eq]; exact abs_det_le_one (firstCols_orth hV _ _) (firstCols_orth hV' _ _)⟩

theorem lead_eq (V : Matrix (Fin m) (Fin m) ℝ) (n : ℕ) (h : n ≤ m) :
    lead V n = Submodule.span ℝ (Set.range (Np.firstCols V n h).col) := by
  unfold lead
  congr 1
  ext v
  constructor
  · rintro ⟨i, hi, rfl⟩
    exact ⟨⟨i, hi⟩, rfl⟩
  · rintro ⟨i, rfl⟩
    exact ⟨Fin.castLE h i, i.2, rfl⟩

theorem span_le_of_mul {n : ℕ} {A B : Matrix (Fin m) (Fin n) ℝ} {C : Matrix (Fin n) (Fin n) ℝ} (h : A = B * C) :
    Submodule.span ℝ (Set.range A.col) ≤ Submodule.span ℝ (Set.range B.col) := by
  refine Submodule.span_le.mpr ?_
  rintro _ ⟨j, rfl⟩
  rw [← Matrix.range_mulVecLin, h]
  exact ⟨C.col j, by funext r; rfl⟩

theorem mul_of_span_le {n : ℕ} {A B : Matrix (Fin m) (Fin n) ℝ}
    (h : Submodule.span ℝ (Set.range A.col) ≤ Submodule.span ℝ (Set.range B.col)) : ∃ C : Matrix (Fin n) (Fin n) ℝ, A = B * C := by
  have h1 : ∀ j, ∃ c : Fin n → ℝ, B.mulVec c = A.col j := by
    intro j
    have := h (Submodule.subset_span ⟨j, rfl⟩)
    rw [← Matrix.range_mulVecLin] at this
    obtain ⟨c, hc⟩ := this
    exact ⟨c, hc⟩
  choose c hc using h1
  refine ⟨Matrix.of fun i j => c j i, ?_⟩
  ext r j
  exact (congrFun (hc j) r).symm

/-- The overlap is 1 exactly if both families span the same subspace. -/
theorem overlap_eq_one {V V' : Matrix (Fin m) (Fin m) ℝ} (hV : V.transpose * V = 1) (hV' : V'.transpose * V' = 1) (i : Fin m) :
    overlap V V' i = 1 ↔ lead V i = lead V' i := by
  rw [overlap_eq, lead_eq V i i.2.le, lead_eq V' i i.2.le]
  have hA := firstCols_orth hV i i.2.le
  have hB := firstCols_orth hV' i i.2.le
  constructor
  · intro h
    refine le_antisymm (span_le_of_mul (of_abs_det_eq_one hA hB h)) (span_le_of_mul (of_abs_det_eq_one hB hA ?_))
    rw [← h, ← det_transpose, transpose_mul, transpose_transpose]
  · intro h
    obtain ⟨C, hC⟩ := mul_of_span_le h.le
    exact abs_det_eq_one hA hB hC

/-- C98: Li's metric is made from the resampled estimates `V' b`: for dimension `i` it is the mean of `1 - overlap`, divided by
the sum over all dimensions.  So it is 0 for dimension 0, not negative, adds up to 1, and vanishes for a dimension exactly if
no resampling changes the subspace.  If no resampling changes any subspace, all entries are nan. -/
theorem C98_ladle {lib : Model.Subspaces.Lib} (hl : SubLibOK lib) (rng : Rng S) (t : SS) (e : Fin m → ℝ)
    (V : Matrix (Fin m) (Fin m) ℝ) (hV : V.transpose * V = 1) (X : Option (Matrix (Fin M) (Fin m) ℝ)) (f : Option (Fin M → ℝ))
    (df : Option (Matrix (Fin M) (Fin m) ℝ)) (w : Fin M → ℝ) (h : X ≠ none ∨ df ≠ none) (k : ℕ) (u u' : S × E) (r : BootRes)
    (hr : (bootstrap_ranges lib rng t ⟨m, e, V⟩ (X.map NpMat.of) (f.map fun f => .mat (wcol f))
      (df.map fun G => .mat (NpMat.of G)) (wcol w) k).run u = (.ok r, u')) :
    ∃ (b : Boot m) (ind : Fin (k + 1) → Fin M → Fin M) (e' : Fin (k + 1) → Fin m → ℝ)
      (V' : Fin (k + 1) → Matrix (Fin m) (Fin m) ℝ), r = ⟨m, b⟩ ∧
      (∀ i, ∃ u1 u2 : S × E, (estimate lib rng t (X.map fun X => X.submatrix (ind i) id) (f.map fun f => f ∘ ind i)
        (df.map fun X => X.submatrix (ind i) id) (w ∘ ind i)).run u1 = (.ok ⟨m, e' i, V' i⟩, u2)) ∧
      ((∀ (i : Fin m) c, lead V i = lead (V' c) i) → ∀ i, b.li_F i = none) ∧
      ((∃ (i : Fin m) (c : _), lead V i ≠ lead (V' c) i) → ∃ F : Fin m → ℝ, (∀ i, b.li_F i = some (F i)) ∧
        (∀ i : Fin m, (i : ℕ) = 0 → F i = 0) ∧ (∀ i, 0 ≤ F i) ∧ ∑ i, F i = 1 ∧ (∀ i, F i = 0 ↔ ∀ c, lead V i = lead (V' c) i) ∧
        ∀ i, F i * ∑ j, ∑ c, (1 - overlap V (V' c) j) = ∑ c, (1 - overlap V (V' c) i)) := by
  rw [ranges_eq lib rng t e V X f df w h k] at hr
  obtain ⟨c, u1, h1, h2⟩ := bind_ok hr
  obtain ⟨ind, e', V', hb⟩ := bootLoop_inv hl rng t X f df w V (k + 1) u u1 c h1
  have hr' : r = ⟨m, bootRanges c⟩ := (Except.ok.inj (Prod.mk.inj h2).1).symm
  have hk : (0 : ℝ) < ((k + 1 : ℕ) : ℝ) := by exact_mod_cast Nat.succ_pos k
  -- the numbers before normalisation
  set D : Fin m → ℝ := fun i => ∑ b, (1 - overlap V (V' b) i) with hD
  have hov := fun b i => overlap_le hV (hb b).2.1 i
  have hD0 : ∀ i, 0 ≤ D i := fun i => Finset.sum_nonneg fun b _ => by linarith [(hov b i).2]
  have hDz : ∀ i, D i = 0 ↔ ∀ b, lead V i = lead (V' b) i := by
    intro i
    simp only [hD]
    rw [Finset.sum_eq_zero_iff_of_nonneg fun b _ => by linarith [(hov b i).2]]
    constructor
    · intro h b
      have := h b (Finset.mem_univ b)
      exact (overlap_eq_one hV (hb b).2.1 i).mp (by linarith)
    · intro h b _
      rw [(overlap_eq_one hV (hb b).2.1 i).mpr (h b), sub_self]
  have hraw : ∀ i : Fin m, (if h : (i : ℕ) = 0 then (0 : ℝ) else (∑ b, (1 - |(c b).det ⟨i - 1, by omega⟩|)) / ((k + 1 : ℕ) : ℝ))
      = D i / ((k + 1 : ℕ) : ℝ) := by
    intro i
    obtain ⟨i, hi⟩ := i
    cases i with
    | zero =>
      rw [dif_pos rfl]
      have : D ⟨0, hi⟩ = 0 := by
        refine (hDz _).mpr fun b => ?_
        have h0 : ∀ V : Matrix (Fin m) (Fin m) ℝ, lead V 0 = ⊥ := by
          intro V
          rw [lead, Submodule.span_eq_bot]
          rintro v ⟨i, hi, -⟩
          omega
        exact (h0 V).trans (h0 (V' b)).symm
      rw [this, zero_div]
    | succ i =>
      rw [dif_neg (Nat.succ_ne_zero i)]
      congr 1
      refine Finset.sum_congr rfl fun b _ => ?_
      rw [(hb b).1]
      rfl
  have hli : ∀ i, (bootRanges c).li_F i = Np.divNan (D i / ((k + 1 : ℕ) : ℝ)) (∑ j, D j / ((k + 1 : ℕ) : ℝ)) := by
    intro i
    change Np.divNan (dite _ _ _) (∑ j : Fin m, dite _ _ _) = _
    rw [hraw i, Finset.sum_congr rfl fun j _ => hraw j]
  refine ⟨bootRanges c, ind, e', V', hr', fun i => (hb i).2.2, fun hall i => ?_, fun ⟨i0, b0, h0⟩ => ?_⟩
  · rw [hli, Finset.sum_eq_zero fun j _ => by rw [(hDz j).mpr fun b => hall j b, zero_div]]
    exact if_pos rfl
  · have hpos : 0 < ∑ j, D j := by
      refine lt_of_lt_of_le (lt_of_le_of_ne (hD0 i0) fun h => h0 ((hDz i0).mp h.symm b0)) ?_
      exact Finset.single_le_sum (fun j _ => hD0 j) (Finset.mem_univ i0)
    refine ⟨fun i => D i / ∑ j, D j, fun i => ?_, fun i hi => ?_, fun i => div_nonneg (hD0 i) hpos.le, ?_, fun i => ?_, fun i => ?_⟩
    · rw [hli, ← Finset.sum_div]
      refine (if_neg (div_pos hpos hk).ne').trans ?_
      rw [div_div_div_cancel_right₀ hk.ne']
    · have := hraw i
      rw [dif_pos hi] at this
      have h3 : D i = 0 := by
        rcases div_eq_zero_iff.mp this.symm with h | h
        · exact h
        · exact absurd h hk.ne'
      beta_reduce
      rw [h3, zero_div]
    · rw [← Finset.sum_div, div_self hpos.ne']
    · rw [div_eq_zero_iff, or_iff_left hpos.ne', hDz]
    · exact div_mul_cancel₀ _ hpos.ne'

/-- C98 applies to every gradient sample. -/
example {lib : Model.Subspaces.Lib} (hl : SubLibOK lib) (rng : Rng S) (u : S × E) : ∃ (b : Boot 2) (u' : S × E),
    (bootstrap_ranges lib rng .AS ⟨2, ![2, 1], 1⟩ none none
      (some (.mat (NpMat.of (!![2, 0; 0, 1] : Matrix (Fin 2) (Fin 2) ℝ)))) (wcol fun _ : Fin 2 => 1 / 2) 9).run u = (.ok ⟨2, b⟩, u') ∧
    ((∀ i, b.li_F i = none) ∨ b.li_F 0 = some 0 ∧ b.li_F 1 = some 1) := by
  obtain ⟨b, u', h⟩ := C41_succeeds (X := none) (f := none) hl rng .AS ![2, 1] (1 : Matrix (Fin 2) (Fin 2) ℝ) (some !![2, 0; 0, 1])
    (fun _ : Fin 2 => 1 / 2) (by norm_num) (.inr (by simp)) (estimateOK_AS hl rng (by norm_num) none none _ _) 9 u
  obtain ⟨b', -, -, V', hb, -, h1, h2⟩ := C98_ladle (X := none) (f := none) hl rng .AS ![2, 1] (1 : Matrix (Fin 2) (Fin 2) ℝ) (by simp)
    (some !![2, 0; 0, 1]) (fun _ : Fin 2 => 1 / 2) (.inr (by simp)) 9 u u' _ h
  obtain rfl : b = b' := by cases hb; rfl
  refine ⟨b, u', h, ?_⟩
  by_cases hall : ∀ (i : Fin 2) c, lead (1 : Matrix (Fin 2) (Fin 2) ℝ) i = lead (V' c) i
  · exact .inl (h1 hall)
  · push Not at hall
    obtain ⟨F, hF, hF0, -, hsum, -⟩ := h2 hall
    have h0 := hF0 0 rfl
    rw [Fin.sum_univ_two, h0, zero_add] at hsum
    exact .inr ⟨(hF 0).trans (by rw [h0]), (hF 1).trans (by rw [hsum])⟩

end Props
