import Verif.Proofs.Bootstrap

/-!
# Property C41: bootstrap ranges
-/

open Py Model.Subspaces Model.Misc Spec Matrix Proofs.Eigh Proofs.Bootstrap

namespace Props

variable {S E : Type} {M m : ℕ}

/-! ## Distance of two subspaces -/

/-- Lengths of the projections on the first `n` columns of `V`, of vectors no longer than one that are orthogonal to the first
`n` columns of `V'`. -/
def leakage (V V' : Matrix (Fin m) (Fin m) ℝ) (n : ℕ) : Set ℝ :=
  {y | ∃ v : Fin m → ℝ, ∑ r, v r ^ 2 ≤ 1 ∧ (∀ i : Fin m, (i : ℕ) < n → ∑ r, V' r i * v r = 0) ∧
    y = Real.sqrt (∑ i : Fin m, if (i : ℕ) < n then (∑ r, V r i * v r) ^ 2 else 0)}

theorem sum_lt (g : Fin m → ℝ) (n : ℕ) (hn : n ≤ m) :
    ∑ i : Fin m, (if (i : ℕ) < n then g i else 0) = ∑ i : Fin n, g (Fin.castLE hn i) := by
  rw [← Finset.sum_filter]
  refine (Finset.sum_bij (fun (i : Fin n) _ => Fin.castLE hn i) (fun i _ => ?_) (fun i _ j _ h => ?_) (fun i hi => ?_)
    (fun i _ => rfl)).symm
  · simp
  · exact Fin.castLE_injective hn h
  · simp only [Finset.mem_filter, Finset.mem_univ, true_and] at hi
    exact ⟨⟨i, hi⟩, Finset.mem_univ _, rfl⟩

theorem sum_ge (g : Fin m → ℝ) (n : ℕ) :
    ∑ i : Fin m, (if (i : ℕ) < n then 0 else g i) = ∑ i : Fin (m - n), g ⟨n + i, by omega⟩ := by
  have h1 : ∀ i : Fin m, (if (i : ℕ) < n then (0 : ℝ) else g i) = if n ≤ (i : ℕ) then g i else 0 := by
    intro i
    by_cases h : (i : ℕ) < n
    · rw [if_pos h, if_neg (by omega)]
    · rw [if_neg h, if_pos (by omega)]
  rw [Finset.sum_congr rfl fun i _ => h1 i, ← Finset.sum_filter]
  refine (Finset.sum_bij (fun (i : Fin (m - n)) _ => (⟨n + i, by omega⟩ : Fin m)) (fun i _ => ?_) (fun i _ j _ h => ?_)
    (fun i hi => ?_) (fun i _ => rfl)).symm
  · simp
  · have := congrArg Fin.val h
    exact Fin.ext (by simpa using this)
  · simp only [Finset.mem_filter, Finset.mem_univ, true_and] at hi
    exact ⟨⟨i - n, by omega⟩, Finset.mem_univ _, Fin.ext (by simp only; omega)⟩

theorem leakage_eq (V : Matrix (Fin m) (Fin m) ℝ) {V' : Matrix (Fin m) (Fin m) ℝ} (h' : V'.transpose * V' = 1) (n : ℕ)
    (hn : n ≤ m) :
    leakage V V' n = {y | ∃ x : Fin (m - n) → ℝ, ∑ j, x j ^ 2 ≤ 1 ∧
      y = Real.sqrt (∑ i, ((Np.firstCols V n hn).transpose * Np.lastCols V' n).mulVec x i ^ 2)} := by
  have hV : V' * V'.transpose = 1 := mul_eq_one_comm.mp h'
  have hval : ∀ (v : Fin m → ℝ) (x : Fin (m - n) → ℝ), v = (Np.lastCols V' n).mulVec x →
      (∑ i : Fin m, if (i : ℕ) < n then (∑ r, V r i * v r) ^ 2 else 0)
        = ∑ i, ((Np.firstCols V n hn).transpose * Np.lastCols V' n).mulVec x i ^ 2 := by
    intro v x hv
    rw [sum_lt (fun i => (∑ r, V r i * v r) ^ 2) n hn]
    refine Finset.sum_congr rfl fun i _ => ?_
    rw [← Matrix.mulVec_mulVec, ← hv]
    rfl
  have hpars : ∀ v : Fin m → ℝ, ∑ j, (∑ r, V' r j * v r) ^ 2 = ∑ r, v r ^ 2 := by
    intro v
    have h1 := Proofs.KyFan.parseval h' v
    simp only [dotProduct, Matrix.mulVec, Matrix.transpose_apply] at h1
    simp only [sq]
    exact h1
  have hexp : ∀ (v : Fin m → ℝ), (∀ i : Fin m, (i : ℕ) < n → ∑ r, V' r i * v r = 0) →
      v = (Np.lastCols V' n).mulVec fun j => ∑ r, V' r ⟨n + j, by omega⟩ * v r := by
    intro v hz
    have h1 : (V' * V'.transpose).mulVec v = v := by rw [hV, Matrix.one_mulVec]
    rw [← Matrix.mulVec_mulVec] at h1
    conv_lhs => rw [← h1]
    funext k
    have h2 : ∀ j : Fin m, V' k j * V'.transpose.mulVec v j = if (j : ℕ) < n then 0 else V' k j * ∑ r, V' r j * v r := by
      intro j
      have : V'.transpose.mulVec v j = ∑ r, V' r j * v r := rfl
      rw [this]
      split_ifs with h
      · rw [hz j h, mul_zero]
      · rfl
    rw [Matrix.mulVec, dotProduct, Finset.sum_congr rfl fun j _ => h2 j, sum_ge]
    rfl
  ext y
  constructor
  · rintro ⟨v, h1, h2, rfl⟩
    refine ⟨_, ?_, congrArg _ (hval v _ (hexp v h2))⟩
    rw [← hpars v] at h1
    have h3 : ∑ j, (∑ r, V' r j * v r) ^ 2 = ∑ j : Fin m, (if (j : ℕ) < n then 0 else (∑ r, V' r j * v r) ^ 2) :=
      Finset.sum_congr rfl fun j _ => by
        split_ifs with h
        · rw [h2 j h]; norm_num
        · rfl
    rwa [h3, sum_ge] at h1
  · rintro ⟨x, h1, rfl⟩
    have hcol : ∀ i : Fin m, ∑ r, V' r i * (Np.lastCols V' n).mulVec x r
        = ∑ j : Fin (m - n), (if i = ⟨n + j, by omega⟩ then 1 else 0) * x j := by
      intro i
      simp only [Matrix.mulVec, dotProduct, Finset.mul_sum]
      rw [Finset.sum_comm]
      refine Finset.sum_congr rfl fun j _ => ?_
      rw [← orth_entry h' i ⟨n + j, by omega⟩, Finset.sum_mul]
      exact Finset.sum_congr rfl fun r _ => by rw [mul_assoc]; rfl
    have hlow : ∀ i : Fin m, (i : ℕ) < n → ∑ r, V' r i * (Np.lastCols V' n).mulVec x r = 0 := by
      intro i hi
      rw [hcol]
      refine Finset.sum_eq_zero fun j _ => ?_
      rw [if_neg (fun h => by have := congrArg Fin.val h; simp at this; omega), zero_mul]
    refine ⟨(Np.lastCols V' n).mulVec x, ?_, hlow, congrArg _ (hval _ x rfl).symm⟩
    rw [← hpars]
    have h3 : ∑ j, (∑ r, V' r j * (Np.lastCols V' n).mulVec x r) ^ 2
        = ∑ j : Fin m, (if (j : ℕ) < n then 0 else (∑ r, V' r j * (Np.lastCols V' n).mulVec x r) ^ 2) :=
      Finset.sum_congr rfl fun j _ => by
        split_ifs with h
        · rw [hlow j h]; norm_num
        · rfl
    rw [h3, sum_ge]
    refine le_of_eq_of_le (Finset.sum_congr rfl fun j _ => ?_) h1
    rw [hcol, Finset.sum_eq_single j]
    · rw [if_pos rfl, one_mul]
    · intro k _ hk
      rw [if_neg (fun h => hk (Fin.ext (by have := congrArg Fin.val h; simp at this; omega))), zero_mul]
    · intro h; exact absurd (Finset.mem_univ _) h

/-- The subspace distance is the supremum of the leakage, between 0 and 1. -/
theorem dist_leakage {V V' : Matrix (Fin m) (Fin m) ℝ} (h : V.transpose * V = 1) (h' : V'.transpose * V' = 1) (e' : Fin m → ℝ)
    (j : Fin (m - 1)) :
    IsLUB (leakage V V' (j + 1)) ((bootCol V e' V').dist j) ∧ 0 ≤ (bootCol V e' V').dist j ∧ (bootCol V e' V').dist j ≤ 1 := by
  have hn : (j : ℕ) + 1 ≤ m := by omega
  have hne : (leakage V V' (j + 1)).Nonempty := ⟨_, 0, by simp, by simp, rfl⟩
  have hle : ∀ y ∈ leakage V V' (j + 1), y ≤ 1 := by
    rintro y ⟨v, h1, -, rfl⟩
    rw [Real.sqrt_le_one]
    refine le_trans ?_ h1
    have h2 := Proofs.KyFan.parseval h v
    simp only [dotProduct, Matrix.mulVec, Matrix.transpose_apply, ← sq] at h2
    rw [← h2]
    refine Finset.sum_le_sum fun i _ => ?_
    split_ifs
    · exact le_rfl
    · exact sq_nonneg _
  have hd : (bootCol V e' V').dist j = sSup (leakage V V' (j + 1)) := by
    rw [leakage_eq V h' (j + 1) hn]
    rfl
  have hlub := isLUB_csSup hne ⟨1, hle⟩
  rw [← hd] at hlub
  refine ⟨hlub, ?_, hlub.2 hle⟩
  obtain ⟨y, hy⟩ := hne
  refine le_trans ?_ (hlub.1 hy)
  obtain ⟨v, -, -, rfl⟩ := hy
  exact Real.sqrt_nonneg _

/-! ## The loop -/

theorem bootLoop_inv {lib : Model.Subspaces.Lib} (hl : SubLibOK lib) (rng : Rng S) (t : SS) (X : Option (Matrix (Fin M) (Fin m) ℝ))
    (f : Option (Fin M → ℝ)) (df : Option (Matrix (Fin M) (Fin m) ℝ)) (w : Fin M → ℝ) (V : Matrix (Fin m) (Fin m) ℝ) (n : ℕ) :
    ∀ (u u' : S × E) (c : Fin n → BootCol m), (bootLoop lib rng t (dataOf X f df w) V n).run u = (.ok c, u') →
    ∃ (ind : Fin n → Fin M → Fin M) (e : Fin n → Fin m → ℝ) (V' : Fin n → Matrix (Fin m) (Fin m) ℝ), ∀ b,
      c b = bootCol V (e b) (V' b) ∧ (V' b).transpose * V' b = 1 ∧
      ∃ u1 u2 : S × E, (estimate lib rng t (X.map fun X => X.submatrix (ind b) id) (f.map fun f => f ∘ ind b)
        (df.map fun X => X.submatrix (ind b) id) (w ∘ ind b)).run u1 = (.ok ⟨m, e b, V' b⟩, u2) := by
  induction n with
  | zero => exact fun _ _ _ _ => ⟨Fin.elim0, Fin.elim0, Fin.elim0, fun b => b.elim0⟩
  | succ n ih =>
    intro u u' c h
    unfold bootLoop at h
    obtain ⟨d0, u1, h1, h⟩ := bind_ok h
    obtain ⟨ind, rfl⟩ := replicate_inv rng X f df w u u1 d0 h1
    obtain ⟨p0, u2, h2, h⟩ := bind_ok h
    rw [estimate_eq] at h2
    obtain ⟨e, V', rfl, ho, -⟩ := estimate_good hl rng t _ _ _ _ h2
    rw [dif_pos (show (EigPair.mk m e V').m = m from rfl)] at h
    obtain ⟨cs, u3, h3, h⟩ := bind_ok h
    obtain ⟨ind', e'', V'', hb⟩ := ih u2 u3 cs h3
    have hc : c = Fin.cons (bootCol V e V') cs := (Except.ok.inj (Prod.mk.inj h).1).symm
    subst hc
    refine ⟨Fin.cons ind ind', Fin.cons e e'', Fin.cons V' V'', fun b => ?_⟩
    refine Fin.cases ?_ (fun b => ?_) b
    · simp only [Fin.cons_zero]
      exact ⟨trivial, ho, u1, u2, h2⟩
    · simp only [Fin.cons_succ]
      exact hb b

theorem ranges_eq (lib : Model.Subspaces.Lib) (rng : Rng S) (t : SS) (e : Fin m → ℝ) (V : Matrix (Fin m) (Fin m) ℝ)
    (X : Option (Matrix (Fin M) (Fin m) ℝ)) (f : Option (Fin M → ℝ)) (df : Option (Matrix (Fin M) (Fin m) ℝ)) (w : Fin M → ℝ)
    (h : X ≠ none ∨ df ≠ none) (k : ℕ) :
    (bootstrap_ranges lib rng t ⟨m, e, V⟩ (X.map NpMat.of) (f.map fun f => .mat (wcol f)) (df.map fun G => .mat (NpMat.of G))
      (wcol w) k : PyM (S × E) BootRes) = (do
        let c ← bootLoop lib rng t (dataOf X f df w) V (k + 1)
        return ⟨m, bootRanges c⟩) := by
  have h1 : (df.map fun G => Arr.mat (NpMat.of G)).mapM process_inputs = .ok (df.map NpMat.of) := by
    cases df with
    | none => rfl
    | some G => rfl
  unfold bootstrap_ranges
  rw [h1]
  cases df with
  | some G => exact dif_pos rfl
  | none =>
    cases X with
    | some X => exact dif_pos rfl
    | none => simp at h

/-- The estimate succeeds on every sample of `M` points with the same kinds of data. -/
def EstimateOK (lib : Model.Subspaces.Lib) (rng : Rng S) (E : Type) (t : SS) (X : Option (Matrix (Fin M) (Fin m) ℝ))
    (f : Option (Fin M → ℝ)) (df : Option (Matrix (Fin M) (Fin m) ℝ)) (w : Fin M → ℝ) : Prop :=
  ∀ (ind : Fin M → Fin M) (u : S × E), ∃ p u', (estimate lib rng t (X.map fun X => X.submatrix ind id) (f.map fun f => f ∘ ind)
    (df.map fun X => X.submatrix ind id) (w ∘ ind)).run u = (.ok p, u')

theorem bootLoop_ok {lib : Model.Subspaces.Lib} (hl : SubLibOK lib) (rng : Rng S) (t : SS) (X : Option (Matrix (Fin M) (Fin m) ℝ))
    (f : Option (Fin M → ℝ)) (df : Option (Matrix (Fin M) (Fin m) ℝ)) (w : Fin M → ℝ) (hM : 0 < M)
    (hok : EstimateOK lib rng E t X f df w) (V : Matrix (Fin m) (Fin m) ℝ) (n : ℕ) :
    ∀ u : S × E, ∃ c u', (bootLoop lib rng t (dataOf X f df w) V n).run u = (.ok c, u') := by
  induction n with
  | zero => exact fun u => ⟨_, u, rfl⟩
  | succ n ih =>
    intro u
    obtain ⟨ind, u1, h1⟩ := replicate_ok rng X f df w hM u
    obtain ⟨p, u2, h2⟩ := hok ind u1
    obtain ⟨e, V', rfl, -⟩ := estimate_good hl rng t _ _ _ _ h2
    obtain ⟨cs, u3, h3⟩ := ih u2
    unfold bootLoop
    rw [PyM.run_bind_ok h1, estimate_eq, PyM.run_bind_ok h2, dif_pos (show (EigPair.mk m e V').m = m from rfl),
      PyM.run_bind_ok h3]
    exact ⟨_, _, rfl⟩

/-! ## C41 -/

theorem min'_spec {k : ℕ} (v : Fin (k + 1) → ℝ) : (∀ b, min' v ≤ v b) ∧ ∃ b, min' v = v b := by
  refine ⟨fun b => Finset.inf'_le _ (Finset.mem_univ b), ?_⟩
  obtain ⟨b, -, hb⟩ := Finset.exists_mem_eq_inf' Finset.univ_nonempty v
  exact ⟨b, hb⟩

theorem max'_spec {k : ℕ} (v : Fin (k + 1) → ℝ) : (∀ b, v b ≤ max' v) ∧ ∃ b, max' v = v b := by
  refine ⟨fun b => Finset.le_sup' v (Finset.mem_univ b), ?_⟩
  obtain ⟨b, -, hb⟩ := Finset.exists_mem_eq_sup' Finset.univ_nonempty v
  exact ⟨b, hb⟩

theorem min_le_mean {k : ℕ} (v : Fin (k + 1) → ℝ) : min' v ≤ (∑ b, v b) / ((k + 1 : ℕ) : ℝ) := by
  have hk : (0 : ℝ) < ((k + 1 : ℕ) : ℝ) := by exact_mod_cast Nat.succ_pos k
  rw [le_div_iff₀ hk]
  have := Finset.card_nsmul_le_sum Finset.univ v (min' v) fun b _ => (min'_spec v).1 b
  rwa [Finset.card_univ, Fintype.card_fin, nsmul_eq_mul, mul_comm] at this

theorem mean_le_max {k : ℕ} (v : Fin (k + 1) → ℝ) : (∑ b, v b) / ((k + 1 : ℕ) : ℝ) ≤ max' v := by
  have hk : (0 : ℝ) < ((k + 1 : ℕ) : ℝ) := by exact_mod_cast Nat.succ_pos k
  rw [div_le_iff₀ hk]
  have := Finset.sum_le_card_nsmul Finset.univ v (max' v) fun b _ => (max'_spec v).1 b
  rwa [Finset.card_univ, Fintype.card_fin, nsmul_eq_mul, mul_comm] at this

/-- C41: there are resamplings (rows of the data, kept paired) whose estimates the ranges describe: `e_br` holds the least and
the greatest eigenvalues, `sub_br` the least, the mean and the greatest subspace distance, all in `[0, 1]`. -/
theorem C41_ranges {lib : Model.Subspaces.Lib} (hl : SubLibOK lib) (rng : Rng S) (t : SS) (e : Fin m → ℝ)
    (V : Matrix (Fin m) (Fin m) ℝ) (hV : V.transpose * V = 1) (X : Option (Matrix (Fin M) (Fin m) ℝ)) (f : Option (Fin M → ℝ))
    (df : Option (Matrix (Fin M) (Fin m) ℝ)) (w : Fin M → ℝ) (h : X ≠ none ∨ df ≠ none) (k : ℕ) (u u' : S × E) (r : BootRes)
    (hr : (bootstrap_ranges lib rng t ⟨m, e, V⟩ (X.map NpMat.of) (f.map fun f => .mat (wcol f))
      (df.map fun G => .mat (NpMat.of G)) (wcol w) k).run u = (.ok r, u')) :
    ∃ (b : Boot m) (ind : Fin (k + 1) → Fin M → Fin M) (e' : Fin (k + 1) → Fin m → ℝ)
      (V' : Fin (k + 1) → Matrix (Fin m) (Fin m) ℝ) (d : Fin (k + 1) → Fin (m - 1) → ℝ), r = ⟨m, b⟩ ∧
      (∀ i, ∃ u1 u2 : S × E, (estimate lib rng t (X.map fun X => X.submatrix (ind i) id) (f.map fun f => f ∘ ind i)
        (df.map fun X => X.submatrix (ind i) id) (w ∘ ind i)).run u1 = (.ok ⟨m, e' i, V' i⟩, u2)) ∧
      (∀ j, (∀ i, b.e_br j 0 ≤ e' i j ∧ e' i j ≤ b.e_br j 1) ∧ (∃ i, b.e_br j 0 = e' i j) ∧ ∃ i, b.e_br j 1 = e' i j) ∧
      (∀ i (j : Fin (m - 1)), IsLUB (leakage V (V' i) (j + 1)) (d i j)) ∧
      ∀ j, (∀ i, b.sub_br j 0 ≤ d i j ∧ d i j ≤ b.sub_br j 2) ∧ (∃ i, b.sub_br j 0 = d i j) ∧ (∃ i, b.sub_br j 2 = d i j) ∧
        b.sub_br j 1 = (∑ i, d i j) / (k + 1) ∧
        0 ≤ b.sub_br j 0 ∧ b.sub_br j 0 ≤ b.sub_br j 1 ∧ b.sub_br j 1 ≤ b.sub_br j 2 ∧ b.sub_br j 2 ≤ 1 := by
  rw [ranges_eq lib rng t e V X f df w h k] at hr
  obtain ⟨c, u1, h1, h2⟩ := bind_ok hr
  obtain ⟨ind, e', V', hb⟩ := bootLoop_inv hl rng t X f df w V (k + 1) u u1 c h1
  have hr' : r = ⟨m, bootRanges c⟩ := (Except.ok.inj (Prod.mk.inj h2).1).symm
  have hce : ∀ i, (c i).e = e' i := fun i => by rw [(hb i).1]; rfl
  have hlk := fun i j => dist_leakage hV (hb i).2.1 (e' i) j
  have hd : ∀ i j, (c i).dist j = (bootCol V (e' i) (V' i)).dist j := fun i j => by rw [(hb i).1]
  have hmin := fun j : Fin m => min'_spec fun i => (c i).e j
  have hmax := fun j : Fin m => max'_spec fun i => (c i).e j
  have dmin := fun j : Fin (m - 1) => min'_spec fun i => (c i).dist j
  have dmax := fun j : Fin (m - 1) => max'_spec fun i => (c i).dist j
  simp only [hce] at hmin hmax
  refine ⟨bootRanges c, ind, e', V', fun i j => (c i).dist j, hr', fun i => (hb i).2.2, fun j => ?_, fun i j => ?_, fun j => ?_⟩
  · have e0 : (bootRanges c).e_br j 0 = min' fun i => e' i j := by simp [bootRanges, hce]
    have e1 : (bootRanges c).e_br j 1 = max' fun i => e' i j := by simp [bootRanges, hce]
    rw [e0, e1]
    exact ⟨fun i => ⟨(hmin j).1 i, (hmax j).1 i⟩, (hmin j).2, (hmax j).2⟩
  · simp only [hd]
    exact (hlk i j).1
  · have e0 : (bootRanges c).sub_br j 0 = min' fun i => (c i).dist j := by simp [bootRanges]
    have e1 : (bootRanges c).sub_br j 1 = (∑ i, (c i).dist j) / ((k + 1 : ℕ) : ℝ) := by simp [bootRanges]
    have e2 : (bootRanges c).sub_br j 2 = max' fun i => (c i).dist j := by simp [bootRanges]
    rw [e0, e1, e2]
    refine ⟨fun i => ⟨(dmin j).1 i, (dmax j).1 i⟩, (dmin j).2, (dmax j).2, by push_cast; rfl, ?_, min_le_mean _, mean_le_max _, ?_⟩
    · obtain ⟨i, hi⟩ := (dmin j).2
      rw [hi, hd]
      exact (hlk i j).2.1
    · obtain ⟨i, hi⟩ := (dmax j).2
      rw [hi, hd]
      exact (hlk i j).2.2

/-- C41: the bootstrap succeeds when the estimate succeeds on every resampling. -/
theorem C41_succeeds {lib : Model.Subspaces.Lib} (hl : SubLibOK lib) (rng : Rng S) (t : SS) (e : Fin m → ℝ)
    (V : Matrix (Fin m) (Fin m) ℝ) (X : Option (Matrix (Fin M) (Fin m) ℝ)) (f : Option (Fin M → ℝ))
    (df : Option (Matrix (Fin M) (Fin m) ℝ)) (w : Fin M → ℝ) (hM : 0 < M) (h : X ≠ none ∨ df ≠ none)
    (hok : EstimateOK lib rng E t X f df w) (k : ℕ) (u : S × E) :
    ∃ b u', (bootstrap_ranges lib rng t ⟨m, e, V⟩ (X.map NpMat.of) (f.map fun f => .mat (wcol f))
      (df.map fun G => .mat (NpMat.of G)) (wcol w) k).run u = (.ok ⟨m, b⟩, u') := by
  rw [ranges_eq lib rng t e V X f df w h k]
  obtain ⟨c, u1, h1⟩ := bootLoop_ok hl rng t X f df w hM hok V (k + 1) u
  rw [PyM.run_bind_ok h1]
  exact ⟨_, _, rfl⟩

/-- Gradient data: the estimate always succeeds. -/
theorem estimateOK_AS {lib : Model.Subspaces.Lib} (hl : SubLibOK lib) (rng : Rng S) (hm : 0 < m)
    (X : Option (Matrix (Fin M) (Fin m) ℝ)) (f : Option (Fin M → ℝ)) (G : Matrix (Fin M) (Fin m) ℝ) (w : Fin M → ℝ) :
    EstimateOK lib rng E .AS X f (some G) w := by
  intro ind u
  obtain ⟨e, V, h, -⟩ := C34_sorted lib hl hm _ (gradOuter_symm (G.submatrix ind id) (w ∘ ind))
  refine ⟨⟨m, e, V⟩, u, ?_⟩
  change (active_subspace lib (.mat (NpMat.of (G.submatrix ind id))) (wcol (w ∘ ind)), u) = _
  rw [active_subspace_eq, h]

/-- Linear model: the estimate always succeeds. -/
theorem estimateOK_OLS {lib : Model.Subspaces.Lib} (hl : SubLibOK lib) (rng : Rng S) (hm : 0 < m)
    (X : Matrix (Fin M) (Fin m) ℝ) (f : Fin M → ℝ) (df : Option (Matrix (Fin M) (Fin m) ℝ)) (w : Fin M → ℝ) :
    EstimateOK lib rng E .OLS (some X) (some f) df w := by
  intro ind u
  obtain ⟨v, -, h1⟩ := ols_eq lib (X.submatrix ind id) (f ∘ ind) (w ∘ ind)
  obtain ⟨e, V, h, -⟩ := C34_posSemidef lib hl hm _ (rank_one_posSemidef fun k => v (Fin.natAdd 1 k))
  refine ⟨⟨m, e, V⟩, u, ?_⟩
  change (ols_subspace lib (.mat (NpMat.of (X.submatrix ind id))) (.mat (wcol (f ∘ ind))) (wcol (w ∘ ind)), u) = _
  rw [h1, h]

/-- Quadratic model: the estimate succeeds when there are enough samples. -/
theorem estimateOK_QPHD {lib : Model.Subspaces.Lib} (hl : SubLibOK lib) (rng : Rng S) (hm : 0 < m)
    (X : Matrix (Fin M) (Fin m) ℝ) (f : Fin M → ℝ) (df : Option (Matrix (Fin M) (Fin m) ℝ)) (w : Fin M → ℝ)
    (hM : (2 + m).choose m ≤ M) : EstimateOK lib rng E .QPHD (some X) (some f) df w := by
  intro ind u
  have hM0 : 0 < M := lt_of_lt_of_le (Nat.choose_pos (by omega)) hM
  obtain ⟨γ, hγ, hγ0⟩ : ∃ γ, gamma (NpMat.of (X.submatrix ind id)) = .ok γ ∧ 0 ≤ γ := by
    rcases gamma_of (X.submatrix ind id) hM0 hm with ⟨-, h⟩ | ⟨-, h⟩
    · exact ⟨_, h, by norm_num⟩
    · exact ⟨_, h, by norm_num⟩
  obtain ⟨P, -, -, h1⟩ := qphd_eq lib hl.lstsq hm (X.submatrix ind id) (f ∘ ind) (w ∘ ind) hM hγ
  obtain ⟨e, V, h, -⟩ := C34_posSemidef lib hl hm _ (qphd_posSemidef (fun k => MvPolynomial.eval 0 (MvPolynomial.pderiv k P))
    (Matrix.of fun k r => MvPolynomial.eval 0 (MvPolynomial.pderiv k (MvPolynomial.pderiv r P))) hγ0)
  refine ⟨⟨m, e, V⟩, u, ?_⟩
  change (qphd_subspace lib (.mat (NpMat.of (X.submatrix ind id))) (.mat (wcol (f ∘ ind))) (wcol (w ∘ ind)), u) = _
  rw [h1]
  exact congrArg (·, u) h

/-- C41 applies to every gradient sample: two points in the plane. -/
example {lib : Model.Subspaces.Lib} (hl : SubLibOK lib) (rng : Rng S) (u : S × E) : ∃ (r : BootRes) (u' : S × E),
    (bootstrap_ranges lib rng .AS ⟨2, ![2, 1], 1⟩ none none
      (some (.mat (NpMat.of (!![2, 0; 0, 1] : Matrix (Fin 2) (Fin 2) ℝ)))) (wcol fun _ : Fin 2 => 1 / 2) 9).run u = (.ok r, u') := by
  obtain ⟨b, u', h⟩ := C41_succeeds (X := none) (f := none) hl rng .AS ![2, 1] (1 : Matrix (Fin 2) (Fin 2) ℝ) (some !![2, 0; 0, 1])
    (fun _ : Fin 2 => 1 / 2) (by norm_num) (.inr (by simp)) (estimateOK_AS hl rng (by norm_num) none none _ _) 9 u
  exact ⟨_, u', h⟩

end Props
