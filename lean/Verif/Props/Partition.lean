import Verif.Props.ActiveSubspace

/-!
# Properties C38 to C40: the dimension of the active subspace
-/

open Py Model.Subspaces

namespace Props

variable {m : ℕ}

/-! ## C38 -/

/-- C38: the smallest `n` with the largest gap `|e_n - e_{n+1}|` (`n` counts from 1). -/
theorem C38_gap (hm : 2 ≤ m) (e : Fin m → ℝ) :
    ∃ (n : ℕ) (h1 : 1 ≤ n) (h2 : n < m) (d : Fin (m - 1) → ℝ), eig_partition e = .ok (n, d) ∧
      (∀ i : Fin (m - 1), d i = |e ⟨i, by omega⟩ - e ⟨i + 1, by omega⟩|) ∧
      (∀ k (_ : 1 ≤ k) (hk : k < m), |e ⟨k - 1, by omega⟩ - e ⟨k, hk⟩| ≤ |e ⟨n - 1, by omega⟩ - e ⟨n, h2⟩|) ∧
      ∀ k (_ : 1 ≤ k) (hk : k < n), |e ⟨k - 1, by omega⟩ - e ⟨k, by omega⟩| < |e ⟨n - 1, by omega⟩ - e ⟨n, h2⟩| := by
  obtain ⟨i, hi, hmax, hfirst⟩ := Np.argmax_ok (fun i : Fin (m - 1) => |e ⟨i + 1, by omega⟩ - e ⟨i, by omega⟩|) (by omega)
  refine ⟨i + 1, by omega, by omega, fun i => |e ⟨i + 1, by omega⟩ - e ⟨i, by omega⟩|, ?_, fun i => abs_sub_comm _ _,
    fun k hk1 hk => ?_, fun k hk1 hk => ?_⟩
  · unfold eig_partition
    simp only
    rw [hi]
    rfl
  · have := hmax ⟨k - 1, by omega⟩
    simp only [Nat.sub_add_cancel hk1] at this
    rw [abs_sub_comm, abs_sub_comm (e _) (e ⟨i + 1, _⟩)]
    exact this
  · have := hfirst ⟨k - 1, by omega⟩ (Fin.lt_def.mpr (by simp only; omega))
    simp only [Nat.sub_add_cancel hk1] at this
    rw [abs_sub_comm, abs_sub_comm (e _) (e ⟨i + 1, _⟩)]
    exact this

/-- C38: fewer than two eigenvalues. -/
theorem C38_error (hm : m ≤ 1) (e : Fin m → ℝ) : eig_partition e = .error .valueError := by
  unfold eig_partition
  have h0 : ∀ (k : ℕ), k = 0 → ∀ v : Fin k → ℝ, Np.argmax v = .error .valueError := by
    intro k hk v
    subst hk
    exact Np.argmax_empty v
  simp only
  rw [h0 (m - 1) (by omega)]
  rfl

example := C38_gap (by norm_num : 2 ≤ 3) ![5, 1, 1]

/-! ## C39 -/

/-- The error bound for dimension `n`. -/
noncomputable def bound (e : Fin m → ℝ) (n : ℕ) (err : ℝ) : ℝ :=
  Real.sqrt (∑ k : Fin m, if (k : ℕ) < n then e k else 0) * err
    + Real.sqrt (∑ k : Fin m, if (k : ℕ) < n then 0 else e k)

/-- C39: the smallest dimension below `m` with the smallest error bound. -/
theorem C39_errbnd (hm : 2 ≤ m) (e : Fin m → ℝ) (err : Fin (m - 1) → ℝ) :
    ∃ (n : ℕ) (h1 : 1 ≤ n) (h2 : n < m) (d : Fin (m - 1) → ℝ), errbnd_partition e (NpVec.of err) = .ok (n, d) ∧
      (∀ i : Fin (m - 1), d i = bound e (i + 1) (err i)) ∧
      (∀ k (_ : 1 ≤ k) (hk : k < m), bound e n (err ⟨n - 1, by omega⟩) ≤ bound e k (err ⟨k - 1, by omega⟩)) ∧
      ∀ k (_ : 1 ≤ k) (hk : k < n), bound e n (err ⟨n - 1, by omega⟩) < bound e k (err ⟨k - 1, by omega⟩) := by
  set v : Fin (m - 1) → ℝ := fun i =>
    Real.sqrt (∑ k ∈ Finset.univ.filter (fun k : Fin m => (k : ℕ) < i + 1), e k) * err i
      + Real.sqrt (∑ k ∈ Finset.univ.filter (fun k : Fin m => (i : ℕ) + 1 ≤ k), e k) with hv
  have hb : ∀ i : Fin (m - 1), v i = bound e (i + 1) (err i) := by
    intro i
    simp only [hv, bound, Finset.sum_filter]
    congr 2
    refine Finset.sum_congr rfl fun k _ => ?_
    by_cases h : (i : ℕ) + 1 ≤ k
    · rw [if_pos h, if_neg (by omega)]
    · rw [if_neg h, if_pos (by omega)]
  have hb' : ∀ k (hk1 : 1 ≤ k) (hk : k < m), bound e k (err ⟨k - 1, by omega⟩) = v ⟨k - 1, by omega⟩ := by
    intro k hk1 hk
    rw [hb]
    simp only [Nat.sub_add_cancel hk1]
  obtain ⟨i, hi, hmin, hfirst⟩ := Np.argmin_ok v (by omega)
  refine ⟨i + 1, by omega, by omega, v, ?_, hb, fun k hk1 hk => ?_, fun k hk1 hk => ?_⟩
  · unfold errbnd_partition
    rw [if_neg (by omega)]
    refine (dif_pos le_rfl).trans ?_
    change (do
      let n ← Np.argmin v
      return ((n : ℕ) + 1, v)) = _
    rw [hi]
    rfl
  · rw [hb' k hk1 hk, hb' (i + 1) (by omega) (by omega)]
    exact hmin _
  · rw [hb' k hk1 (by omega), hb' (i + 1) (by omega) (by omega)]
    exact hfirst _ (Fin.lt_def.mpr (by simp only; omega))

/-- C39: fewer than two eigenvalues, or too few subspace errors. -/
theorem C39_errbnd_errors (e : Fin m → ℝ) (err : NpVec) :
    (m ≤ 1 → errbnd_partition e err = .error .valueError) ∧
    (err.n < m - 1 → errbnd_partition e err = .error .indexError) := by
  refine ⟨fun hm => ?_, fun h => ?_⟩
  · unfold errbnd_partition
    split_ifs with h0 h1
    · rfl
    · have h0 : ∀ (k : ℕ), k = 0 → ∀ v : Fin k → ℝ, Np.argmin v = .error .valueError := by
        intro k hk v
        subst hk
        exact Np.argmin_empty v
      simp only
      rw [h0 (m - 1) (by omega)]
      rfl
    · omega
  · unfold errbnd_partition
    rw [if_neg (by omega), dif_neg (by omega)]

/-- C39: the smallest `n` in `1..m` with the smallest `li_F[n] + e_n / sum(e)`. -/
theorem C39_ladle (hm : 1 ≤ m) (e : Fin m → ℝ) (he : ∑ k, e k ≠ 0) (F : Fin m → ℝ) :
    ∃ (n : ℕ) (h1 : 1 ≤ n) (h2 : n ≤ m) (G : Fin m → Option ℝ), ladle_partition e (fun i => some (F i)) = .ok (n, G) ∧
      (∀ i, G i = some (F i + e i / ∑ k, e k)) ∧
      (∀ k : Fin m, F ⟨n - 1, by omega⟩ + e ⟨n - 1, by omega⟩ / ∑ k, e k ≤ F k + e k / ∑ k, e k) ∧
      ∀ k : Fin m, (k : ℕ) < n - 1 → F ⟨n - 1, by omega⟩ + e ⟨n - 1, by omega⟩ / ∑ k, e k < F k + e k / ∑ k, e k := by
  have hG : ∀ i, (do
      let a ← some (F i)
      let b ← Np.divNan (e i) (∑ k, e k)
      return a + b : Option ℝ) = some (F i + e i / ∑ k, e k) := by
    intro i
    rw [Np.divNan, if_neg he]
    rfl
  obtain ⟨i, hi, hmin, hfirst⟩ := Np.argmin_ok (fun i => F i + e i / ∑ k, e k) (by omega : 0 < m)
  refine ⟨i + 1, by omega, by omega, fun i => some (F i + e i / ∑ k, e k), ?_, fun _ => rfl, fun k => hmin k, fun k hk => hfirst k (Fin.lt_def.mpr (by omega))⟩
  unfold ladle_partition
  simp only [hG]
  have : Np.argminNan (fun i => some (F i + e i / ∑ k, e k)) = .ok i := by
    unfold Np.argminNan
    rw [List.find?_eq_none.mpr (by simp)]
    exact hi
  rw [this]
  rfl

/-- C39: when the terms are nan (all eigenvalues zero, or no bootstrap variation) the dimension is 1. -/
theorem C39_ladle_nan (hm : 1 ≤ m) (e : Fin m → ℝ) (F : Fin m → Option ℝ) (h : (∑ k, e k = 0) ∨ ∀ i, F i = none) :
    ∃ G, ladle_partition e F = .ok (1, G) := by
  have hG : ∀ i, (do
      let a ← F i
      let b ← Np.divNan (e i) (∑ k, e k)
      return a + b : Option ℝ) = none := by
    intro i
    rcases h with h | h
    · rw [Np.divNan, if_pos h]
      cases F i <;> rfl
    · rw [h i]
      rfl
  unfold ladle_partition
  simp only [hG]
  obtain ⟨k, rfl⟩ : ∃ k, m = k + 1 := ⟨m - 1, by omega⟩
  have : Np.argminNan (fun _ : Fin (k + 1) => (none : Option ℝ)) = .ok 0 := by
    unfold Np.argminNan
    rw [List.finRange_succ]
    rfl
  rw [this]
  exact ⟨_, rfl⟩

example := C39_errbnd (by norm_num : 2 ≤ 3) ![5, 1, 1] ![1 / 10, 1 / 2]
example := C39_ladle (by norm_num : 1 ≤ 3) ![5, 1, 1] (by simp [Fin.sum_univ_three]; norm_num) ![0, 1 / 3, 2 / 3]

/-! ## C40 -/

theorem argminNan_ok (hm : 0 < m) (v : Fin m → Option ℝ) : ∃ i, Np.argminNan v = .ok i := by
  unfold Np.argminNan
  cases (List.finRange m).find? fun i => (v i).isNone with
  | some i => exact ⟨i, rfl⟩
  | none =>
    obtain ⟨i, h, -⟩ := Np.argmin_ok (fun i => (v i).getD 0) hm
    exact ⟨i, h⟩

theorem ladle_ok (hm : 0 < m) (e : Fin m → ℝ) (F : Fin m → Option ℝ) :
    ∃ n G, ladle_partition e F = .ok (n, G) ∧ 1 ≤ n ∧ n ≤ m := by
  unfold ladle_partition
  simp only
  obtain ⟨i, hi⟩ := argminNan_ok hm fun i => do
    let a ← F i
    let b ← Np.divNan (e i) (∑ k, e k)
    return a + b
  rw [hi]
  exact ⟨i + 1, _, rfl, by omega, by omega⟩

/-- C40: whatever the eigenvalues and the bootstrap results, each rule chooses a dimension between 1 and `m`. -/
theorem C40_chosen {S : Type} (hm : 2 ≤ m) (e : Fin m → ℝ) (W : Matrix (Fin m) (Fin m) ℝ) (b : Boot m) (b' : Option BootRes)
    (ptype : String) (h : (ptype = "EVG") ∨ ((ptype = "RS" ∨ ptype = "LI") ∧ b' = some ⟨m, b⟩)) :
    ∃ n : ℕ, chooseDim ptype ⟨m, e, W⟩ m b' = .ok n ∧ 1 ≤ n ∧ n ≤ m ∧
      ∀ w : S × Subspaces, w.2.eigenvecs = some (NpMat.of W) →
        ∃ w', (partition (.int n)).run w = (.ok (), w') := by
  suffices hs : ∃ n : ℕ, chooseDim ptype ⟨m, e, W⟩ m b' = .ok n ∧ 1 ≤ n ∧ n ≤ m by
    obtain ⟨n, h1, h2, h3⟩ := hs
    refine ⟨n, h1, h2, h3, fun w hw => ?_⟩
    unfold partition
    rw [PyM.run_bind_ok (PyM.run_get w), hw]
    simp only
    rw [if_neg (by simp; omega)]
    exact ⟨_, rfl⟩
  rcases h with h | ⟨h | h, hb⟩
  · subst h
    obtain ⟨n, h1, h2, d, hd, -, -⟩ := C38_gap hm e
    refine ⟨n, ?_, h1, h2.le⟩
    unfold chooseDim
    rw [if_pos rfl, hd]
    rfl
  · subst h hb
    obtain ⟨n, h1, h2, d, hd, -, -⟩ := C39_errbnd hm e fun i => b.sub_br i 1
    refine ⟨n, ?_, h1, h2.le⟩
    unfold chooseDim
    rw [if_neg (by decide), if_pos rfl]
    refine (dif_pos rfl).trans ?_
    erw [hd]
    rfl
  · subst h hb
    obtain ⟨n, G, hn, h1, h2⟩ := ladle_ok (by omega : 0 < m) e b.li_F
    refine ⟨n, ?_, h1, h2⟩
    unfold chooseDim
    rw [if_neg (by decide), if_neg (by decide), if_pos rfl]
    refine (dif_pos rfl).trans ?_
    erw [hn]
    rfl

example (b : Boot 3) := C40_chosen (S := Unit) (by norm_num : 2 ≤ 3) ![5, 1, 1] 1 b (some ⟨3, b⟩) "RS" (.inr ⟨.inl rfl, rfl⟩)

end Props
