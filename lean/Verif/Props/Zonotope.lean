import Mathlib.Tactic.FieldSimp
import Verif.Model.Domains
import Verif.Proofs.SignVectors

/-!
# Properties C49, C50 and C51: ranges of active variables over the cube
-/

open Py Model.Domains Model.Subspaces Model.QPSolver Spec

namespace Props

variable {S E : Type} {m n : ℕ}

/-! ## C49 -/

theorem mul_sign (x : ℝ) : x * Real.sign x = |x| := by
  rcases lt_trichotomy x 0 with h | h | h
  · rw [Real.sign_of_neg h, abs_of_neg h]; ring
  · simp [h]
  · rw [Real.sign_of_pos h, abs_of_pos h]; ring

/-- The model without its branches: the first is never taken. -/
theorem interval_eq (W1 : Matrix (Fin m) (Fin 1) ℝ) :
    interval_endpoints W1 = (Matrix.of ![![-∑ i, |W1 i 0|], ![∑ i, |W1 i 0|]],
      Matrix.of ![fun i => -Real.sign (W1 i 0), fun i => Real.sign (W1 i 0)]) := by
  unfold interval_endpoints
  simp only [mul_sign]
  rw [if_neg]
  · rfl
  · have : 0 ≤ ∑ i, |W1 i 0| := Finset.sum_nonneg fun i _ => abs_nonneg _
    linarith

/-- C49: the two ends are those of the image of the cube. -/
theorem C49_range (W1 : Matrix (Fin m) (Fin 1) ℝ) (t : ℝ) :
    ((interval_endpoints W1).1 0 0 ≤ t ∧ t ≤ (interval_endpoints W1).1 1 0) ↔ (fun _ => t) ∈ zonotope W1 := by
  rw [interval_eq]
  change (-∑ i, |W1 i 0| ≤ t ∧ t ≤ ∑ i, |W1 i 0|) ↔ _
  constructor
  · rintro ⟨h1, h2⟩
    by_cases h0 : ∑ i, |W1 i 0| = 0
    · refine ⟨fun _ => 0, fun i => by norm_num, fun j => ?_⟩
      rw [h0] at h1 h2
      simp only [mul_zero, Finset.sum_const_zero]
      linarith
    · have hpos : 0 < ∑ i, |W1 i 0| := lt_of_le_of_ne (Finset.sum_nonneg fun i _ => abs_nonneg _) (Ne.symm h0)
      refine ⟨fun i => t / (∑ i, |W1 i 0|) * Real.sign (W1 i 0), fun i => ?_, fun j => ?_⟩
      · have hq : |t / (∑ i, |W1 i 0|)| ≤ 1 := by
          rw [abs_div, abs_of_pos hpos, div_le_one hpos, abs_le]
          exact ⟨h1, h2⟩
        have hq' := abs_le.mp hq
        beta_reduce
        rcases Real.sign_apply_eq (W1 i 0) with h | h | h <;> rw [h]
        · constructor <;> linarith
        · constructor <;> linarith
        · constructor <;> linarith
      · rw [Subsingleton.elim j 0]
        have e : ∀ i, W1 i 0 * (t / (∑ i, |W1 i 0|) * Real.sign (W1 i 0)) = t / (∑ i, |W1 i 0|) * |W1 i 0| := fun i => by
          rw [← mul_sign]; ring
        simp only [e]
        rw [← Finset.mul_sum]
        field_simp
  · rintro ⟨x, hx, hy⟩
    have h1 : |t| ≤ ∑ i, |W1 i 0| := by
      have := hy 0
      simp only at this
      rw [this]
      refine (Finset.abs_sum_le_sum_abs _ _).trans (Finset.sum_le_sum fun i _ => ?_)
      rw [abs_mul]
      exact mul_le_of_le_one_right (abs_nonneg _) (abs_le.mpr (hx i))
    exact abs_le.mp h1

/-- C49: the rows of `X` are points of the cube that attain the ends. -/
theorem C49_attained (W1 : Matrix (Fin m) (Fin 1) ℝ) (r : Fin 2) :
    (fun i => (interval_endpoints W1).2 r i) ∈ cube m ∧
      (interval_endpoints W1).1 r 0 = ∑ i, W1 i 0 * (interval_endpoints W1).2 r i := by
  rw [interval_eq]
  have hs : ∀ x, -1 ≤ Real.sign x ∧ Real.sign x ≤ 1 := fun x => by
    rcases Real.sign_apply_eq x with h | h | h <;> rw [h] <;> norm_num
  fin_cases r
  · refine ⟨fun i => ?_, ?_⟩
    · change -1 ≤ -Real.sign (W1 i 0) ∧ -Real.sign (W1 i 0) ≤ 1
      have := hs (W1 i 0)
      constructor <;> linarith
    · change -∑ i, |W1 i 0| = ∑ i, W1 i 0 * -Real.sign (W1 i 0)
      simp only [mul_neg, mul_sign, Finset.sum_neg_distrib]
  · refine ⟨fun i => hs (W1 i 0), ?_⟩
    change ∑ i, |W1 i 0| = ∑ i, W1 i 0 * Real.sign (W1 i 0)
    simp only [mul_sign]

/-- C49: the rows are corners of the cube exactly when no entry vanishes. -/
theorem C49_corners (W1 : Matrix (Fin m) (Fin 1) ℝ) :
    (∀ r i, (interval_endpoints W1).2 r i = 1 ∨ (interval_endpoints W1).2 r i = -1) ↔ ∀ i, W1 i 0 ≠ 0 := by
  rw [interval_eq]
  constructor
  · intro h i h0
    have := h 1 i
    change Real.sign (W1 i 0) = 1 ∨ Real.sign (W1 i 0) = -1 at this
    rw [h0, Real.sign_zero] at this
    norm_num at this
  · intro h r i
    rcases lt_or_gt_of_ne (h i) with h1 | h1
    · fin_cases r
      · exact .inl (by change -Real.sign (W1 i 0) = 1; rw [Real.sign_of_neg h1]; norm_num)
      · exact .inr (Real.sign_of_neg h1)
    · fin_cases r
      · exact .inr (by change -Real.sign (W1 i 0) = -1; rw [Real.sign_of_pos h1])
      · exact .inl (Real.sign_of_pos h1)

/-! ## C50 -/

theorem foldl_add (f : ℕ → ℕ) (k a : ℕ) : (List.range k).foldl (fun N i => N + f i) a = a + ∑ i ∈ Finset.range k, f i := by
  induction k with
  | zero => simp
  | succ k ih => rw [List.range_succ, List.foldl_append, ih, Finset.sum_range_succ]; simp [add_assoc]

/-- C50: the formula. -/
theorem C50_formula (m n : ℕ) (hm : 1 ≤ m) : nzv (.int m) (.int n) = .ok (2 * ∑ i ∈ Finset.range n, (m - 1).choose i) := by
  unfold nzv
  simp only [Int.toNat_natCast]
  rw [foldl_add, zero_add]
  have : ∀ i, comb ((m : ℤ) - 1) i = (m - 1).choose i := fun i => by
    have h : ((m : ℤ) - 1) = ((m - 1 : ℕ) : ℤ) := by omega
    rw [comb, if_pos (by omega), h, Int.toNat_natCast]
  simp only [this]

/-- C50: an argument that is not an integer raises `TypeError`. -/
theorem C50_types (n : IntArg) (k : ℤ) : nzv .other n = .error .typeError ∧ nzv (.int k) .other = .error .typeError := ⟨rfl, rfl⟩

/-- C50: the recurrence `nzv(m+1, n+1) = nzv(m, n+1) + nzv(m, n)` with its initial values. -/
theorem C50_recurrence (m n : ℕ) (hm : 1 ≤ m) : ∃ a b c, nzv (.int m) (.int ((n : ℤ) + 1)) = .ok a ∧ nzv (.int m) (.int n) = .ok b ∧
    nzv (.int ((m : ℤ) + 1)) (.int ((n : ℤ) + 1)) = .ok c ∧ c = a + b ∧ nzv (.int m) (.int 0) = .ok 0 ∧ nzv (.int 1) (.int ((n : ℤ) + 1)) = .ok 2 := by
  have h1 := C50_formula m (n + 1) hm
  have h2 := C50_formula m n hm
  have h3 := C50_formula (m + 1) (n + 1) (by omega)
  have h4 := C50_formula m 0 hm
  have h5 := C50_formula 1 (n + 1) le_rfl
  push_cast at h1 h2 h3 h4 h5
  refine ⟨_, _, _, h1, h2, h3, ?_, by simpa using h4, ?_⟩
  · obtain ⟨k, rfl⟩ : ∃ k, m = k + 1 := ⟨m - 1, by omega⟩
    simp only [Nat.add_sub_cancel]
    have : ∑ i ∈ Finset.range (n + 1), (k + 1).choose i = ∑ i ∈ Finset.range (n + 1), k.choose i + ∑ i ∈ Finset.range n, k.choose i := by
      rw [Finset.sum_range_succ', Finset.sum_range_succ' (fun i => k.choose i)]
      simp only [Nat.choose_succ_succ, Finset.sum_add_distrib, Nat.choose_zero_right]
      ring
    rw [this]
    ring
  · rw [h5]
    have : ∑ i ∈ Finset.range (n + 1), Nat.choose 0 i = 1 := by
      rw [Finset.sum_range_succ']
      simp
    simp [this]

/-- C50: the number of corners when nothing is projected out. -/
theorem C50_full (m n : ℕ) (hm : 1 ≤ m) (hn : m ≤ n) : nzv (.int m) (.int n) = .ok (2 ^ m) := by
  rw [C50_formula m n hm]
  obtain ⟨k, rfl⟩ : ∃ k, m = k + 1 := ⟨m - 1, by omega⟩
  simp only [Nat.add_sub_cancel]
  have : ∑ i ∈ Finset.range n, k.choose i = ∑ i ∈ Finset.range (k + 1), k.choose i := by
    symm
    refine Finset.sum_subset (fun i hi => Finset.mem_range.mpr ?_) fun i _ hi => Nat.choose_eq_zero_of_lt ?_
    · have := Finset.mem_range.mp hi
      omega
    · have := Finset.mem_range.not.mp hi
      omega
  rw [this, Nat.sum_range_choose, pow_succ, mul_comm]

/-- C50: it bounds the number of sign vectors of every map. -/
theorem C50_bound (W1 : Matrix (Fin m) (Fin n) ℝ) (hm : 1 ≤ m) :
    ∃ N, nzv (.int m) (.int n) = .ok N ∧ (signVectors W1).ncard ≤ N := by
  refine ⟨_, C50_formula m n hm, ?_⟩
  obtain ⟨k, rfl⟩ : ∃ k, m = k + 1 := ⟨m - 1, by omega⟩
  simpa using Proofs.SignVectors.ncard_le W1

/-! ## C51 -/

/-- Contract of `np.unique` on the bytes of rows: the distinct ones in some order. -/
def UniqueOK (lib : Model.Domains.Lib) : Prop := ∀ {m : ℕ} (l : List (Fin m → Sg)), (lib.unique l).Nodup ∧ ∀ x, x ∈ lib.unique l ↔ x ∈ l

/-- The contract can be met. -/
example (lib : Model.Domains.Lib) : ∃ lib' : Model.Domains.Lib, UniqueOK lib' ∧ lib'.qp = lib.qp := by
  classical
  exact ⟨{ lib with unique := fun l => l.dedup }, fun l => ⟨List.nodup_dedup l, fun x => List.mem_dedup⟩, rfl⟩

/-- The state of the generator after `r` rounds. -/
def rounds (rng : Rng S) (Nsamples n : ℕ) : ℕ → S → S
  | 0, s => s
  | r + 1, s => rounds rng Nsamples n r (rng.normal Nsamples n s).2

theorem rounds_add (rng : Rng S) (Nsamples n a b : ℕ) (s : S) :
    rounds rng Nsamples n (a + b) s = rounds rng Nsamples n b (rounds rng Nsamples n a s) := by
  induction a generalizing s with
  | zero => simp [rounds]
  | succ a ih => rw [Nat.add_right_comm]; exact ih _

/-- Lists of rows that the sampling maintains: distinct signs of `W1 z` for `z` in a set `P`, with their negatives.  The zeros of a
row have one sign. -/
structure SignList (W1 : Matrix (Fin m) (Fin n) ℝ) (P : (Fin n → ℝ) → Prop) (X : List (Fin m → Sg)) : Prop where
  nodup : X.Nodup
  neg : ∀ x ∈ X, (fun i => (x i).flip) ∈ X
  sign : ∀ x ∈ X, ∃ z, P z ∧ ∀ i, (x i).val = Real.sign (∑ j, W1 i j * z j)
  zeros : ∀ x ∈ X, (∀ i, x i ≠ .nzero) ∨ ∀ i, x i ≠ .pzero

theorem sign_neg (x : ℝ) : Real.sign (-x) = -Real.sign x := by
  rcases lt_trichotomy x 0 with h | h | h
  · rw [Real.sign_of_neg h, Real.sign_of_pos (by linarith)]; ring
  · simp [h]
  · rw [Real.sign_of_pos h, Real.sign_of_neg (by linarith)]

theorem Sg_val_flip (s : Sg) : s.flip.val = -s.val := by cases s <;> simp [Sg.flip, Sg.val]

theorem Sg_flip_flip (s : Sg) : s.flip.flip = s := by cases s <;> rfl

theorem Sg_val_of (x : ℝ) : (Sg.of x).val = Real.sign x := by
  unfold Sg.of
  split_ifs with h1 h2
  · rw [Real.sign_of_pos h1]; rfl
  · rw [Real.sign_of_neg h2]; rfl
  · rw [le_antisymm (not_lt.mp h1) (not_lt.mp h2), Real.sign_zero]; rfl

theorem Sg_of_ne (x : ℝ) : Sg.of x ≠ .nzero := by
  unfold Sg.of
  split_ifs <;> exact nofun

/-- Two rows with the same numbers whose zeros have the same sign are the same. -/
theorem Sg_ext {x y : Fin m → Sg} (h : ∀ i, (x i).val = (y i).val)
    (hz : ((∀ i, x i ≠ .nzero) ∧ ∀ i, y i ≠ .nzero) ∨ ((∀ i, x i ≠ .pzero) ∧ ∀ i, y i ≠ .pzero)) : x = y := by
  funext i
  have h1 := h i
  rcases hz with ⟨h2, h3⟩ | ⟨h2, h3⟩ <;> specialize h2 i <;> specialize h3 i <;> revert h1 h2 h3 <;>
    cases x i <;> cases y i <;> simp [Sg.val] <;> norm_num

theorem mem_signRows {r : ℕ} {W1 : Matrix (Fin m) (Fin n) ℝ} {Z : Matrix (Fin r) (Fin n) ℝ} {x : Fin m → Sg} :
    x ∈ signRows W1 Z ↔ ∃ a, x = fun i => Sg.of (∑ j, W1 i j * Z a j) := by
  have he : ∀ a i, (Z * W1.transpose) a i = ∑ j, W1 i j * Z a j := fun a i => by
    simp only [Matrix.mul_apply, Matrix.transpose_apply]
    exact Finset.sum_congr rfl fun j _ => mul_comm _ _
  simp only [signRows, Np.rows, List.mem_map, List.mem_finRange, true_and]
  constructor
  · rintro ⟨_, ⟨a, rfl⟩, rfl⟩
    exact ⟨a, funext fun i => congrArg Sg.of (he a i)⟩
  · rintro ⟨a, rfl⟩
    exact ⟨_, ⟨a, rfl⟩, funext fun i => congrArg Sg.of (he a i)⟩

theorem zonoRound_run {lib : Model.Domains.Lib} (hu : UniqueOK lib) (rng : Rng S) (W1 : Matrix (Fin m) (Fin n) ℝ) (Nsamples : ℕ) (w : S × E)
    {P : (Fin n → ℝ) → Prop} (hneg : ∀ z, P z → P (-z)) (hP : ∀ a, P ((rng.normal Nsamples n w.1).1 a)) :
    ∃ X, (zonoRound lib rng W1 Nsamples).run w = (.ok X, (rounds rng Nsamples n 1 w.1, w.2)) ∧ SignList W1 P X ∧
      ∀ x ∈ signRows W1 (rng.normal Nsamples n w.1).1, x ∈ X := by
  refine ⟨_, rfl, ⟨(hu _).1, ?_, ?_, ?_⟩, ?_⟩
  · intro x hx
    rw [(hu _).2, List.mem_append] at hx ⊢
    simp only [(hu _).2, List.mem_map] at hx ⊢
    rcases hx with hx | ⟨y, hy, rfl⟩
    · exact .inr ⟨x, hx, rfl⟩
    · exact .inl (by simpa only [Sg_flip_flip] using hy)
  · intro x hx
    rw [(hu _).2, List.mem_append] at hx
    simp only [(hu _).2, List.mem_map] at hx
    rcases hx with hx | ⟨y, hy, rfl⟩
    · obtain ⟨a, rfl⟩ := mem_signRows.mp hx
      exact ⟨_, hP a, fun i => Sg_val_of _⟩
    · obtain ⟨a, rfl⟩ := mem_signRows.mp hy
      refine ⟨-(rng.normal Nsamples n w.1).1 a, hneg _ (hP a), fun i => ?_⟩
      rw [Sg_val_flip, Sg_val_of, ← sign_neg]
      simp
  · intro x hx
    rw [(hu _).2, List.mem_append] at hx
    simp only [(hu _).2, List.mem_map] at hx
    rcases hx with hx | ⟨y, hy, rfl⟩
    · obtain ⟨a, rfl⟩ := mem_signRows.mp hx
      exact .inl fun i => Sg_of_ne _
    · obtain ⟨a, rfl⟩ := mem_signRows.mp hy
      exact .inr fun i h => Sg_of_ne _ ((Sg_flip_flip _).symm.trans (congrArg Sg.flip h))
  · intro x hx
    rw [(hu _).2, List.mem_append]
    exact .inl (((hu _).2 x).mpr hx)

theorem SignList.union {lib : Model.Domains.Lib} (hu : UniqueOK lib) {W1 : Matrix (Fin m) (Fin n) ℝ} {X X0 : List (Fin m → Sg)}
    {P : (Fin n → ℝ) → Prop} (h : SignList W1 P X) (h0 : SignList W1 P X0) : SignList W1 P (lib.unique (X ++ X0)) := by
  refine ⟨(hu _).1, fun x hx => ?_, fun x hx => ?_, fun x hx => ?_⟩
  · rw [(hu _).2, List.mem_append] at hx ⊢
    exact hx.imp (h.neg x) (h0.neg x)
  · rw [(hu _).2, List.mem_append] at hx
    exact hx.elim (h.sign x) (h0.sign x)
  · rw [(hu _).2, List.mem_append] at hx
    exact hx.elim (h.zeros x) (h0.zeros x)

/-- The directions of round `q`, and their negatives. -/
def Drawn (rng : Rng S) (Nsamples q : ℕ) (s : S) (z : Fin n → ℝ) : Prop :=
  ∃ b, (∀ j, z j = (rng.normal Nsamples n (rounds rng Nsamples n q s)).1 b j) ∨
    ∀ j, z j = -(rng.normal Nsamples n (rounds rng Nsamples n q s)).1 b j

theorem Drawn.neg {rng : Rng S} {Nsamples q : ℕ} {s : S} {z : Fin n → ℝ} (h : Drawn rng Nsamples q s z) : Drawn rng Nsamples q s (-z) := by
  obtain ⟨b, h | h⟩ := h
  · exact ⟨b, .inr fun j => by rw [Pi.neg_apply, h]⟩
  · exact ⟨b, .inl fun j => by rw [Pi.neg_apply, h, neg_neg]⟩

theorem SignList.mono {W1 : Matrix (Fin m) (Fin n) ℝ} {X : List (Fin m → Sg)} {P Q : (Fin n → ℝ) → Prop} (h : SignList W1 P X)
    (hPQ : ∀ z, P z → Q z) : SignList W1 Q X :=
  ⟨h.nodup, h.neg, fun x hx => let ⟨z, hz, he⟩ := h.sign x hx; ⟨z, hPQ z hz, he⟩, h.zeros⟩

/-- The loop: at most `maxcount + 1 - count` rounds, it stops early only with enough rows, the rows are the old ones and those of the
rounds, and at the start of every round there are too few of them. -/
theorem zonoLoop_run {lib : Model.Domains.Lib} (hu : UniqueOK lib) (rng : Rng S) (W1 : Matrix (Fin m) (Fin n) ℝ)
    (Nsamples maxcount totalverts count : ℕ) (hc : count ≤ maxcount) {P : (Fin n → ℝ) → Prop}
    (X : List (Fin m → Sg)) (hX : SignList W1 P X) (w : S × E) :
    ∃ X' r, (zonoLoop lib rng W1 Nsamples maxcount totalverts count X).run w = (.ok X', (rounds rng Nsamples n r w.1, w.2)) ∧
      SignList W1 (fun z => P z ∨ ∃ q < r, Drawn rng Nsamples q w.1 z) X' ∧ (∀ x ∈ X, x ∈ X') ∧ r + count ≤ maxcount + 1 ∧
      (X'.length < totalverts → r + count = maxcount + 1) ∧
      (∀ q < r, ∀ x ∈ signRows W1 (rng.normal Nsamples n (rounds rng Nsamples n q w.1)).1, x ∈ X') ∧
      ∀ q < r, ∃ Xq : List (Fin m → Sg), Xq.length < totalverts ∧ (∀ x ∈ Xq, (fun i => (x i).flip) ∈ Xq) ∧ (∀ x ∈ X, x ∈ Xq) ∧
        ∀ q' < q, ∀ x ∈ signRows W1 (rng.normal Nsamples n (rounds rng Nsamples n q' w.1)).1, x ∈ Xq := by
  have hround : ∃ X0, (zonoRound lib rng W1 Nsamples).run w = (.ok X0, (rounds rng Nsamples n 1 w.1, w.2)) ∧
      SignList W1 (Drawn rng Nsamples 0 w.1) X0 ∧ ∀ x ∈ signRows W1 (rng.normal Nsamples n w.1).1, x ∈ X0 :=
    zonoRound_run hu rng W1 Nsamples w (fun z h => h.neg) fun a => ⟨a, .inl fun _ => rfl⟩
  have hunion : ∀ X0, SignList W1 (Drawn rng Nsamples 0 w.1) X0 →
      SignList W1 (fun z => P z ∨ Drawn rng Nsamples 0 w.1 z) (lib.unique (X ++ X0)) := fun X0 hs =>
    (hX.mono fun z h => .inl h).union hu (hs.mono fun z h => .inr h)
  induction hd : maxcount - count generalizing count X w P with
  | zero =>
    unfold zonoLoop
    split_ifs with h1 h2
    · obtain ⟨X0, hX0, hs, hin⟩ := hround
      refine ⟨_, 1, ?_, (hunion X0 hs).mono fun z h => h.imp id fun h => ⟨0, one_pos, h⟩,
        fun x hx => ((hu _).2 x).mpr (List.mem_append_left _ hx), by omega, by omega, fun q hq x hx => ?_,
        fun q hq => ⟨X, h1, hX.neg, fun x hx => hx, fun q' hq' => absurd hq' (by omega)⟩⟩
      · rw [PyM.run_bind_ok hX0]
        rfl
      · obtain rfl : q = 0 := by omega
        exact ((hu _).2 x).mpr (List.mem_append_right _ (hin x hx))
    · omega
    · exact ⟨X, 0, rfl, hX.mono fun z h => .inl h, fun x hx => hx, by omega, by omega, fun q hq => absurd hq (by omega),
        fun q hq => absurd hq (by omega)⟩
  | succ d ih =>
    unfold zonoLoop
    split_ifs with h1 h2
    · omega
    · obtain ⟨X0, hX0, hs, hin⟩ := hround
      obtain ⟨X', r, h3, h4, h5, h6, h7, h8, h9⟩ := ih (count + 1) (by omega) (lib.unique (X ++ X0)) (hunion X0 hs)
        (rounds rng Nsamples n 1 w.1, w.2)
        (zonoRound_run hu rng W1 Nsamples _ (fun z h => h.neg) fun a => ⟨a, .inl fun _ => rfl⟩)
        (fun X0' hs' => ((hunion X0 hs).mono fun z h => .inl h).union hu (hs'.mono fun z h => .inr h)) (by omega)
      have hshift : ∀ q, rounds rng Nsamples n q (rounds rng Nsamples n 1 w.1) = rounds rng Nsamples n (q + 1) w.1 := fun q => by
        rw [Nat.add_comm, rounds_add]
      refine ⟨X', 1 + r, ?_, h4.mono fun z h => ?_, fun x hx => h5 x (((hu _).2 x).mpr (List.mem_append_left _ hx)), by omega,
        fun h => ?_, fun q hq x hx => ?_, fun q hq => ?_⟩
      · rw [PyM.run_bind_ok hX0]
        change (zonoLoop lib rng W1 Nsamples maxcount totalverts (count + 1) _).run _ = _
        rw [h3, rounds_add]
      · rcases h with (h | h) | ⟨q, hq, h⟩
        · exact .inl h
        · exact .inr ⟨0, by omega, h⟩
        · refine .inr ⟨q + 1, by omega, ?_⟩
          simp only [Drawn, hshift] at h
          exact h
      · have := h7 h
        omega
      · rcases q with _ | q
        · exact h5 x (((hu _).2 x).mpr (List.mem_append_right _ (hin x hx)))
        · refine h8 q (by omega) x ?_
          simp only [hshift]
          exact hx
      · rcases q with _ | q
        · exact ⟨X, h1, hX.neg, fun x hx => hx, fun q' hq' => absurd hq' (by omega)⟩
        · obtain ⟨Xq, l1, l2, l3, l4⟩ := h9 q (by omega)
          refine ⟨Xq, l1, l2, fun x hx => l3 x (((hu _).2 x).mpr (List.mem_append_left _ hx)), fun q' hq' x hx => ?_⟩
          rcases q' with _ | q'
          · exact l3 x (((hu _).2 x).mpr (List.mem_append_right _ (hin x hx)))
          · refine l4 q' (by omega) x ?_
            simp only [hshift]
            exact hx
    · exact ⟨X, 0, rfl, hX.mono fun z h => .inl h, fun x hx => hx, by omega, by omega, fun q hq => absurd hq (by omega),
        fun q hq => absurd hq (by omega)⟩

/-- C51: whatever is drawn, `zonotope_vertices` returns; it makes between 1 and `maxcount + 2` draws, fewer than `maxcount + 2`
only if it found as many rows as `nzv`, and stops after the first draw with which there are so many; its rows are the signs of `W1 z` for the
directions drawn and their negatives, `Y = X W1`; a row without zeros occurs
once, a row with zeros at most twice; it prints one warning
with the two numbers exactly when it found fewer rows than `nzv`; and the rest of the world is untouched. -/
theorem C51_rows {lib : Model.Domains.Lib} (hu : UniqueOK lib) (rng : Rng S) (W1 : Matrix (Fin m) (Fin n) ℝ) (Nsamples maxcount : ℕ)
    (hm : 1 ≤ m) (w : S × Files × Out × E) :
    ∃ v r N, (zonotope_vertices lib rng W1 Nsamples maxcount).run w
        = (.ok v, (rounds rng Nsamples n (r + 1) w.1, w.2.1, w.2.2.1 ++ (if v.num < N then [(v.num, N)] else []), w.2.2.2)) ∧
      N = 2 * ∑ i ∈ Finset.range n, (m - 1).choose i ∧
      r ≤ maxcount + 1 ∧ (v.num < N → r = maxcount + 1) ∧
      (∀ a b, v.X a = v.X b → (∀ i, v.X a i ≠ 0) → a = b) ∧
      (∀ a b c, v.X a = v.X b → v.X b = v.X c → a = b ∨ b = c ∨ c = a) ∧
      (∀ a, ∃ b, ∀ i, v.X b i = -v.X a i) ∧
      (∀ a, ∃ z : Fin n → ℝ, (∃ q ≤ r, Drawn rng Nsamples q w.1 z) ∧ ∀ i, v.X a i = Real.sign (∑ j, W1 i j * z j)) ∧
      (∀ a j, v.Y a j = ∑ i, v.X a i * W1 i j) ∧
      (∀ q ≤ r, ∀ a : Fin Nsamples, ∃ b, ∀ i,
        v.X b i = Real.sign (∑ j, W1 i j * (rng.normal Nsamples n (rounds rng Nsamples n q w.1)).1 a j)) ∧
      ∀ q < r, ∀ L : Finset (Fin m → ℝ), (∀ x ∈ L, ∃ q' ≤ q, ∃ z, Drawn rng Nsamples q' w.1 z ∧ ∀ i, x i = Real.sign (∑ j, W1 i j * z j)) →
        L.card < N := by
  classical
  obtain ⟨X1, h1, hs1, hd⟩ := zonoRound_run (P := Drawn rng Nsamples 0 w.1) hu rng W1 Nsamples w (fun z h => h.neg)
    fun a => ⟨a, .inl fun _ => rfl⟩
  obtain ⟨X, r, h2, hs, hsub, hr1, hr2, hr3, hr4⟩ := zonoLoop_run hu rng W1 Nsamples maxcount (2 * ∑ i ∈ Finset.range n, (m - 1).choose i) 0
    (Nat.zero_le _) X1 hs1 (rounds rng Nsamples n 1 w.1, w.2)
  have hshift : ∀ q, rounds rng Nsamples n q (rounds rng Nsamples n 1 w.1) = rounds rng Nsamples n (q + 1) w.1 := fun q => by
    rw [Nat.add_comm, rounds_add]
  have hval : ∀ {a b : Fin X.length}, (∀ i, (X.get a i).val = (X.get b i).val) →
      (((∀ i, X.get a i ≠ .nzero) ∧ ∀ i, X.get b i ≠ .nzero) ∨ ((∀ i, X.get a i ≠ .pzero) ∧ ∀ i, X.get b i ≠ .pzero)) → a = b :=
    fun h hz => (List.nodup_iff_injective_get.mp hs.nodup) (Sg_ext h hz)
  refine ⟨⟨X.length, Matrix.of (fun a i => (X.get a i).val) * W1, Matrix.of fun a i => (X.get a i).val⟩, r, _, ?_, rfl, by omega,
    fun h => by simpa using hr2 h, ?_, ?_, ?_, ?_, ?_, ?_, ?_⟩
  · unfold zonotope_vertices
    rw [C50_formula m n hm, PyM.run_bind_ok (PyM.run_lift _ _), PyM.run_bind_ok h1, PyM.run_bind_ok h2]
    unfold zonoFinish
    rw [Nat.add_comm r 1, rounds_add]
    split_ifs with h3
    · rfl
    · simp only [List.append_nil]
      rfl
  · intro a b h h0
    have h' : ∀ i, (X.get a i).val = (X.get b i).val := fun i => congrFun h i
    refine hval h' (.inl ⟨fun i hi => h0 i ?_, fun i hi => h0 i ?_⟩)
    · change (X.get a i).val = 0
      rw [hi]; rfl
    · change (X.get a i).val = 0
      rw [h', hi]; rfl
  · intro a b c hab hbc
    have h1 : ∀ i, (X.get a i).val = (X.get b i).val := fun i => congrFun hab i
    have h2 : ∀ i, (X.get b i).val = (X.get c i).val := fun i => congrFun hbc i
    have h3 : ∀ i, (X.get c i).val = (X.get a i).val := fun i => ((h1 i).trans (h2 i)).symm
    rcases hs.zeros _ (List.get_mem X a) with ha | ha <;> rcases hs.zeros _ (List.get_mem X b) with hb | hb <;>
      rcases hs.zeros _ (List.get_mem X c) with hc | hc
    · exact .inl (hval h1 (.inl ⟨ha, hb⟩))
    · exact .inl (hval h1 (.inl ⟨ha, hb⟩))
    · exact .inr (.inr (hval h3 (.inl ⟨hc, ha⟩)))
    · exact .inr (.inl (hval h2 (.inr ⟨hb, hc⟩)))
    · exact .inr (.inl (hval h2 (.inl ⟨hb, hc⟩)))
    · exact .inr (.inr (hval h3 (.inr ⟨hc, ha⟩)))
    · exact .inl (hval h1 (.inr ⟨ha, hb⟩))
    · exact .inl (hval h1 (.inr ⟨ha, hb⟩))
  · intro a
    obtain ⟨b, hb⟩ := List.get_of_mem (hs.neg _ (List.get_mem X a))
    exact ⟨b, fun i => (congrArg Sg.val (congrFun hb i)).trans (Sg_val_flip _)⟩
  · intro a
    obtain ⟨z, h | ⟨q, hq, h⟩, hz⟩ := hs.sign _ (List.get_mem X a)
    · exact ⟨z, ⟨0, Nat.zero_le _, h⟩, hz⟩
    · refine ⟨z, ⟨q + 1, hq, ?_⟩, hz⟩
      simp only [Drawn, hshift] at h
      exact h
  · intro a j
    rfl
  · intro q hq a
    have hmem : (fun i => Sg.of (∑ j, W1 i j * (rng.normal Nsamples n (rounds rng Nsamples n q w.1)).1 a j)) ∈ X := by
      rcases q with _ | q
      · exact hsub _ (hd _ (mem_signRows.mpr ⟨a, rfl⟩))
      · refine hr3 q (by omega) _ ?_
        simp only [hshift]
        exact mem_signRows.mpr ⟨a, rfl⟩
    obtain ⟨b, hb⟩ := List.get_of_mem hmem
    exact ⟨b, fun i => (congrArg Sg.val (congrFun hb i)).trans (Sg_val_of _)⟩
  · intro q hq L hL
    obtain ⟨Xq, l1, l2, l3, l4⟩ := hr4 q hq
    have hmem : ∀ q' ≤ q, ∀ a, (fun i => Sg.of (∑ j, W1 i j * (rng.normal Nsamples n (rounds rng Nsamples n q' w.1)).1 a j)) ∈ Xq := by
      intro q' hq' a
      rcases q' with _ | q'
      · exact l3 _ (hd _ (mem_signRows.mpr ⟨a, rfl⟩))
      · refine l4 q' (by omega) _ ?_
        simp only [hshift]
        exact mem_signRows.mpr ⟨a, rfl⟩
    have hsubset : L ⊆ (Xq.map fun x i => (x i).val).toFinset := by
      intro x hx
      rw [List.mem_toFinset, List.mem_map]
      obtain ⟨q', hq', z, ⟨b, hb⟩, hz⟩ := hL x hx
      rcases hb with hb | hb
      · refine ⟨_, hmem q' hq' b, funext fun i => ?_⟩
        rw [Sg_val_of, hz]
        simp only [hb]
      · refine ⟨_, l2 _ (hmem q' hq' b), funext fun i => ?_⟩
        rw [Sg_val_flip, Sg_val_of, hz, ← sign_neg]
        simp only [hb, mul_neg, Finset.sum_neg_distrib]
    calc L.card ≤ _ := Finset.card_le_card hsubset
      _ ≤ _ := List.toFinset_card_le _
      _ = Xq.length := List.length_map _
      _ < _ := l1

/-- Rows without zeros are sign vectors. -/
theorem row_mem_signVectors {W1 : Matrix (Fin m) (Fin n) ℝ} {x : Fin m → ℝ} (h : ∃ z : Fin n → ℝ, ∀ i, x i = Real.sign (∑ j, W1 i j * z j))
    (h0 : ∀ i, x i ≠ 0) : x ∈ signVectors W1 := by
  obtain ⟨z, hz⟩ := h
  refine ⟨z, fun i => ?_⟩
  rcases lt_trichotomy (∑ j, W1 i j * z j) 0 with h1 | h1 | h1
  · exact .inr ⟨h1, by rw [hz, Real.sign_of_neg h1]⟩
  · exact absurd (by rw [hz, h1, Real.sign_zero]) (h0 i)
  · exact .inl ⟨h1, by rw [hz, Real.sign_of_pos h1]⟩

/-- C51: without zero products there are never more than `nzv` rows, and `nzv` rows are all the sign vectors there are. -/
theorem C51_complete {lib : Model.Domains.Lib} (hu : UniqueOK lib) (rng : Rng S) (W1 : Matrix (Fin m) (Fin n) ℝ) (Nsamples maxcount : ℕ)
    (hm : 1 ≤ m) (w w' : S × Files × Out × E) (v : Verts m n)
    (h : (zonotope_vertices lib rng W1 Nsamples maxcount).run w = (.ok v, w'))
    (hz : ∀ q ≤ maxcount + 1, ∀ b i, ∑ j, W1 i j * (rng.normal Nsamples n (rounds rng Nsamples n q w.1)).1 b j ≠ 0) :
    ∃ N, nzv (.int m) (.int n) = .ok N ∧ v.num ≤ N ∧ (w'.2.2.1 = w.2.2.1 ↔ v.num = N) ∧
      (v.num = N → ∀ x, x ∈ signVectors W1 ↔ ∃ a, v.X a = x) := by
  obtain ⟨v', r, N, h1, hN, hr, -, hinj', -, -, hsign, -, -⟩ := C51_rows hu rng W1 Nsamples maxcount hm w
  rw [h] at h1
  have hv := Except.ok.inj (Prod.mk.inj h1).1
  subst hv
  have h0 : ∀ a i, v.X a i ≠ 0 := by
    intro a i
    obtain ⟨z, ⟨q, hq, b, hsb⟩, hz'⟩ := hsign a
    have hne : ∑ j, W1 i j * z j ≠ 0 := by
      rcases hsb with hsb | hsb
      · simp only [hsb]
        exact hz q (by omega) b i
      · simp only [hsb, mul_neg, Finset.sum_neg_distrib]
        exact neg_ne_zero.mpr (hz q (by omega) b i)
    rw [hz']
    exact fun h => hne (Real.sign_eq_zero_iff.mp h)
  have hinj : Function.Injective (fun a : Fin v.num => v.X a) := fun a b hab => hinj' a b hab (h0 a)
  have hsub : Set.range (fun a : Fin v.num => v.X a) ⊆ signVectors W1 := by
    rintro _ ⟨a, rfl⟩
    obtain ⟨z, -, hz'⟩ := hsign a
    exact row_mem_signVectors ⟨z, hz'⟩ (h0 a)
  have hfin := Proofs.SignVectors.finite W1
  have hcard : (Set.range fun a : Fin v.num => v.X a).ncard = v.num := by
    rw [← Set.image_univ, Set.ncard_image_of_injective _ hinj, Set.ncard_univ, Nat.card_eq_fintype_card, Fintype.card_fin]
  obtain ⟨N', hN', hb⟩ := C50_bound W1 hm
  have hNN : N' = N := by
    rw [C50_formula m n hm] at hN'
    rw [hN]
    exact (Except.ok.inj hN').symm
  subst hNN
  have hle : v.num ≤ N' := by
    rw [← hcard]
    exact (Set.ncard_le_ncard hsub hfin).trans hb
  refine ⟨N', hN', hle, ?_, fun heq x => ⟨fun hx => ?_, fun ⟨a, ha⟩ => ha ▸ hsub ⟨a, rfl⟩⟩⟩
  · rw [(Prod.mk.inj h1).2]
    simp only
    split_ifs with h2
    · simp
      omega
    · simp
      omega
  · have : Set.range (fun a : Fin v.num => v.X a) = signVectors W1 :=
      Set.eq_of_subset_of_ncard_le hsub (by rw [hcard, heq]; exact hb) hfin
    rw [← this] at hx
    exact hx

end Props
