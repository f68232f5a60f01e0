import Verif.Model.RoundedMaps
import Verif.Props.Maps
import Verif.Props.RoundedSubspace

/-!
# Property C130: the map to the active variables and back in double precision
-/

open Py Matrix Model.Subspaces Model.Domains Spec Proofs.FloatSum

namespace Props

variable {n k NY N : ℕ} {rd : ℝ → ℝ}

/-- C130: with exact products the definitions are those of C44. -/
theorem C130_exact (s : Subspaces) (X : Arr) (Y : NpMat) (Z : Arr3) (W : NpMat) :
    Model.Rounded.forward (fun _ _ _ A B => A * B) s X = forward s X ∧
    Model.Rounded.rotate_x (fun _ _ _ A B => A * B) Y Z W = rotate_x Y Z W := ⟨rfl, rfl⟩

/-- Columns that are nearly orthonormal. -/
theorem Rounded.col_abs_le {q : ℕ} {V : Matrix (Fin q) (Fin q) ℝ} {η : ℝ} (hV : ∀ a b, |∑ i, V i a * V i b - if a = b then 1 else 0| ≤ η) (a b : Fin q) :
    ∑ i, |V i a| * |V i b| ≤ 1 + η := by
  have h : ∀ c, ∑ i, V i c * V i c ≤ 1 + η := fun c => by
    have := (abs_le.mp (hV c c)).2
    rw [if_pos rfl] at this
    linarith
  have h1 : ∑ i, |V i a| * |V i b| ≤ ∑ i, (V i a * V i a + V i b * V i b) / 2 := by
    refine Finset.sum_le_sum fun i _ => ?_
    have := sq_nonneg (|V i a| - |V i b|)
    nlinarith [sq_abs (V i a), sq_abs (V i b)]
  rw [← Finset.sum_div, Finset.sum_add_distrib] at h1
  linarith [h a, h b]

/-- There and back, on matrices. -/
theorem Rounded.roundtrip (hr : Rounding rd) {R q c : ℕ} {F X : Matrix (Fin R) (Fin q) ℝ} {V : Matrix (Fin q) (Fin q) ℝ} {K : Matrix (Fin q) (Fin c) ℝ}
    {Y : Matrix (Fin R) (Fin c) ℝ} {η γ : ℝ} (hγ : γ = (1 + 1 / 2 ^ 53) ^ q - 1) (hV : ∀ a b, |∑ i, V i a * V i b - if a = b then 1 else 0| ≤ η)
    (hX : FloatDot rd F V.transpose X) (hY : FloatDot rd X K Y) (σ : Fin c → Fin q) (hK : ∀ i j, K i j = V i (σ j)) (r : Fin R) (j : Fin c) :
    |Y r j - F r (σ j)| ≤ (η + (2 * γ + γ ^ 2) * (1 + η)) * ∑ l, |F r l| := by
  have hγu : γ = (1 + u) ^ q - 1 := hγ
  have hγ0 : 0 ≤ γ := by rw [hγu]; linarith [one_le_pow q]
  have h1 : ∀ i, |X r i - ∑ l, F r l * V i l| ≤ γ * ∑ l, |F r l| * |V i l| := fun i => by
    have := dot_bound hr hX r i
    rw [← hγu] at this
    simpa only [transpose_apply, abs_mul] using this
  have h2 : |Y r j - ∑ i, X r i * V i (σ j)| ≤ γ * ∑ i, |X r i| * |V i (σ j)| := by
    have := dot_bound hr hY r j
    rw [← hγu] at this
    simpa only [hK, abs_mul] using this
  have h3 : ∀ i, |X r i| ≤ (1 + γ) * ∑ l, |F r l| * |V i l| := fun i => by
    have a1 : |∑ l, F r l * V i l| ≤ ∑ l, |F r l| * |V i l| :=
      (Finset.abs_sum_le_sum_abs _ _).trans (le_of_eq (Finset.sum_congr rfl fun l _ => abs_mul _ _))
    have a2 := abs_sub_abs_le_abs_sub (X r i) (∑ l, F r l * V i l)
    linarith [h1 i]
  set S := ∑ l, |F r l| with hS
  -- sums of the kind that occur
  have h4 : ∑ i, (∑ l, |F r l| * |V i l|) * |V i (σ j)| ≤ (1 + η) * S := by
    simp only [Finset.sum_mul]
    rw [Finset.sum_comm, hS, Finset.mul_sum]
    refine Finset.sum_le_sum fun l _ => ?_
    have e : ∑ i, |F r l| * |V i l| * |V i (σ j)| = |F r l| * ∑ i, |V i l| * |V i (σ j)| := by
      rw [Finset.mul_sum]
      exact Finset.sum_congr rfl fun i _ => by ring
    rw [e, mul_comm]
    exact mul_le_mul_of_nonneg_right (Rounded.col_abs_le hV l (σ j)) (abs_nonneg _)
  have h5 : γ * ∑ i, |X r i| * |V i (σ j)| ≤ γ * (1 + γ) * ((1 + η) * S) := by
    rw [mul_assoc]
    refine mul_le_mul_of_nonneg_left ?_ hγ0
    calc ∑ i, |X r i| * |V i (σ j)| ≤ ∑ i, (1 + γ) * ((∑ l, |F r l| * |V i l|) * |V i (σ j)|) :=
          Finset.sum_le_sum fun i _ => by
            rw [← mul_assoc]
            exact mul_le_mul_of_nonneg_right (h3 i) (abs_nonneg _)
      _ = (1 + γ) * ∑ i, (∑ l, |F r l| * |V i l|) * |V i (σ j)| := by rw [Finset.mul_sum]
      _ ≤ (1 + γ) * ((1 + η) * S) := mul_le_mul_of_nonneg_left h4 (by linarith)
  have h6 : |∑ i, X r i * V i (σ j) - ∑ i, (∑ l, F r l * V i l) * V i (σ j)| ≤ γ * ((1 + η) * S) := by
    rw [← Finset.sum_sub_distrib]
    refine (Finset.abs_sum_le_sum_abs _ _).trans ?_
    calc ∑ i, |X r i * V i (σ j) - (∑ l, F r l * V i l) * V i (σ j)| ≤ ∑ i, γ * ((∑ l, |F r l| * |V i l|) * |V i (σ j)|) :=
          Finset.sum_le_sum fun i _ => by
            rw [← sub_mul, abs_mul, ← mul_assoc]
            exact mul_le_mul_of_nonneg_right (h1 i) (abs_nonneg _)
      _ = γ * ∑ i, (∑ l, |F r l| * |V i l|) * |V i (σ j)| := by rw [Finset.mul_sum]
      _ ≤ γ * ((1 + η) * S) := mul_le_mul_of_nonneg_left h4 hγ0
  have h7 : |∑ i, (∑ l, F r l * V i l) * V i (σ j) - F r (σ j)| ≤ η * S := by
    have e1 : ∑ i, (∑ l, F r l * V i l) * V i (σ j) = ∑ l, F r l * ∑ i, V i l * V i (σ j) := by
      simp only [Finset.sum_mul, Finset.mul_sum]
      rw [Finset.sum_comm]
      exact Finset.sum_congr rfl fun l _ => Finset.sum_congr rfl fun i _ => by ring
    have e2 : F r (σ j) = ∑ l, F r l * if l = σ j then 1 else 0 := by simp
    rw [e1, e2, ← Finset.sum_sub_distrib, hS, Finset.mul_sum]
    refine (Finset.abs_sum_le_sum_abs _ _).trans (Finset.sum_le_sum fun l _ => ?_)
    rw [← mul_sub, abs_mul, mul_comm]
    exact mul_le_mul_of_nonneg_right (hV l (σ j)) (abs_nonneg _)
  have h8 := abs_sub_le (Y r j) (∑ i, X r i * V i (σ j)) (F r (σ j))
  have h9 := abs_sub_le (∑ i, X r i * V i (σ j)) (∑ i, (∑ l, F r l * V i l) * V i (σ j)) (F r (σ j))
  have e : (η + (2 * γ + γ ^ 2) * (1 + η)) * S = γ * (1 + γ) * ((1 + η) * S) + (γ * ((1 + η) * S) + η * S) := by ring
  rw [e]
  linarith

/-- C130: points made from active and inactive variables, with stored eigenvectors that are orthonormal up to `η`, are mapped back to
these variables up to `(η + (2 γ + γ²) (1 + η))` times the sum of their absolute values; `γ` is about `m` times the unit roundoff. -/
theorem C130_roundtrip (hr : Rounding rd) {d : Model.Rounded.Dot} (hd : ∀ p n q A B, FloatDot rd A B (d p n q A B)) {s : Subspaces}
    {V1 : Matrix (Fin (n + k)) (Fin n) ℝ} {V2 : Matrix (Fin (n + k)) (Fin k) ℝ} (h1 : s.W1 = some (NpMat.of V1)) (h2 : s.W2 = some (NpMat.of V2))
    {η γ : ℝ} (hV : ∀ a b, |∑ i, Np.hstack V1 V2 i a * Np.hstack V1 V2 i b - if a = b then 1 else 0| ≤ η)
    (hγ : γ = (1 + 1 / 2 ^ 53) ^ (n + k) - 1) (Y : Matrix (Fin NY) (Fin n) ℝ) (Z : Fin NY → Fin k → Fin N → ℝ) :
    ∃ (X : Matrix (Fin (NY * N)) (Fin (n + k)) ℝ) (ind : Matrix (Fin (NY * N)) (Fin 1) ℝ) (Y' : Matrix (Fin (NY * N)) (Fin n) ℝ)
        (Z' : Matrix (Fin (NY * N)) (Fin k) ℝ),
      Model.Rounded.rotate_x d (NpMat.of Y) ⟨NY, k, N, Z⟩ (NpMat.of (Np.hstack V1 V2)) = .ok (NpMat.of X, NpMat.of ind) ∧
      Model.Rounded.forward d s (.mat (NpMat.of X)) = .ok (NpMat.of Y', NpMat.of Z') ∧
      (∀ r : Fin (NY * N), ind r 0 = (((r : ℕ) / N : ℕ) : ℝ)) ∧
      ∀ (a : Fin NY) (t : Fin N) (r : Fin (NY * N)), (r : ℕ) = a * N + t →
        (∀ j : Fin n, |Y' r j - Y a j| ≤ (η + (2 * γ + γ ^ 2) * (1 + η)) * (∑ l, |Y a l| + ∑ l, |Z a l t|)) ∧
        ∀ j : Fin k, |Z' r j - Z a j t| ≤ (η + (2 * γ + γ ^ 2) * (1 + η)) * (∑ l, |Y a l| + ∑ l, |Z a l t|) := by
  let F : Matrix (Fin (NY * N)) (Fin (n + k)) ℝ := flattenYZ (concatYZ (NpMat.of Y) ⟨NY, k, N, Z⟩ rfl)
  let X : Matrix (Fin (NY * N)) (Fin (n + k)) ℝ := d _ _ _ F (Np.hstack V1 V2).transpose
  refine ⟨X, rotateInd NY N, d _ _ _ X V1, d _ _ _ X V2, ?_, ?_, fun r => ?_, fun a t r hr' => ?_⟩
  · unfold Model.Rounded.rotate_x
    refine (dif_pos rfl).trans ?_
    have : Model.Rounded.dot d (NpMat.of (flattenYZ (concatYZ (NpMat.of Y) ⟨NY, k, N, Z⟩ rfl))) (NpMat.of (Np.hstack V1 V2)).transpose
        = .ok (NpMat.of X) := dif_pos rfl
    rw [this]
    exact if_pos rfl
  · unfold Model.Rounded.forward
    rw [h1, h2]
    have e1 : Model.Rounded.dot d (NpMat.of X) (NpMat.of V1) = .ok (NpMat.of (d _ _ _ X V1)) := dif_pos rfl
    have e2 : Model.Rounded.dot d (NpMat.of X) (NpMat.of V2) = .ok (NpMat.of (d _ _ _ X V2)) := dif_pos rfl
    simp only [Model.Misc.process_inputs, bind, Except.bind, e1, e2]
    rfl
  · change ((r.divNat : ℕ) : ℝ) * 1 = _
    rw [mul_one]
    rfl
  · have e1 : r.divNat = a := Fin.ext (by
      change (r : ℕ) / N = a
      rw [hr', Nat.add_comm, Nat.add_mul_div_right _ _ (t.pos), Nat.div_eq_of_lt t.2, Nat.zero_add])
    have e2 : r.modNat = t := Fin.ext (by
      change (r : ℕ) % N = t
      rw [hr', Nat.add_comm, Nat.add_mul_mod_self_right, Nat.mod_eq_of_lt t.2])
    have f1 : ∀ j, F r (Fin.castAdd k j) = Y a j := fun j => by
      change concatYZ (NpMat.of Y) ⟨NY, k, N, Z⟩ rfl r.divNat (Fin.castAdd k j) r.modNat = _
      rw [e1, e2]
      unfold concatYZ
      exact congrFun (Fin.append_left _ _ j) t
    have f2 : ∀ j, F r (Fin.natAdd n j) = Z a j t := fun j => by
      change concatYZ (NpMat.of Y) ⟨NY, k, N, Z⟩ rfl r.divNat (Fin.natAdd n j) r.modNat = _
      rw [e1, e2]
      unfold concatYZ
      exact congrFun (Fin.append_right _ _ j) t
    have hS : ∑ l, |F r l| = ∑ l, |Y a l| + ∑ l, |Z a l t| := by
      rw [Fin.sum_univ_add]
      simp only [f1, f2]
    rw [← hS]
    constructor
    · intro j
      rw [← f1]
      exact Rounded.roundtrip hr hγ hV (hd _ _ _ _ _) (hd _ _ _ X V1) (Fin.castAdd k) (fun i j => (Np.hstack_castAdd V1 V2 i j).symm) r j
    · intro j
      rw [← f2]
      exact Rounded.roundtrip hr hγ hV (hd _ _ _ _ _) (hd _ _ _ X V2) (Fin.natAdd n) (fun i j => (Np.hstack_natAdd V1 V2 i j).symm) r j

/-- A rotation with entries of double precision is orthonormal up to rounding: 0.6 and 0.8, computed to 16 digits. -/
example : ∀ a b, |∑ i, Np.hstack !![(0.6000000000000001 : ℝ); 0.8] !![(-0.8 : ℝ); 0.6] i a *
    Np.hstack !![(0.6000000000000001 : ℝ); 0.8] !![(-0.8 : ℝ); 0.6] i b - if a = b then 1 else 0| ≤ 2 / 10 ^ 16 := by
  intro a b
  refine Fin.addCases (fun a => ?_) (fun a => ?_) a <;> refine Fin.addCases (fun b => ?_) (fun b => ?_) b <;>
    fin_cases a <;> fin_cases b <;> simp only [Np.hstack_castAdd, Np.hstack_natAdd, Fin.sum_univ_two] <;> simp [abs_le] <;> norm_num

end Props
