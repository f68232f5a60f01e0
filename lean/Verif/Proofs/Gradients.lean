import Mathlib.Tactic.Ring
import Mathlib.Tactic.Linarith
import Verif.Model.Gradients

/-! Helper lemmas about the model of `gradients.py`. -/

open Py Model.Gradients

namespace Proofs.Gradients

variable {M m : ℕ}

theorem divNat_finProd {a b : ℕ} (k : Fin a) (i : Fin b) : (finProdFinEquiv (k, i)).divNat = k :=
  congrArg Prod.fst (finProdFinEquiv.symm_apply_apply (k, i))

theorem modNat_finProd {a b : ℕ} (k : Fin a) (i : Fin b) : (finProdFinEquiv (k, i)).modNat = i :=
  congrArg Prod.snd (finProdFinEquiv.symm_apply_apply (k, i))

/-- The k-th perturbation direction: nothing for 0, the unit vector of coordinate `k-1` otherwise. -/
def dir (k : Fin (m + 1)) (j : Fin m) : ℝ := Fin.cases 0 (fun k' => if k' = j then 1 else 0) k

theorem fdDesign_apply (X : Matrix (Fin M) (Fin m) ℝ) (h : ℝ) (k : Fin (m + 1)) (i : Fin M) (j : Fin m) :
    fdDesign X h (finProdFinEquiv (k, i)) j = X i j + h * dir k j := by
  have hm : (Fin.cast (one_mul m).symm j).modNat = j := by
    apply Fin.ext; simp [Fin.modNat, Nat.mod_eq_of_lt j.2]
  have hd : (Fin.cast (mul_one m).symm j).divNat = j := by
    apply Fin.ext; simp [Fin.divNat]
  have hk : ∀ e, (Fin.cast e (finProdFinEquiv (k, i)) : Fin ((1 + m) * M)).divNat
      = Fin.cast (Nat.add_comm m 1) k := by
    intro e
    apply Fin.ext
    have := congrArg Fin.val (divNat_finProd k i)
    simpa [Fin.divNat] using this
  simp only [fdDesign, Matrix.add_apply, Matrix.smul_apply, Matrix.submatrix_apply, Np.kron, Np.ones,
    Matrix.of_apply, id, modNat_finProd, hm, hd, hk, one_mul, mul_one, smul_eq_mul]
  congr 2
  refine Fin.cases ?_ (fun k' => ?_) k
  · have : Fin.cast (Nat.add_comm m 1) (0 : Fin (m + 1)) = Fin.castAdd m (0 : Fin 1) := by
      apply Fin.ext; simp
    rw [this]
    rw [Np.vstack_castAdd]
    rfl
  · have : Fin.cast (Nat.add_comm m 1) k'.succ = Fin.natAdd 1 k' := by
      apply Fin.ext; simp [Nat.add_comm]
    rw [this]
    rw [Np.vstack_natAdd, Matrix.one_apply]
    rfl

theorem fdQuotient_apply (F : Matrix (Fin ((m + 1) * M)) (Fin 1) ℝ) (h : ℝ) (i : Fin M) (k : Fin m) :
    fdQuotient F h i k = (F (finProdFinEquiv (k.succ, i)) 0 - F (finProdFinEquiv (0, i)) 0) / h := by
  simp only [fdQuotient, Matrix.of_apply, Matrix.transpose_apply, Np.reshape2]
  congr 3
  · congr 1
    apply Fin.ext
    simp [finProdFinEquiv]
    ring

/-- Rows of an array with product index, block by block. -/
theorem rows_prod {a b c : ℕ} (Y : Matrix (Fin (a * b)) (Fin c) ℝ) :
    Np.rows Y = (List.finRange a).flatMap fun k => (List.finRange b).map fun i => Y (finProdFinEquiv (k, i)) := by
  apply List.ext_getElem
  · simp [List.length_flatMap]
  · intro n h1 h2
    have hn : n < a * b := by simpa using h1
    have hb : 0 < b := by
      rcases Nat.eq_zero_or_pos b with rfl | h
      · simp at hn
      · exact h
    rw [Np.getElem_rows]
    have key : ∀ (l : List (Fin a)) (n : ℕ) (hn : n < l.length * b)
        (h : n < (l.flatMap fun k => (List.finRange b).map fun i => Y (finProdFinEquiv (k, i))).length),
        (l.flatMap fun k => (List.finRange b).map fun i => Y (finProdFinEquiv (k, i)))[n]
          = Y (finProdFinEquiv (l[n / b]'((Nat.div_lt_iff_lt_mul hb).mpr hn), ⟨n % b, Nat.mod_lt _ hb⟩)) := by
      intro l
      induction l with
      | nil => intro n hn; simp at hn
      | cons k l ih =>
        intro n hn h
        simp only [List.flatMap_cons]
        by_cases hlt : n < b
        · rw [List.getElem_append_left (by simpa using hlt)]
          simp [Nat.div_eq_of_lt hlt, Nat.mod_eq_of_lt hlt]
        · rw [List.getElem_append_right (by simpa using hlt)]
          simp only [List.length_map, List.length_finRange]
          have hn' : n - b < l.length * b := by
            simp only [List.length_cons, Nat.add_mul, one_mul] at hn
            omega
          rw [ih _ hn']
          have h1 : n / b = (n - b) / b + 1 := by
            rw [Nat.div_eq_sub_div hb (by omega)]
          have h2 : n % b = (n - b) % b := Nat.mod_eq_sub_mod (by omega)
          congr 3
          · simp [h1]
          · apply Fin.ext; exact h2.symm
    rw [key _ _ (by simpa using hn)]
    congr 1
    apply Fin.ext
    simp [finProdFinEquiv, Nat.mod_add_div]

theorem dir_zero (j : Fin m) : dir (0 : Fin (m + 1)) j = 0 := rfl

theorem dir_succ (k j : Fin m) : dir k.succ j = if k = j then 1 else 0 := rfl

end Proofs.Gradients
