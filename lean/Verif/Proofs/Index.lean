import Verif.Np

/-! Index arithmetic of `kron`, `reshape` and `ravel`. -/

namespace Proofs.Index

variable {α : Type*}

@[simp] theorem divNat_finProd {a b : ℕ} (k : Fin a) (i : Fin b) : (finProdFinEquiv (k, i)).divNat = k :=
  congrArg Prod.fst (finProdFinEquiv.symm_apply_apply (k, i))

@[simp] theorem modNat_finProd {a b : ℕ} (k : Fin a) (i : Fin b) : (finProdFinEquiv (k, i)).modNat = i :=
  congrArg Prod.snd (finProdFinEquiv.symm_apply_apply (k, i))

@[simp] theorem finProd_div_mod {a b : ℕ} (p : Fin (a * b)) : finProdFinEquiv (p.divNat, p.modNat) = p :=
  finProdFinEquiv.apply_symm_apply p

theorem kron_apply {a b r c : ℕ} (A : Matrix (Fin a) (Fin b) ℝ) (B : Matrix (Fin r) (Fin c) ℝ) (i : Fin a)
    (k : Fin r) (j : Fin b) (l : Fin c) :
    Np.kron A B (finProdFinEquiv (i, k)) (finProdFinEquiv (j, l)) = A i j * B k l := by
  change A _ _ * B _ _ = _
  rw [divNat_finProd, divNat_finProd, modNat_finProd, modNat_finProd]

@[simp] theorem ravel_finProd {a b : ℕ} (A : Matrix (Fin a) (Fin b) α) (i : Fin a) (j : Fin b) :
    Np.ravel A (finProdFinEquiv (i, j)) = A i j := by
  change A _ _ = _
  rw [divNat_finProd, modNat_finProd]

theorem reshape2_apply {a b : ℕ} (v : Fin (a * b) → α) (i : Fin a) (j : Fin b) :
    Np.reshape2 v i j = v (finProdFinEquiv (i, j)) := rfl

@[simp] theorem reshape2_ravel {a b : ℕ} (A : Matrix (Fin a) (Fin b) α) : Np.reshape2 (Np.ravel A) = A := by
  ext i j
  exact ravel_finProd A i j

@[simp] theorem ravel_reshape2 {a b : ℕ} (v : Fin (a * b) → α) : Np.ravel (Np.reshape2 v) = v := by
  funext p
  change v _ = _
  rw [finProd_div_mod]

theorem sum_finProd {a b : ℕ} {M : Type*} [AddCommMonoid M] (f : Fin (a * b) → M) :
    ∑ p, f p = ∑ i : Fin a, ∑ j : Fin b, f (finProdFinEquiv (i, j)) := by
  rw [← finProdFinEquiv.sum_comp, Fintype.sum_prod_type]

end Proofs.Index
