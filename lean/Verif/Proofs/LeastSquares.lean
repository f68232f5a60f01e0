import Mathlib.Analysis.InnerProductSpace.PiL2
import Mathlib.Analysis.InnerProductSpace.Projection.Minimal
import Mathlib.Analysis.InnerProductSpace.Projection.FiniteDimensional
import Mathlib.Topology.Algebra.Module.FiniteDimension
import Mathlib.Tactic.Linarith
import Mathlib.Tactic.Ring
import Verif.Spec.LinAlg

/-! Least squares: exact fits, normal equations, and satisfiability of the `lstsq` contract. -/

namespace Proofs.LeastSquares

open Spec Matrix

variable {r c n : ℕ}

theorem sqNorm_nonneg (v : Fin n → ℝ) : 0 ≤ sqNorm v :=
  Finset.sum_nonneg fun _ _ => sq_nonneg _

theorem sqNorm_eq_zero {v : Fin n → ℝ} : sqNorm v = 0 ↔ v = 0 := by
  unfold sqNorm
  rw [Finset.sum_eq_zero_iff_of_nonneg fun _ _ => sq_nonneg _]
  constructor
  · intro h; funext i; exact pow_eq_zero_iff (two_ne_zero) |>.mp (h i (Finset.mem_univ i))
  · rintro rfl i _; simp

theorem sqNorm_dot (v : Fin n → ℝ) : sqNorm v = v ⬝ᵥ v := by
  simp [sqNorm, dotProduct, sq]

theorem sqNorm_add (u v : Fin n → ℝ) : sqNorm (u + v) = sqNorm u + 2 * (u ⬝ᵥ v) + sqNorm v := by
  simp only [sqNorm_dot, add_dotProduct, dotProduct_add, dotProduct_comm v u]
  ring

theorem sqNorm_smul (t : ℝ) (v : Fin n → ℝ) : sqNorm (t • v) = t ^ 2 * sqNorm v := by
  simp [sqNorm, Finset.mul_sum, mul_pow]

/-- A consistent system is solved exactly. -/
theorem exact_of_consistent {A : Matrix (Fin r) (Fin c) ℝ} {b : Fin r → ℝ} {u v : Fin c → ℝ}
    (hu : IsLeastSquares A b u) (hv : A.mulVec v = b) : A.mulVec u = b := by
  have h := hu v
  rw [hv, sub_self, sqNorm_eq_zero.mpr rfl] at h
  have := sqNorm_eq_zero.mp (le_antisymm h (sqNorm_nonneg _))
  exact sub_eq_zero.mp this

/-- A consistent system with independent columns has its solution recovered. -/
theorem unique_of_consistent {A : Matrix (Fin r) (Fin c) ℝ} {b : Fin r → ℝ} {u v : Fin c → ℝ}
    (hu : IsLeastSquares A b u) (hv : A.mulVec v = b) (hA : FullColumnRank A) : u = v :=
  hA ((exact_of_consistent hu hv).trans hv.symm)

/-- Normal equations. -/
theorem isLeastSquares_iff {A : Matrix (Fin r) (Fin c) ℝ} {b : Fin r → ℝ} {u : Fin c → ℝ} :
    IsLeastSquares A b u ↔ A.transpose.mulVec (A.mulVec u - b) = 0 := by
  have hexp : ∀ d : Fin c → ℝ, sqNorm (A.mulVec (u + d) - b)
      = sqNorm (A.mulVec u - b) + 2 * (A.transpose.mulVec (A.mulVec u - b) ⬝ᵥ d) + sqNorm (A.mulVec d) := by
    intro d
    have : A.mulVec (u + d) - b = (A.mulVec u - b) + A.mulVec d := by
      rw [Matrix.mulVec_add]; abel
    rw [this, sqNorm_add, Matrix.dotProduct_mulVec, ← Matrix.mulVec_transpose]
  constructor
  · intro h
    set g := A.transpose.mulVec (A.mulVec u - b) with hg
    by_contra hne
    have hgpos : 0 < sqNorm g := lt_of_le_of_ne (sqNorm_nonneg g) (fun h0 => hne (sqNorm_eq_zero.mp h0.symm))
    -- step of length t against the gradient
    set q := sqNorm (A.mulVec g) with hq
    have hqn : 0 ≤ q := sqNorm_nonneg _
    have key : ∀ t : ℝ, 0 ≤ t → 2 * sqNorm g * t ≤ q * t ^ 2 := by
      intro t _
      have h1 := h (u + (-t) • g)
      rw [hexp, Matrix.mulVec_smul, sqNorm_smul, dotProduct_smul, ← sqNorm_dot, smul_eq_mul] at h1
      nlinarith
    rcases hqn.eq_or_lt with h0 | hpos
    · have := key 1 (by norm_num)
      rw [← h0] at this
      linarith
    · have := key (sqNorm g / q) (by positivity)
      have h2 : q * (sqNorm g / q) ^ 2 = sqNorm g ^ 2 / q := by field_simp
      have h3 : 2 * sqNorm g * (sqNorm g / q) = 2 * (sqNorm g ^ 2 / q) := by ring
      rw [h2, h3] at this
      have : 0 < sqNorm g ^ 2 / q := by positivity
      linarith
  · intro h v
    have h1 := hexp (v - u)
    rw [h, zero_dotProduct, add_sub_cancel] at h1
    have := sqNorm_nonneg (A.mulVec (v - u))
    linarith

theorem sqNorm_eq_norm (v : Fin n → ℝ) : sqNorm v = ‖WithLp.toLp 2 v‖ ^ 2 := by
  rw [EuclideanSpace.norm_sq_eq]
  simp [sqNorm]

/-- A least-squares solution exists. -/
theorem exists_isLeastSquares (A : Matrix (Fin r) (Fin c) ℝ) (b : Fin r → ℝ) :
    ∃ u, IsLeastSquares A b u := by
  let K : Submodule ℝ (EuclideanSpace ℝ (Fin r)) := LinearMap.range (Matrix.toEuclideanLin A)
  obtain ⟨v, hv, hmin⟩ := K.exists_norm_eq_iInf_of_complete_subspace
    (Submodule.complete_of_finiteDimensional K) (WithLp.toLp 2 b)
  obtain ⟨u, rfl⟩ := hv
  refine ⟨u.ofLp, fun w => ?_⟩
  have hle : ‖WithLp.toLp 2 b - Matrix.toEuclideanLin A u‖
      ≤ ‖WithLp.toLp 2 b - Matrix.toEuclideanLin A (WithLp.toLp 2 w)‖ := by
    rw [hmin]
    exact ciInf_le ⟨0, by rintro _ ⟨y, rfl⟩; exact norm_nonneg _⟩
      (⟨Matrix.toEuclideanLin A (WithLp.toLp 2 w), LinearMap.mem_range_self _ _⟩ : K)
  rw [norm_sub_rev, norm_sub_rev (WithLp.toLp 2 b)] at hle
  have h2 := pow_le_pow_left₀ (norm_nonneg _) hle 2
  rw [sqNorm_eq_norm, sqNorm_eq_norm]
  exact h2

/-- A least-squares solution of least norm exists. -/
theorem exists_min_norm (A : Matrix (Fin r) (Fin c) ℝ) (b : Fin r → ℝ) :
    ∃ u, IsLeastSquares A b u ∧ ∀ v, IsLeastSquares A b v → sqNorm u ≤ sqNorm v := by
  obtain ⟨u, hu⟩ := exists_isLeastSquares A b
  let K : Submodule ℝ (EuclideanSpace ℝ (Fin c)) := LinearMap.ker (Matrix.toEuclideanLin A)
  obtain ⟨k, hk, hmin⟩ := K.exists_norm_eq_iInf_of_complete_subspace
    (Submodule.complete_of_finiteDimensional K) (WithLp.toLp 2 u)
  have hker : ∀ x : EuclideanSpace ℝ (Fin c), x ∈ K ↔ A.mulVec x.ofLp = 0 := by
    intro x
    constructor
    · intro hx
      have := LinearMap.mem_ker.mp hx
      exact congrArg WithLp.ofLp this
    · intro hx
      apply LinearMap.mem_ker.mpr
      ext i
      exact congrFun hx i
  have hAk : A.mulVec k.ofLp = 0 := (hker k).mp hk
  have hAu : A.mulVec (u - k.ofLp) = A.mulVec u := by
    rw [Matrix.mulVec_sub, hAk, sub_zero]
  refine ⟨u - k.ofLp, fun w => by rw [hAu]; exact hu w, fun v hv => ?_⟩
  -- two least-squares solutions differ by a kernel element
  have hd : A.mulVec (u - v) = 0 := by
    have h1 := isLeastSquares_iff.mp hu
    have h2 := isLeastSquares_iff.mp hv
    have h3 : A.transpose.mulVec (A.mulVec (u - v)) = 0 := by
      have : A.mulVec (u - v) = (A.mulVec u - b) - (A.mulVec v - b) := by
        rw [Matrix.mulVec_sub]; abel
      rw [this, Matrix.mulVec_sub, h1, h2, sub_zero]
    apply sqNorm_eq_zero.mp
    rw [sqNorm_dot, Matrix.dotProduct_mulVec, ← Matrix.mulVec_transpose, h3, zero_dotProduct]
  have hle : ‖WithLp.toLp 2 u - k‖ ≤ ‖WithLp.toLp 2 u - WithLp.toLp 2 (u - v)‖ := by
    rw [hmin]
    exact ciInf_le ⟨0, by rintro _ ⟨y, rfl⟩; exact norm_nonneg _⟩
      (⟨WithLp.toLp 2 (u - v), (hker _).mpr hd⟩ : K)
  have h2 := pow_le_pow_left₀ (norm_nonneg _) hle 2
  rw [sqNorm_eq_norm, sqNorm_eq_norm]
  have e2 : WithLp.toLp 2 u - WithLp.toLp 2 (u - v) = WithLp.toLp 2 v := by
    ext i; simp
  rw [e2] at h2
  exact h2

/-- The `lstsq` contract can be met. -/
theorem lstsqContract_satisfiable :
    ∃ lstsq : ∀ {r c : ℕ}, Matrix (Fin r) (Fin c) ℝ → (Fin r → ℝ) → (Fin c → ℝ), LstsqContract lstsq :=
  ⟨fun A b => (exists_min_norm A b).choose, fun A b => (exists_min_norm A b).choose_spec⟩

end Proofs.LeastSquares
