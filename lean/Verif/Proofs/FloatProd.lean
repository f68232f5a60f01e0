import Verif.Proofs.Near
import Verif.Spec.FloatProd

/-!
# Rounding errors of products and powers
-/

open Spec Proofs.Rounding Proofs.FloatSum Proofs.Near

namespace Proofs.FloatProd

variable {rd : ℝ → ℝ}

theorem near_of_oneUlp {v x : ℝ} (h : OneUlp v x) : Near 2 v x |x| := by
  refine ⟨h.trans ?_, le_rfl⟩
  have e : |x| / 2 ^ 52 = 2 * u * |x| := by unfold u; ring
  rw [e]
  refine mul_le_mul_of_nonneg_right ?_ (abs_nonneg x)
  nlinarith [sq_nonneg u]

theorem oneUlp_rounding (h : Rounding rd) (x : ℝ) : OneUlp (rd x) x := by
  refine (error h x).trans ?_
  exact div_le_div_of_nonneg_left (abs_nonneg x) (by positivity) (by norm_num)

/-- The error of a product of `n` numbers, in any order: relative to the product at most `(1 + 2^-53)^n - 1`. -/
theorem prod_near (h : Rounding rd) {l : List ℝ} {s : ℝ} (hs : FloatProd rd l s) : Near (l.length - 1) s l.prod |l.prod| := by
  induction hs with
  | nil => simpa using refl (b := (1 : ℝ)) (m := |1|) le_rfl
  | one a => simpa using refl (b := a) (m := |a|) le_rfl
  | @mul l l' s t hl hl' _ _ ih ih' =>
    have h1 := List.length_pos_iff.mpr hl
    have h2 := List.length_pos_iff.mpr hl'
    have := (ih.mul ih').round h
    rw [List.prod_append, abs_mul]
    exact this.mono (by rw [List.length_append]; omega)
  | @perm l l' s hp _ ih =>
    rw [← hp.length_eq, ← hp.prod_eq]
    exact ih

theorem near_prod {ι : Type*} (s : Finset ι) {n : ℕ} {a b m : ι → ℝ} (h : ∀ i ∈ s, Near n (a i) (b i) (m i)) :
    Near (n * s.card) (∏ i ∈ s, a i) (∏ i ∈ s, b i) (∏ i ∈ s, m i) := by
  classical
  induction s using Finset.induction_on with
  | empty => simpa using refl (b := (1 : ℝ)) (m := 1) (by simp)
  | insert i s hi ih =>
    rw [Finset.prod_insert hi, Finset.prod_insert hi, Finset.prod_insert hi, Finset.card_insert_of_notMem hi]
    have := (h i (Finset.mem_insert_self i s)).mul (ih fun j hj => h j (Finset.mem_insert_of_mem hj))
    exact this.mono (by ring_nf; rfl)

theorem exists_floatProd (rd : ℝ → ℝ) (l : List ℝ) : ∃ s, FloatProd rd l s := by
  induction l with
  | nil => exact ⟨1, .nil⟩
  | cons a l ih =>
    obtain ⟨s, hs⟩ := ih
    rcases eq_or_ne l [] with rfl | hl
    · exact ⟨a, .one a⟩
    · exact ⟨_, .mul (l := [a]) (by simp) hl (.one a) hs⟩

/-- A monomial in floating point. -/
theorem monomial_near (hr : Rounding rd) {m : ℕ} {a : Fin m → ℝ} {s : ℝ} (hs : FloatProd rd (List.ofFn a) s) {x : Fin m → ℝ} {α : Fin m → ℕ}
    (ha : ∀ k, OneUlp (a k) (x k ^ α k)) : Near (3 * m) s (∏ k, x k ^ α k) (∏ k, |x k| ^ α k) := by
  have h1 := prod_near hr hs
  rw [List.prod_ofFn, List.length_ofFn] at h1
  have h2 := near_prod Finset.univ (fun k _ => near_of_oneUlp (ha k))
  rw [Finset.card_univ, Fintype.card_fin] at h2
  have h3 := h1.trans h2.abs_le h2
  have e : ∏ k, |x k ^ α k| = ∏ k, |x k| ^ α k := Finset.prod_congr rfl fun k _ => abs_pow _ _
  rw [e] at h3
  exact h3.mono (by omega)

end Proofs.FloatProd
