import Mathlib.Data.Real.Basic
import Mathlib.Algebra.BigOperators.Group.List.Basic
import Mathlib.Algebra.BigOperators.Ring.List
import Mathlib.Tactic.Ring

/-!
# Tensor products of one-dimensional rules

A one-dimensional rule is a list of (node, weight); a rule in several dimensions is a list of (point, weight).
-/

namespace Spec

/-- All combinations, first dimension slowest, with the products of the weights. -/
def tensor : List (List (ℝ × ℝ)) → List (List ℝ × ℝ)
  | [] => [([], 1)]
  | r :: rs => r.flatMap fun xw => (tensor rs).map fun pv => (xw.1 :: pv.1, xw.2 * pv.2)

/-- The quadrature sum of `f` over a rule. -/
def quad {α : Type} (rule : List (α × ℝ)) (f : α → ℝ) : ℝ := (rule.map fun xw => xw.2 * f xw.1).sum

/-- `f_1(x_1) * ... * f_d(x_d)` -/
def prodFun : List (ℝ → ℝ) → List ℝ → ℝ
  | f :: fs, x :: xs => f x * prodFun fs xs
  | _, _ => 1

theorem tensor_concat (rs : List (List (ℝ × ℝ))) (r : List (ℝ × ℝ)) :
    tensor (rs ++ [r]) = (tensor rs).flatMap fun pv => r.map fun xw => (pv.1 ++ [xw.1], pv.2 * xw.2) := by
  induction rs with
  | nil =>
    simp only [List.nil_append, tensor, List.map_cons, List.map_nil, List.flatMap_cons, List.flatMap_nil,
      List.append_nil, one_mul, mul_one]
    rw [List.map_eq_flatMap]
  | cons s rs ih =>
    simp only [List.cons_append, tensor, ih, List.flatMap_assoc]
    congr 1
    funext xw
    simp only [List.map_flatMap, List.flatMap_map, List.map_map]
    congr 1
    funext pv
    refine List.map_congr_left fun yw _ => ?_
    simp [mul_assoc]

theorem tensor_length (rs : List (List (ℝ × ℝ))) : (tensor rs).length = (rs.map List.length).prod := by
  induction rs with
  | nil => rfl
  | cons r rs ih => simp [tensor, List.length_flatMap, ih]

theorem tensor_mem {rs : List (List (ℝ × ℝ))} {pv : List ℝ × ℝ} (h : pv ∈ tensor rs) :
    ∃ c : List (ℝ × ℝ), List.Forall₂ (· ∈ ·) c rs ∧ pv.1 = c.map Prod.fst ∧ pv.2 = (c.map Prod.snd).prod := by
  induction rs generalizing pv with
  | nil =>
    simp only [tensor, List.mem_singleton] at h
    subst h
    exact ⟨[], .nil, rfl, rfl⟩
  | cons r rs ih =>
    simp only [tensor, List.mem_flatMap, List.mem_map] at h
    obtain ⟨xw, hx, pv', hp, rfl⟩ := h
    obtain ⟨c, h1, h2, h3⟩ := ih hp
    exact ⟨xw :: c, .cons hx h1, by simp [h2], by simp [h3]⟩

theorem quad_tensor (rs : List (List (ℝ × ℝ))) (fs : List (ℝ → ℝ)) (h : fs.length = rs.length) :
    quad (tensor rs) (prodFun fs) = (List.zipWith quad rs fs).prod := by
  induction rs generalizing fs with
  | nil =>
    obtain rfl : fs = [] := List.length_eq_zero_iff.mp h
    simp [tensor, quad, prodFun]
  | cons r rs ih =>
    obtain ⟨f, fs, rfl⟩ : ∃ f fs', fs = f :: fs' := List.exists_cons_of_length_eq_add_one h
    rw [List.zipWith_cons_cons, List.prod_cons, ← ih fs (by simpa using h)]
    simp only [tensor, quad]
    clear h
    induction r with
    | nil => simp
    | cons xw r ihr =>
      simp only [List.flatMap_cons, List.map_append, List.sum_append, List.map_cons, List.sum_cons, add_mul, ihr,
        List.map_map]
      congr 1
      rw [← List.sum_map_mul_left]
      congr 1
      refine List.map_congr_left fun pv _ => ?_
      simp only [Function.comp, prodFun]
      ring

theorem sum_weights (rs : List (List (ℝ × ℝ))) :
    ((tensor rs).map Prod.snd).sum = (rs.map fun r => (r.map Prod.snd).sum).prod := by
  induction rs with
  | nil => simp [tensor]
  | cons r rs ih =>
    rw [List.map_cons, List.prod_cons, ← ih]
    simp only [tensor]
    induction r with
    | nil => simp
    | cons xw r ihr =>
      simp only [List.flatMap_cons, List.map_append, List.sum_append, List.map_cons, List.sum_cons, add_mul, ihr,
        List.map_map]
      congr 1
      rw [← List.sum_map_mul_left]
      rfl

end Spec
