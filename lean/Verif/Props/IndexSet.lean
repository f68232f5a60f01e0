import Verif.Proofs.IndexSet

/-!
# Property C25: multi-indices
-/

open Py Model.ResponseSurfaces Proofs.IndexSet

namespace Props

theorem index_set_blocks {n : ℕ} (hn : 2 ≤ n) (d : ℕ) : ∃ R : List (Fin (d + 1) → ℕ),
    index_set n (d + 1) = .ok ((((fun _ => 0) :: (List.finRange (d + 1)).map fun k => Pi.single k 1)
      ++ (fullIndexSet d 2).map fun α => α ∘ Fin.rev) ++ R) ∧ ∀ α ∈ R, 3 ≤ deg α := by
  refine ⟨((List.range' 3 (n - 2)).flatMap (fullIndexSet d)).map fun α => α ∘ Fin.rev, ?_, ?_⟩
  · obtain ⟨k, rfl⟩ : ∃ k, n = k + 2 := ⟨n - 2, by omega⟩
    rw [index_set_eq, List.range_eq_range']
    simp only [List.range'_succ, List.flatMap_cons, List.map_append, full_zero, full_one, zero_add, Nat.reduceAdd,
      List.map_cons, List.map_nil, List.map_map, Nat.add_sub_cancel]
    simp only [List.cons_append, List.nil_append, List.append_assoc]
    congr 2
    congr 1
    refine List.map_congr_left fun j _ => ?_
    funext l
    simp [Function.comp, Pi.single_apply]
  · intro α hα
    obtain ⟨β, hβ, rfl⟩ := List.mem_map.mp hα
    obtain ⟨i, hi, hβ⟩ := List.mem_flatMap.mp hβ
    have h1 := (mem_full d i β).mp hβ
    rw [List.mem_range'_1] at hi
    rw [deg_rev, h1]
    exact hi.1

/-- C25: `index_set(n, d)` lists every multi-index of total degree at most `n` exactly once, by increasing degree. -/
theorem C25_enumerates (n d : ℕ) (hd : 1 ≤ d) : ∃ I, index_set n d = .ok I ∧ I.Nodup ∧
    (∀ α, α ∈ I ↔ ∑ k, α k ≤ n) ∧ I.Pairwise (fun α β => ∑ k, α k ≤ ∑ k, β k) ∧
    I.length = (n + d).choose d := by
  obtain ⟨d, rfl⟩ : ∃ k, d = k + 1 := ⟨d - 1, by omega⟩
  refine ⟨_, index_set_eq n d, ?_, ?_, ?_, ?_⟩
  · refine List.Nodup.map rev_injective ?_
    rw [List.nodup_flatMap]
    refine ⟨fun i _ => nodup_full d i, (List.nodup_range (n := n + 1)).imp ?_⟩
    intro i j hij
    rw [Function.onFun, List.disjoint_left]
    intro α h1 h2
    exact hij (((mem_full d i α).mp h1).symm.trans ((mem_full d j α).mp h2))
  · intro α
    rw [List.mem_map]
    constructor
    · rintro ⟨β, hβ, rfl⟩
      obtain ⟨i, hi, hβ⟩ := List.mem_flatMap.mp hβ
      rw [List.mem_range] at hi
      have h1 := (mem_full d i β).mp hβ
      have h2 := deg_rev β
      unfold deg at h1 h2
      rw [h2, h1]
      omega
    · intro h
      refine ⟨α ∘ Fin.rev, List.mem_flatMap.mpr ⟨deg α, ?_, ?_⟩, ?_⟩
      · rw [List.mem_range]
        unfold deg
        omega
      · rw [mem_full, deg_rev]
      · funext k
        simp
  · refine List.Pairwise.map _ ?_ (sorted_range d _ List.pairwise_lt_range)
    intro α β h
    have h1 := deg_rev α
    have h2 := deg_rev β
    unfold deg at h h1 h2
    rw [h1, h2]
    exact h
  · rw [List.length_map, List.length_flatMap]
    simp only [length_full]
    rw [sum_range_list, hockey]

/-- C25: row 0 is zero and rows `1..d` are the unit vectors in order. -/
theorem C25_first_rows (n d : ℕ) (hd : 1 ≤ d) : ∃ I, index_set n d = .ok I ∧ I[0]? = some (fun _ => 0) ∧
    (1 ≤ n → ∀ k : Fin d, I[(k : ℕ) + 1]? = some (Pi.single k 1)) := by
  obtain ⟨d, rfl⟩ : ∃ k, d = k + 1 := ⟨d - 1, by omega⟩
  refine ⟨_, rfl, rfl, fun hn k => ?_⟩
  obtain ⟨n, rfl⟩ : ∃ k, n = k + 1 := ⟨n - 1, by omega⟩
  simp only [List.map_cons, List.getElem?_cons_succ, List.range'_succ, List.flatMap_cons, List.map_append, full_one,
    List.map_map]
  rw [List.getElem?_append_left (by simp; omega)]
  simp only [List.getElem?_map]
  rw [List.getElem?_eq_getElem (by simp; omega)]
  simp only [List.getElem_finRange, Option.map_some, Option.some.injEq]
  funext l
  simp [Function.comp, Pi.single_apply]

/-- C25: the rows `d+1 .. d+C(d+1,2)` are exactly those of degree two. -/
theorem C25_quadratic_rows (n d : ℕ) (hd : 1 ≤ d) (hn : 2 ≤ n) : ∃ I, index_set n d = .ok I ∧
    d + 1 + (d + 1).choose 2 ≤ I.length ∧
    ∀ i α, I[i]? = some α → (∑ k, α k = 2 ↔ d + 1 ≤ i ∧ i < d + 1 + (d + 1).choose 2) := by
  obtain ⟨d, rfl⟩ : ∃ k, d = k + 1 := ⟨d - 1, by omega⟩
  obtain ⟨R, hI, hR⟩ := index_set_blocks hn d
  have hlen : ((fullIndexSet d 2).map fun α => α ∘ Fin.rev).length = (d + 1 + 1).choose 2 := by
    rw [List.length_map, length_full, ← Nat.choose_symm_add, show 2 + d = d + 1 + 1 by ring]
  refine ⟨_, hI, ?_, fun i α hα => ?_⟩
  · rw [List.length_append, List.length_append, hlen]
    simp
  · rw [List.append_assoc] at hα
    rcases lt_or_ge i (d + 2) with h1 | h1
    · rw [List.getElem?_append_left (by simp; omega)] at hα
      have hmem := List.mem_of_getElem? hα
      have hdeg : ∑ k, α k ≤ 1 := by
        rcases List.mem_cons.mp hmem with rfl | h
        · simp
        · obtain ⟨k, _, rfl⟩ := List.mem_map.mp h
          simp
      constructor
      · intro h; omega
      · intro h; omega
    · rw [List.getElem?_append_right (by simp; omega)] at hα
      simp only [List.length_cons, List.length_map, List.length_finRange] at hα
      rcases lt_or_ge (i - (d + 1 + 1)) ((d + 1 + 1).choose 2) with h2 | h2
      · rw [List.getElem?_append_left (by rw [hlen]; exact h2)] at hα
        obtain ⟨β, hβ, rfl⟩ := List.mem_map.mp (List.mem_of_getElem? hα)
        have h3 := (mem_full d 2 β).mp hβ
        have h4 := deg_rev β
        unfold deg at h3 h4
        rw [h4, h3]
        constructor
        · intro; omega
        · intro; rfl
      · rw [List.getElem?_append_right (by rw [hlen]; exact h2)] at hα
        have h3 := hR α (List.mem_of_getElem? hα)
        unfold deg at h3
        constructor
        · intro; omega
        · intro; omega

/-- C25: without variables only degree 0 works; otherwise the recursion never ends. -/
theorem C25_no_variables (n : ℕ) : (n = 0 → index_set n 0 = .ok [Fin.elim0]) ∧ (1 ≤ n → index_set n 0 = .error .recursionError) := by
  constructor
  · rintro rfl; rfl
  · intro h
    rw [index_set, if_neg (by omega)]

/-- The enumeration for two variables and degree two. -/
example : index_set 2 2 = .ok [![0, 0], ![1, 0], ![0, 1], ![2, 0], ![1, 1], ![0, 2]] := by
  simp only [index_set, fullIndexSet, List.range'_succ, List.range'_zero, List.flatMap_cons, List.flatMap_nil, List.map_cons,
    List.map_nil, List.append_nil, List.nil_append, List.cons_append, Nat.reduceAdd, Nat.reduceSub, Except.ok.injEq,
    List.cons.injEq, and_true]
  refine ⟨?_, ?_, ?_, ?_, ?_, ?_⟩ <;> (funext k; fin_cases k <;> rfl)

end Props
