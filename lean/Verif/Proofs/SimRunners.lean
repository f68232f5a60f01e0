import Verif.Model.SimRunners
import Verif.Spec.Calls

/-! Helper lemmas: the fill-an-array loop as a sequence of calls. -/

open Py

namespace Proofs.SimRunners

variable {W ι α β γ : Type}

/-- A loop that calls `f` on each index and folds the value into an accumulator. -/
theorem foldlM_calls {f : α → PyM W β} {arg : ι → α} {put : γ → ι → β → γ} (is : List ι) (a : γ) (w : W)
    {vs : List β} {w' : W} (h : Spec.Calls f (is.map arg) w vs w') :
    ((is.foldlM (fun acc i => do let v ← f (arg i); return put acc i v) a : PyM W γ)).run w
      = (.ok ((is.zip vs).foldl (fun acc iv => put acc iv.1 iv.2) a), w') := by
  induction is generalizing a w vs with
  | nil => cases h; rfl
  | cons i is ih =>
    cases h with
    | cons hx hrest =>
      rw [List.foldlM_cons, PyM.run_bind, PyM.run_bind, hx]
      simp only [PyM.run_pure]
      rw [ih _ _ hrest]
      rfl

theorem foldlM_callsFail {f : α → PyM W β} {arg : ι → α} {put : γ → ι → β → γ} (is : List ι) (a : γ) (w : W)
    {k : ℕ} {e : Err} {w' : W} (h : Spec.CallsFail f (is.map arg) w k e w') :
    ((is.foldlM (fun acc i => do let v ← f (arg i); return put acc i v) a : PyM W γ)).run w
      = (.error e, w') := by
  induction is generalizing a w k with
  | nil => cases h
  | cons i is ih =>
    rw [List.foldlM_cons, PyM.run_bind, PyM.run_bind]
    cases h with
    | here hx => rw [hx]
    | later hx hrest =>
      rw [hx]
      simp only [PyM.run_pure]
      rw [ih _ _ hrest]

/-- Filling the rows of an array from a list of values. -/
theorem fill_rows {M c : ℕ} (rowOf : β → Fin c → ℝ) (vs : List β) (hl : vs.length = M)
    (F₀ : Matrix (Fin M) (Fin c) ℝ) :
    ((List.finRange M).zip vs).foldl (fun acc iv => Matrix.updateRow acc iv.1 (rowOf iv.2)) F₀
      = Matrix.of fun i => rowOf (vs.get (i.cast hl.symm)) := by
  have key : ∀ (l : List (Fin M × β)) (F : Matrix (Fin M) (Fin c) ℝ),
      (l.map Prod.fst).Nodup →
      ∀ i, (l.foldl (fun acc iv => Matrix.updateRow acc iv.1 (rowOf iv.2)) F) i
        = match l.find? (fun iv => iv.1 = i) with
          | some iv => rowOf iv.2
          | none => F i := by
    intro l
    induction l with
    | nil => intro F _ i; rfl
    | cons a l ih =>
      intro F hnd i
      simp only [List.map_cons, List.nodup_cons] at hnd
      rw [List.foldl_cons, ih _ hnd.2 i]
      by_cases hai : a.1 = i
      · have : l.find? (fun iv => iv.1 = i) = none := by
          rw [List.find?_eq_none]
          intro x hx hxi
          apply hnd.1
          rw [hai, ← of_decide_eq_true hxi]
          exact List.mem_map_of_mem hx
        rw [this]
        simp [hai]
      · have h2 : (a :: l).find? (fun iv => iv.1 = i) = l.find? (fun iv => iv.1 = i) := by
          simp [hai]
        rw [h2]
        cases l.find? (fun iv => iv.1 = i) with
        | some iv => rfl
        | none => simp [Matrix.updateRow_ne (Ne.symm hai)]
  ext i j
  have hz : ((List.finRange M).zip vs).map Prod.fst = List.finRange M := by
    rw [List.map_fst_zip]; simp [hl]
  rw [key _ _ (by rw [hz]; exact List.nodup_finRange M) i]
  have hfind : ((List.finRange M).zip vs).find? (fun iv => iv.1 = i)
      = some (i, vs.get (i.cast hl.symm)) := by
    have hmem : (i, vs.get (i.cast hl.symm)) ∈ (List.finRange M).zip vs := by
      rw [List.mem_iff_getElem]
      refine ⟨i, by simp [hl], by simp⟩
    rw [List.find?_eq_some_iff_getElem]
    refine ⟨by simp, i, by simp [hl], by simp, ?_⟩
    intro j hj
    simp only [List.getElem_zip, List.getElem_finRange]
    simp only [Bool.not_eq_true', decide_eq_false_iff_not]
    intro h
    have := congrArg Fin.val h
    simp at this
    omega
  rw [hfind]
  rfl

end Proofs.SimRunners

namespace Proofs.SimRunners

variable {W α β : Type}

/-- If no call can fail and every returned value satisfies `P`, a sequence of calls succeeds with values in `P`. -/
theorem calls_of_total {f : α → PyM W β} {P : β → Prop}
    (h : ∀ x w, ∃ v w', (f x).run w = (.ok v, w') ∧ P v) (xs : List α) (w : W) :
    ∃ vs w', Spec.Calls f xs w vs w' ∧ ∀ v ∈ vs, P v := by
  induction xs generalizing w with
  | nil => exact ⟨[], w, .nil w, by simp⟩
  | cons x xs ih =>
    obtain ⟨v, w₁, hv, hP⟩ := h x w
    obtain ⟨vs, w₂, hvs, hPs⟩ := ih w₁
    exact ⟨v :: vs, w₂, .cons hv hvs, by simpa [hP] using hPs⟩

/-- If the first call always fails with `e`, so does every non-empty sequence. -/
theorem callsFail_of_first {f : α → PyM W β} {e : Err} (h : ∀ x w, ∃ w', (f x).run w = (.error e, w'))
    (xs : List α) (hne : xs ≠ []) (w : W) : ∃ w', Spec.CallsFail f xs w 0 e w' := by
  cases xs with
  | nil => exact absurd rfl hne
  | cons x xs =>
    obtain ⟨w', hw⟩ := h x w
    exact ⟨w', .here hw⟩

end Proofs.SimRunners

namespace Proofs.SimRunners

open Model.SimRunners

variable {W : Type} {M m : ℕ}

theorem runMat_calls {sim : Sim W m} {X : Matrix (Fin M) (Fin m) ℝ} {w : W} {vs : List ℝ} {w' : W}
    (h : Spec.Calls sim (Np.rows X) w vs w') (hl : vs.length = M) :
    (runMat sim X).run w = (.ok (Matrix.of fun i _ => vs.get (i.cast hl.symm)), w') := by
  have h1 := foldlM_calls (put := fun (F : Matrix (Fin M) (Fin 1) ℝ) i v => Matrix.updateRow F i (fun _ => v))
    (List.finRange M) (Np.zeros M 1) w h
  rw [fill_rows (fun v _ => v) vs hl] at h1
  exact h1

theorem runMat_pure (g : (Fin m → ℝ) → ℝ) (X : Matrix (Fin M) (Fin m) ℝ) (w : W) :
    (runMat (fun x => (pure (g x) : PyM W ℝ)) X).run w = (.ok (Matrix.of fun i _ => g (X i)), w) := by
  rw [runMat_calls (Spec.calls_pure g (Np.rows X) w) (by simp)]
  congr 2
  ext i j
  simp [Np.getElem_rows]

end Proofs.SimRunners
