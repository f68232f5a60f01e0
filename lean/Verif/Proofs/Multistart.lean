import Verif.Model.Multistart
import Verif.Spec.Calls
import Verif.Spec.Multistart

/-!
# The multistart loop
-/

open Py Model.Multistart

namespace Proofs.Multistart

variable {S E α β : Type}

/-- One start: a draw and a run of the optimiser. -/
def start (draw : S → α × S) (opt : α → PyM (S × E) (OptRes β)) : Unit → PyM (S × E) (OptRes β) := fun _ => do
  let y0 ← Rng.draw draw
  opt y0

theorem loop_succ (draw : S → α × S) (opt : α → PyM (S × E) (OptRes β)) (k : ℕ) (b : Best β) (w : S × E) :
    (loop draw opt (k + 1) b).run w = match (start draw opt ()).run w with
      | (.ok res, w') => if res.success then (loop draw opt k (b.upd res)).run w' else (.error .exception, w')
      | (.error e, w') => (.error e, w') := by
  rw [loop, start, PyM.run_bind, PyM.run_bind]
  rcases (Rng.draw draw : PyM (S × E) α).run w with ⟨_ | y0, w₁⟩
  · rfl
  · simp only [PyM.run_bind]
    rcases (opt y0).run w₁ with ⟨_ | res, w₂⟩
    · rfl
    · simp only
      split_ifs <;> rfl

/-- A loop that returns has called the optimiser successfully at every start and folded the results. -/
theorem loop_ok {draw : S → α × S} {opt : α → PyM (S × E) (OptRes β)} {k : ℕ} {b b' : Best β} {w w' : S × E}
    (h : (loop draw opt k b).run w = (.ok b', w')) :
    ∃ rs, Spec.Calls (start draw opt) (List.replicate k ()) w rs w' ∧ (∀ r ∈ rs, r.success = true) ∧
      b' = rs.foldl Best.upd b := by
  induction k generalizing b w with
  | zero =>
    cases h
    exact ⟨[], .nil _, by simp, rfl⟩
  | succ k ih =>
    rw [loop_succ] at h
    rcases hs : (start draw opt ()).run w with ⟨_ | res, w₁⟩
    · rw [hs] at h; cases h
    · rw [hs] at h
      simp only at h
      split_ifs at h with hsucc
      · obtain ⟨rs, h1, h2, h3⟩ := ih h
        refine ⟨res :: rs, ?_, ?_, h3⟩
        · rw [List.replicate_succ]; exact .cons hs h1
        · intro r hr
          rcases List.mem_cons.mp hr with rfl | hr
          · exact hsucc
          · exact h2 r hr
      · cases h

/-- Conversely. -/
theorem loop_of_calls {draw : S → α × S} {opt : α → PyM (S × E) (OptRes β)} {k : ℕ} {b : Best β} {w w' : S × E}
    {rs : List (OptRes β)} (h : Spec.Calls (start draw opt) (List.replicate k ()) w rs w')
    (hs : ∀ r ∈ rs, r.success = true) :
    (loop draw opt k b).run w = (.ok (rs.foldl Best.upd b), w') := by
  induction k generalizing b w rs with
  | zero => cases h; rfl
  | succ k ih =>
    rw [List.replicate_succ] at h
    cases h with
    | cons h1 h2 =>
      rename_i w₁ v vs
      rw [loop_succ, h1]
      simp only [hs v (by simp), if_true]
      exact ih h2 (fun r hr => hs r (by simp [hr]))

/-- The first unsuccessful start ends the loop with `Exception`, in the world it left. -/
theorem loop_fail {draw : S → α × S} {opt : α → PyM (S × E) (OptRes β)} {k j : ℕ} {b : Best β} {w w' : S × E}
    {rs : List (OptRes β)} {r : OptRes β} (hj : j < k)
    (h : Spec.Calls (start draw opt) (List.replicate (j + 1) ()) w (rs ++ [r]) w')
    (hs : ∀ r ∈ rs, r.success = true) (hr : r.success = false) :
    (loop draw opt k b).run w = (.error .exception, w') := by
  induction j generalizing k b w rs with
  | zero =>
    obtain ⟨k, rfl⟩ : ∃ l, k = l + 1 := ⟨k - 1, by omega⟩
    have hl := h.length
    simp at hl
    subst hl
    rw [List.replicate_succ] at h
    cases h with
    | cons h1 h2 =>
      cases h2
      rw [loop_succ, h1]
      simp [hr]
  | succ j ih =>
    obtain ⟨k, rfl⟩ : ∃ l, k = l + 1 := ⟨k - 1, by omega⟩
    have hl := h.length
    simp at hl
    obtain ⟨v, vs, rfl⟩ : ∃ v vs, rs = v :: vs := by
      cases rs with
      | nil => simp at hl
      | cons v vs => exact ⟨v, vs, rfl⟩
    rw [List.replicate_succ] at h
    cases h with
    | cons h1 h2 =>
      rw [loop_succ, h1]
      simp only [hs v (by simp), if_true]
      exact ih (by omega) h2 (fun r hr => hs r (by simp [hr]))

/-- What the fold keeps. -/
theorem foldl_upd (rs : List (OptRes β)) (b : Best β) :
    (rs.foldl Best.upd b = b ∧ ∀ r ∈ rs, b.minf ≤ r.f) ∨
      ∃ r, rs.foldl Best.upd b = ⟨r.f, some r⟩ ∧ r.f < b.minf ∧ Spec.IsFirstBest OptRes.f rs r := by
  induction rs generalizing b with
  | nil => exact .inl ⟨rfl, by simp⟩
  | cons v rs ih =>
    rw [List.foldl_cons]
    by_cases hv : v.f < b.minf
    · have hu : b.upd v = ⟨v.f, some v⟩ := by simp [Best.upd, hv]
      rw [hu]
      rcases ih ⟨v.f, some v⟩ with ⟨h1, h2⟩ | ⟨r, h1, h2, i, hi, h3, h4, h5⟩
      · refine .inr ⟨v, h1, hv, 0, by simp, rfl, ?_, by simp⟩
        intro r' hr'
        rcases List.mem_cons.mp hr' with rfl | hr'
        · exact le_refl _
        · exact h2 r' hr'
      · refine .inr ⟨r, h1, h2.trans hv, i + 1, by simpa using hi, by simpa using h3, ?_, ?_⟩
        · intro r' hr'
          rcases List.mem_cons.mp hr' with rfl | hr'
          · exact h2.le
          · exact h4 r' hr'
        · intro j hj
          cases j with
          | zero => exact h2
          | succ j => simpa using h5 j (by omega)
    · have hu : b.upd v = b := by simp [Best.upd, hv]
      rw [hu]
      rcases ih b with ⟨h1, h2⟩ | ⟨r, h1, h2, i, hi, h3, h4, h5⟩
      · refine .inl ⟨h1, ?_⟩
        intro r' hr'
        rcases List.mem_cons.mp hr' with rfl | hr'
        · exact not_lt.mp hv
        · exact h2 r' hr'
      · refine .inr ⟨r, h1, h2, i + 1, by simpa using hi, by simpa using h3, ?_, ?_⟩
        · intro r' hr'
          rcases List.mem_cons.mp hr' with rfl | hr'
          · exact (h2.trans_le (not_lt.mp hv)).le
          · exact h4 r' hr'
        · intro j hj
          cases j with
          | zero => exact h2.trans_le (not_lt.mp hv)
          | succ j => simpa using h5 j (by omega)

/-- The world in which the loop starts. -/
theorem multistart_run (rng : Rng S) (draw : S → α × S) (opt : α → PyM (S × E) (OptRes β)) (init : ℝ) (k : ℕ)
    (w : S × E) :
    (multistart rng draw opt init k).run w =
      match (loop draw opt k ⟨init, none⟩).run (rng.seeded 42, w.2) with
      | (.ok b, w') => match b.minres with
        | some r => (.ok r, (w.1, w'.2))
        | none => (.error .attributeError, (w.1, w'.2))
      | (.error e, w') => (.error e, w') := by
  simp only [multistart, PyM.run_bind, Rng.run_get_state, Rng.run_seed, Rng.run_set_state]
  rcases (loop draw opt k ⟨init, none⟩).run (rng.seeded 42, w.2) with ⟨_ | b, w'⟩
  · rfl
  · rcases b with ⟨m, _ | r⟩ <;> rfl

/-- Everything a successful multistart guarantees. -/
theorem multistart_ok {rng : Rng S} {draw : S → α × S} {opt : α → PyM (S × E) (OptRes β)} {init : ℝ} {k : ℕ}
    {w w' : S × E} {r : OptRes β} (h : (multistart rng draw opt init k).run w = (.ok r, w')) :
    ∃ rs w₁, Spec.Calls (start draw opt) (List.replicate k ()) (rng.seeded 42, w.2) rs w₁ ∧
      (∀ r ∈ rs, r.success = true) ∧ Spec.IsFirstBest OptRes.f rs r ∧ r.f < init ∧ w' = (w.1, w₁.2) := by
  rw [multistart_run] at h
  rcases hl : (loop draw opt k ⟨init, none⟩).run (rng.seeded 42, w.2) with ⟨_ | b, w₁⟩
  · rw [hl] at h; cases h
  · rw [hl] at h
    obtain ⟨rs, h1, h2, h3⟩ := loop_ok hl
    rcases foldl_upd rs ⟨init, none⟩ with ⟨h4, -⟩ | ⟨r', h4, h5, h6⟩
    · rw [h4] at h3; subst h3; cases h
    · rw [h4] at h3; subst h3
      cases h
      exact ⟨rs, w₁, h1, h2, h6, h5, rfl⟩

/-- When all starts succeed and one of them is below the initial bound, the multistart returns. -/
theorem multistart_of_calls {rng : Rng S} {draw : S → α × S} {opt : α → PyM (S × E) (OptRes β)} {init : ℝ} {k : ℕ}
    {w w₁ : S × E} {rs : List (OptRes β)}
    (h : Spec.Calls (start draw opt) (List.replicate k ()) (rng.seeded 42, w.2) rs w₁)
    (hs : ∀ r ∈ rs, r.success = true) (hlt : ∃ r ∈ rs, r.f < init) :
    ∃ r, (multistart rng draw opt init k).run w = (.ok r, (w.1, w₁.2)) := by
  rw [multistart_run, loop_of_calls h hs]
  rcases foldl_upd rs ⟨init, none⟩ with ⟨-, h5⟩ | ⟨r', h4, -, -⟩
  · obtain ⟨r, hr, hlt⟩ := hlt
    exact absurd (h5 r hr) (not_le.mpr hlt)
  · rw [h4]; exact ⟨r', rfl⟩

/-- When no start gets below the initial bound, `minres` is still `[]`. -/
theorem multistart_none {rng : Rng S} {draw : S → α × S} {opt : α → PyM (S × E) (OptRes β)} {init : ℝ} {k : ℕ}
    {w w₁ : S × E} {rs : List (OptRes β)}
    (h : Spec.Calls (start draw opt) (List.replicate k ()) (rng.seeded 42, w.2) rs w₁)
    (hs : ∀ r ∈ rs, r.success = true) (hge : ∀ r ∈ rs, init ≤ r.f) :
    (multistart rng draw opt init k).run w = (.error .attributeError, (w.1, w₁.2)) := by
  rw [multistart_run, loop_of_calls h hs]
  rcases foldl_upd rs ⟨init, none⟩ with ⟨h4, -⟩ | ⟨r', -, h5, i, hi, h6, -⟩
  · rw [h4]
  · have := hge r' (h6 ▸ List.getElem_mem hi)
    exact absurd h5 (not_lt.mpr this)

/-- A failed start: `Exception`, and the world is the one the failed start left. -/
theorem multistart_fail {rng : Rng S} {draw : S → α × S} {opt : α → PyM (S × E) (OptRes β)} {init : ℝ} {k j : ℕ}
    {w w' : S × E} {rs : List (OptRes β)} {r : OptRes β} (hj : j < k)
    (h : Spec.Calls (start draw opt) (List.replicate (j + 1) ()) (rng.seeded 42, w.2) (rs ++ [r]) w')
    (hs : ∀ r ∈ rs, r.success = true) (hr : r.success = false) :
    (multistart rng draw opt init k).run w = (.error .exception, w') := by
  rw [multistart_run, loop_fail hj h hs hr]

/-- Success restores the generator; result and rest of the world do not depend on the caller's generator. -/
theorem multistart_indep (rng : Rng S) (draw : S → α × S) (opt : α → PyM (S × E) (OptRes β)) (init : ℝ) (k : ℕ)
    (s s' : S) (e : E) :
    ((multistart rng draw opt init k).run (s, e)).1 = ((multistart rng draw opt init k).run (s', e)).1 ∧
    ((multistart rng draw opt init k).run (s, e)).2.2 = ((multistart rng draw opt init k).run (s', e)).2.2 := by
  simp only [multistart_run]
  rcases (loop draw opt k ⟨init, none⟩).run (rng.seeded 42, e) with ⟨_ | ⟨m, _ | r⟩, w'⟩ <;> exact ⟨rfl, rfl⟩

/-! ### A deterministic optimiser -/

theorem calls_lift {draw : S → α × S} {o : α → Except Err (OptRes β)} {k : ℕ} {s : S} {e : E}
    {rs : List (OptRes β)} {w' : S × E}
    (h : Spec.Calls (start draw fun y => (PyM.lift (o y) : PyM (S × E) _)) (List.replicate k ()) (s, e) rs w') :
    (Spec.draws draw s k).map o = rs.map .ok ∧ w' = (Spec.stateAfter draw s k, e) := by
  induction k generalizing s rs with
  | zero => cases h; exact ⟨rfl, rfl⟩
  | succ k ih =>
    rw [List.replicate_succ] at h
    cases h with
    | cons h1 h2 =>
      rw [start, PyM.run_bind, Rng.run_draw] at h1
      have e1 := congrArg Prod.fst h1
      have e2 := congrArg Prod.snd h1
      simp only [PyM.run_lift] at e1 e2
      rw [← e2] at h2
      obtain ⟨h3, h4⟩ := ih h2
      exact ⟨by simp [Spec.draws, e1, h3], h4⟩

theorem calls_lift_of {draw : S → α × S} {o : α → Except Err (OptRes β)} {k : ℕ} {s : S} (e : E)
    {rs : List (OptRes β)} (h : (Spec.draws draw s k).map o = rs.map .ok) :
    Spec.Calls (start draw fun y => (PyM.lift (o y) : PyM (S × E) _)) (List.replicate k ()) (s, e) rs
      (Spec.stateAfter draw s k, e) := by
  induction k generalizing s rs with
  | zero =>
    cases rs with
    | nil => exact .nil _
    | cons _ _ => simp [Spec.draws] at h
  | succ k ih =>
    cases rs with
    | nil => simp [Spec.draws] at h
    | cons r rs =>
      simp only [Spec.draws, List.map_cons, List.cons.injEq] at h
      rw [List.replicate_succ]
      refine .cons ?_ (ih h.2)
      rw [start, PyM.run_bind, Rng.run_draw]
      simp [h.1]

end Proofs.Multistart
