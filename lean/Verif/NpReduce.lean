import Mathlib.Data.Fin.Tuple.Basic
import Mathlib.Data.Fintype.Lattice
import Verif.Np

/-!
# NumPy reductions and random numbers
-/

open Py

namespace Np

/-- `np.argmin`: the first index of a smallest entry; `ValueError` for an empty array. -/
noncomputable def argmin {k : ℕ} (v : Fin k → ℝ) : Except Err (Fin k) :=
  open Classical in
  if h : ∃ i, ∀ j, v i ≤ v j then .ok (Fin.find (fun i => ∀ j, v i ≤ v j) h) else .error .valueError

/-- `np.argmax`: the first index of a largest entry; `ValueError` for an empty array. -/
noncomputable def argmax {k : ℕ} (v : Fin k → ℝ) : Except Err (Fin k) :=
  argmin fun i => -v i

/-- `np.amin` -/
noncomputable def amin {k : ℕ} (v : Fin k → ℝ) : Except Err ℝ := (argmin v).map v

/-- `np.amax` -/
noncomputable def amax {k : ℕ} (v : Fin k → ℝ) : Except Err ℝ := (argmax v).map v

theorem argmin_ok {k : ℕ} (v : Fin k → ℝ) (hk : 0 < k) :
    ∃ i, argmin v = .ok i ∧ (∀ j, v i ≤ v j) ∧ ∀ j < i, v i < v j := by
  classical
  have : Nonempty (Fin k) := ⟨⟨0, hk⟩⟩
  have h : ∃ i, ∀ j, v i ≤ v j := by
    obtain ⟨i, hi⟩ := Finite.exists_min v
    exact ⟨i, hi⟩
  refine ⟨Fin.find (fun i => ∀ j, v i ≤ v j) h, ?_, Fin.find_spec h, fun j hj => ?_⟩
  · unfold argmin
    rw [dif_pos h]
  · have h1 := Fin.find_min h hj
    push Not at h1
    obtain ⟨l, hl⟩ := h1
    exact lt_of_le_of_lt (Fin.find_spec h l) hl

theorem argmin_eq_ok_iff {k : ℕ} {v : Fin k → ℝ} {i : Fin k} :
    argmin v = .ok i ↔ (∀ j, v i ≤ v j) ∧ ∀ j < i, v i < v j := by
  obtain ⟨i', h1, h2, h3⟩ := argmin_ok v i.pos
  rw [h1]
  constructor
  · intro h
    cases h
    exact ⟨h2, h3⟩
  · rintro ⟨h4, h5⟩
    rcases lt_trichotomy i i' with h | h | h
    · exact absurd (h3 i h) (not_lt.mpr (h4 i'))
    · rw [h]
    · exact absurd (h5 i' h) (not_lt.mpr (h2 i))

theorem argmin_empty (v : Fin 0 → ℝ) : argmin v = .error .valueError := by
  unfold argmin
  rw [dif_neg]
  rintro ⟨i, _⟩
  exact i.elim0

theorem argmax_eq_ok_iff {k : ℕ} {v : Fin k → ℝ} {i : Fin k} :
    argmax v = .ok i ↔ (∀ j, v j ≤ v i) ∧ ∀ j < i, v j < v i := by
  unfold argmax
  rw [argmin_eq_ok_iff]
  simp

theorem argmax_ok {k : ℕ} (v : Fin k → ℝ) (hk : 0 < k) :
    ∃ i, argmax v = .ok i ∧ (∀ j, v j ≤ v i) ∧ ∀ j < i, v j < v i := by
  obtain ⟨i, h, -⟩ := argmin_ok (fun i => -v i) hk
  exact ⟨i, h, argmax_eq_ok_iff.mp h⟩

theorem argmax_empty (v : Fin 0 → ℝ) : argmax v = .error .valueError := argmin_empty _

theorem amin_eq_ok_iff {k : ℕ} {v : Fin k → ℝ} {x : ℝ} :
    amin v = .ok x ↔ (∃ i, v i = x) ∧ ∀ j, x ≤ v j := by
  constructor
  · intro h
    rcases Nat.eq_zero_or_pos k with rfl | hk
    · simp [amin, argmin_empty, Except.map] at h
    · obtain ⟨i, h1, h2, -⟩ := argmin_ok v hk
      rw [amin, h1] at h
      cases h
      exact ⟨⟨i, rfl⟩, h2⟩
  · rintro ⟨⟨i, rfl⟩, h⟩
    obtain ⟨i', h1, h2, -⟩ := argmin_ok v i.pos
    rw [amin, h1]
    change Except.ok (v i') = _
    rw [le_antisymm (h2 i) (h i')]

theorem amax_eq_ok_iff {k : ℕ} {v : Fin k → ℝ} {x : ℝ} :
    amax v = .ok x ↔ (∃ i, v i = x) ∧ ∀ j, v j ≤ x := by
  constructor
  · intro h
    rcases Nat.eq_zero_or_pos k with rfl | hk
    · simp [amax, argmax_empty, Except.map] at h
    · obtain ⟨i, h1, h2, -⟩ := argmax_ok v hk
      rw [amax, h1] at h
      cases h
      exact ⟨⟨i, rfl⟩, h2⟩
  · rintro ⟨⟨i, rfl⟩, h⟩
    obtain ⟨i', h1, h2, -⟩ := argmax_ok v i.pos
    rw [amax, h1]
    change Except.ok (v i') = _
    rw [le_antisymm (h i') (h2 i)]

theorem amin_empty {k : ℕ} (hk : k = 0) (v : Fin k → ℝ) : amin v = .error .valueError := by
  subst hk
  rw [amin, argmin_empty]
  rfl

theorem amax_empty {k : ℕ} (hk : k = 0) (v : Fin k → ℝ) : amax v = .error .valueError := by
  subst hk
  rw [amax, argmax_empty]
  rfl

theorem amin_ok {k : ℕ} (v : Fin k → ℝ) (hk : 0 < k) : ∃ i, amin v = .ok (v i) ∧ ∀ j, v i ≤ v j := by
  obtain ⟨i, h1, h2, -⟩ := argmin_ok v hk
  exact ⟨i, by rw [amin, h1]; rfl, h2⟩

theorem amax_ok {k : ℕ} (v : Fin k → ℝ) (hk : 0 < k) : ∃ i, amax v = .ok (v i) ∧ ∀ j, v j ≤ v i := by
  obtain ⟨i, h1, h2, -⟩ := argmax_ok v hk
  exact ⟨i, by rw [amax, h1]; rfl, h2⟩

end Np

/-! ## NumPy's global random generator

The world is a pair: the state `S` of the generator and everything else `E`. -/

/-- NumPy's generator: the state set by `seed`, and the draws as functions of the state. -/
structure Rng (S : Type) where
  seeded : ℕ → S
  /-- `np.random.normal(size=(r, c))` -/
  normal : (r c : ℕ) → S → Matrix (Fin r) (Fin c) ℝ × S
  /-- `np.random.uniform(-1, 1, size=(r, c))` -/
  uniform : (r c : ℕ) → S → Matrix (Fin r) (Fin c) ℝ × S
  /-- `np.random.randint(n)`; only called with `n ≥ 1` -/
  randint : (n : ℕ) → S → Fin (n + 1) × S

namespace Rng

variable {S E α : Type}

/-- A draw in the world. -/
def draw (f : S → α × S) : PyM (S × E) α := fun w => (.ok (f w.1).1, ((f w.1).2, w.2))

/-- `np.random.get_state()` -/
def get_state : PyM (S × E) S := fun w => (.ok w.1, w)

/-- `np.random.set_state(s)` -/
def set_state (s : S) : PyM (S × E) Unit := fun w => (.ok (), (s, w.2))

/-- `np.random.seed(n)` -/
def seed (rng : Rng S) (n : ℕ) : PyM (S × E) Unit := set_state (rng.seeded n)

@[simp] theorem run_draw (f : S → α × S) (w : S × E) :
    (draw f : PyM (S × E) α).run w = (.ok (f w.1).1, ((f w.1).2, w.2)) := rfl

@[simp] theorem run_get_state (w : S × E) : (get_state : PyM (S × E) S).run w = (.ok w.1, w) := rfl

@[simp] theorem run_set_state (s : S) (w : S × E) :
    (set_state s : PyM (S × E) Unit).run w = (.ok (), (s, w.2)) := rfl

@[simp] theorem run_seed (rng : Rng S) (n : ℕ) (w : S × E) :
    (rng.seed n : PyM (S × E) Unit).run w = (.ok (), (rng.seeded n, w.2)) := rfl

/-- Run a computation that only touches the rest of the world. -/
def frame (x : PyM E α) : PyM (S × E) α := fun w => ((x.run w.2).1, (w.1, (x.run w.2).2))

end Rng
