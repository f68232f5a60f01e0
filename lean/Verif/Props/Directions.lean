import Verif.Props.SamplersMore

/-!
# Property C131: the directions of `hit_and_run_z`
-/

open Py Model.Domains Model.QPSolver Model.Misc Spec Proofs.Run

namespace Props

variable {S E : Type} {m n k N : ℕ}

/-- The state of the generator after `j` normal vectors. -/
def Directions.state (rng : Rng S) (k j : ℕ) (s : S) : S := (fun s => (rng.normal k 1 s).2)^[j] s

/-- The normal vector drawn after `j` others. -/
def Directions.vec (rng : Rng S) (k j : ℕ) (s : S) : Fin k → ℝ := fun l => (rng.normal k 1 (Directions.state rng k j s)).1 l 0

/-- A step of 1/4000000 along `d` from `z0` leads to the interior. -/
def Directions.Good (W1 : Matrix (Fin m) (Fin n) ℝ) (W2 : Matrix (Fin m) (Fin k) ℝ) (y : Fin n → ℝ) (z0 d : Fin k → ℝ) : Prop :=
  ∀ i, |∑ j, W1 i j * y j + ∑ j, W2 i j * (z0 j + d j / 4000000)| < 1

theorem Directions.bad_iff (W1 : Matrix (Fin m) (Fin n) ℝ) (W2 : Matrix (Fin m) (Fin k) ℝ) (y : Fin n → ℝ) (z0 d : Fin k → ℝ) :
    (∃ i, (polyA W2).mulVec (fun j => z0 j + eps0 * d j) i ≤ polyB (W1.mulVec y) i) ↔ ¬ Directions.Good W1 W2 y z0 d := by
  have e : (fun j => z0 j + eps0 * d j) = fun j => z0 j + d j / 4000000 := by
    funext j
    rw [eps0]
    ring
  rw [e, iff_not_comm]
  push Not
  constructor
  · intro h i
    refine Fin.addCases (fun i => ?_) (fun i => ?_) i
    · rw [polyA_left, polyB_left]
      linarith [(abs_lt.mp (h i)).1]
    · rw [polyA_right, polyB_right]
      linarith [(abs_lt.mp (h i)).2]
  · intro h i
    have h1 := h (Fin.castAdd m i)
    have h2 := h (Fin.natAdd m i)
    rw [polyA_left, polyB_left] at h1
    rw [polyA_right, polyB_right] at h2
    rw [abs_lt]
    constructor <;> linarith

open Classical in
theorem Directions.search {rng : Rng S} (W1 : Matrix (Fin m) (Fin n) ℝ) (W2 : Matrix (Fin m) (Fin k) ℝ) (y : Fin n → ℝ) (z0 : Fin k → ℝ) (e : E)
    (t : ℕ) (s : S) :
    (∀ j < t, Directions.Good W1 W2 y z0 (Directions.vec rng k j s) → (∀ i < j, ¬ Directions.Good W1 W2 y z0 (Directions.vec rng k i s)) →
      (findDir rng (polyA W2) (polyB (W1.mulVec y)) z0 (t + 1)).run (s, e) = (.ok (some (Directions.vec rng k j s)), (Directions.state rng k (j + 1) s, e))) ∧
    ((∀ i < t, ¬ Directions.Good W1 W2 y z0 (Directions.vec rng k i s)) →
      (findDir rng (polyA W2) (polyB (W1.mulVec y)) z0 (t + 1)).run (s, e) = (.ok none, (Directions.state rng k (t + 1) s, e))) := by
  induction t generalizing s with
  | zero =>
    refine ⟨fun j hj => absurd hj (by omega), fun _ => ?_⟩
    unfold findDir
    rw [PyM.run_bind_ok (Rng.run_draw _ _)]
    rfl
  | succ t ih =>
    have hv : ∀ j, Directions.vec rng k (j + 1) s = Directions.vec rng k j (rng.normal k 1 s).2 := fun j => rfl
    have hs : ∀ j, Directions.state rng k (j + 1) s = Directions.state rng k j (rng.normal k 1 s).2 := fun j => rfl
    have step : (findDir rng (polyA W2) (polyB (W1.mulVec y)) z0 (t + 1 + 1)).run (s, e) =
        (if ¬ Directions.Good W1 W2 y z0 (Directions.vec rng k 0 s) then findDir rng (polyA W2) (polyB (W1.mulVec y)) z0 (t + 1)
          else pure (some (Directions.vec rng k 0 s)) : PyM (S × E) _).run ((rng.normal k 1 s).2, e) := by
      rw [findDir, PyM.run_bind_ok (Rng.run_draw _ _)]
      dsimp only
      rw [if_neg (by omega)]
      congr 1
      exact if_congr (Directions.bad_iff W1 W2 y z0 _) rfl rfl
    constructor
    · intro j hj hg hb
      rw [step]
      cases j with
      | zero =>
        rw [if_neg (not_not.mpr hg)]
        rfl
      | succ j =>
        rw [if_pos (hb 0 (by omega)), hv, hs]
        exact (ih _).1 j (by omega) hg fun i hi => hb (i + 1) (by omega)
    · intro hb
      rw [step, if_pos (hb 0 (by omega)), hs]
      exact (ih _).2 fun i hi => hb (i + 1) (by omega)

/-- C131: the direction is the first of the first 49 normal vectors that is good, and no further one is drawn. -/
theorem C131_first {rng : Rng S} (W1 : Matrix (Fin m) (Fin n) ℝ) (W2 : Matrix (Fin m) (Fin k) ℝ) (y : Fin n → ℝ) (z0 : Fin k → ℝ) (s : S) (e : E)
    {j : ℕ} (hj : j < 49) (hg : Directions.Good W1 W2 y z0 (Directions.vec rng k j s))
    (hb : ∀ i < j, ¬ Directions.Good W1 W2 y z0 (Directions.vec rng k i s)) :
    (findDir rng (polyA W2) (polyB (W1.mulVec y)) z0 50).run (s, e) = (.ok (some (Directions.vec rng k j s)), (Directions.state rng k (j + 1) s, e)) :=
  (Directions.search W1 W2 y z0 e 49 s).1 j hj hg hb

/-- C131: when none of the first 49 is good a fiftieth is drawn, which is not looked at, and all samples left are copies of the present point. -/
theorem C131_gives_up {rng : Rng S} (W1 : Matrix (Fin m) (Fin n) ℝ) (W2 : Matrix (Fin m) (Fin k) ℝ) (y : Fin n → ℝ) (z0 : Fin k → ℝ) (s : S) (e : E)
    (hb : ∀ i < 49, ¬ Directions.Good W1 W2 y z0 (Directions.vec rng k i s)) :
    (hitLoop rng (polyA W2) (polyB (W1.mulVec y)) (N + 1) z0).run (s, e) =
      (.ok (some (Matrix.of fun _ j => z0 j)), (Directions.state rng k 50 s, e)) := by
  unfold hitLoop
  rw [PyM.run_bind_ok ((Directions.search W1 W2 y z0 e 49 s).2 hb)]
  rfl

/-- C131: with a slack of more than `ρ` times the length of the row of `W2` in every constraint, every vector no longer than
`4000000 ρ` is good; so the first draw is taken unless it is longer. -/
theorem C131_interior {rng : Rng S} (W1 : Matrix (Fin m) (Fin n) ℝ) (W2 : Matrix (Fin m) (Fin k) ℝ) (y : Fin n → ℝ) (z0 : Fin k → ℝ) (s : S) (e : E)
    {ρ : ℝ} (hρ : 0 ≤ ρ) (hs : ∀ i, |∑ j, W1 i j * y j + ∑ j, W2 i j * z0 j| + ρ * √(∑ j, W2 i j ^ 2) < 1)
    (hd : ∑ l, (Directions.vec rng k 0 s l) ^ 2 ≤ (4000000 * ρ) ^ 2) :
    (findDir rng (polyA W2) (polyB (W1.mulVec y)) z0 50).run (s, e) = (.ok (some (Directions.vec rng k 0 s)), ((rng.normal k 1 s).2, e)) := by
  refine C131_first W1 W2 y z0 s e (by norm_num) (fun i => ?_) fun i hi => absurd hi (by omega)
  set d := Directions.vec rng k 0 s
  have e1 : ∑ j, W1 i j * y j + ∑ j, W2 i j * (z0 j + d j / 4000000) = (∑ j, W1 i j * y j + ∑ j, W2 i j * z0 j) + (∑ j, W2 i j * d j) / 4000000 := by
    rw [div_eq_mul_inv, Finset.sum_mul, add_assoc, ← Finset.sum_add_distrib]
    exact congrArg _ (Finset.sum_congr rfl fun j _ => by ring)
  have h1 : |∑ j, W2 i j * d j| ≤ √(∑ j, W2 i j ^ 2) * (4000000 * ρ) := by
    refine abs_le_of_sq_le_sq ?_ (by positivity)
    rw [mul_pow, Real.sq_sqrt (Finset.sum_nonneg fun j _ => sq_nonneg _)]
    exact (Finset.sum_mul_sq_le_sq_mul_sq _ _ _).trans (mul_le_mul_of_nonneg_left hd (Finset.sum_nonneg fun j _ => sq_nonneg _))
  rw [e1]
  refine (abs_add_le _ _).trans_lt ?_
  have h2 : |(∑ j, W2 i j * d j) / 4000000| ≤ ρ * √(∑ j, W2 i j ^ 2) := by
    rw [abs_div, abs_of_pos (by norm_num : (0 : ℝ) < 4000000), div_le_iff₀ (by norm_num)]
    linarith
  linarith [hs i]

/-- With the matrices of `HitWitness` and `y = 0` the centre has slack 1: the first draw of length at most 4000000 is taken, -/
example : ∀ i : Fin 2, |∑ j, HitWitness.W1 i j * (0 : Fin 1 → ℝ) j + ∑ j, HitWitness.W2 i j * (0 : Fin 1 → ℝ) j| + 1 * √(∑ j, HitWitness.W2 i j ^ 2) < 1 := by
  intro i
  have h : ∑ j, HitWitness.W2 i j ^ 2 < 1 := by
    fin_cases i <;> simp only [HitWitness.W2, Fin.sum_univ_one] <;> norm_num
  have h' : √(∑ j, HitWitness.W2 i j ^ 2) < 1 := by
    rw [Real.sqrt_lt' one_pos, one_pow]
    exact h
  simpa using h'

/-- and a longer one may be bad: 10000000 leads to the outside. -/
example : ¬ Directions.Good HitWitness.W1 HitWitness.W2 0 0 (fun _ => 10000000) := by
  intro h
  have := h 0
  simp only [HitWitness.W1, HitWitness.W2, Fin.sum_univ_one, Pi.zero_apply, mul_zero, zero_add] at this
  norm_num at this

end Props
