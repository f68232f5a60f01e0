import Mathlib.MeasureTheory.Constructions.Pi
import Mathlib.MeasureTheory.Group.Measure
import Mathlib.MeasureTheory.Measure.Lebesgue.Basic
import Mathlib.Probability.Distributions.Gaussian.Real
import Verif.Props.RandomWalk
import Verif.Spec.Multistart

/-!
# Property C103: the random walk is a Metropolis chain for the uniform distribution
-/

open Py Model.Domains Model.QPSolver Model.Misc Spec Proofs.Run MeasureTheory ProbabilityTheory
open scoped ENNReal

namespace Props

variable {S E : Type} {m n k N : ℕ}

open Classical in
/-- The move from `z` with proposal `z + σ ξ`: accepted when it lies in the set. -/
noncomputable def moved (Ω : Set (Fin k → ℝ)) (σ : ℝ) (z ξ : Fin k → ℝ) : Fin k → ℝ := if z + σ • ξ ∈ Ω then z + σ • ξ else z

/-- `k` independent standard normal numbers. -/
noncomputable def stdNormal (k : ℕ) : Measure (Fin k → ℝ) := Measure.pi fun _ => gaussianReal 0 1

instance : IsProbabilityMeasure (stdNormal k) := by
  unfold stdNormal
  infer_instance

/-- The expectation of `φ` after one move. -/
noncomputable def afterMove (Ω : Set (Fin k → ℝ)) (σ : ℝ) (φ : (Fin k → ℝ) → ℝ≥0∞) (z : Fin k → ℝ) : ℝ≥0∞ :=
  ∫⁻ ξ, φ (moved Ω σ z ξ) ∂stdNormal k

/-! ## What is drawn and what is returned -/

theorem walkStep_moved (rng : Rng S) (y : Fin n → ℝ) (W1 : Matrix (Fin m) (Fin n) ℝ) (W2 : Matrix (Fin m) (Fin k) ℝ) (σ : ℝ)
    (z : Fin k → ℝ) (w : S × E) :
    (walkStep rng (W1.mulVec y) W2 σ z).run w = (.ok (moved (inactive W1 W2 y) σ z fun j => (rng.normal k 1 w.1).1 j 0),
      ((rng.normal k 1 w.1).2, w.2)) := by
  unfold walkStep
  rw [PyM.run_bind_ok (show (Rng.draw (rng.normal k 1)).run w = (.ok (rng.normal k 1 w.1).1, ((rng.normal k 1 w.1).2, w.2)) from rfl)]
  dsimp only
  unfold moved
  have e : (fun j => z j + σ * (rng.normal k 1 w.1).1 j 0) = z + σ • fun j => (rng.normal k 1 w.1).1 j 0 := rfl
  rw [e]
  by_cases h : z + σ • (fun j => (rng.normal k 1 w.1).1 j 0) ∈ inactive W1 W2 y
  · rw [if_pos h, if_pos ((walkOK_iff W1 W2 y _).mpr h)]
    rfl
  · rw [if_neg h, if_neg fun hc => h ((walkOK_iff W1 W2 y _).mp hc)]
    rfl

/-- The chain from `z`, with the normal numbers of the generator. -/
noncomputable def chain (rng : Rng S) (Ω : Set (Fin k → ℝ)) (σ : ℝ) (g : S) (z : Fin k → ℝ) : ℕ → Fin k → ℝ
  | 0 => z
  | t + 1 => moved Ω σ (chain rng Ω σ g z t) fun j => (rng.normal k 1 (stateAfter (rng.normal k 1) g t)).1 j 0

theorem stateAfter_one {α : Type} (f : S → α × S) (g : S) (t : ℕ) : stateAfter f (f g).2 t = stateAfter f g (t + 1) := rfl

theorem stateAfter_succ {α : Type} (f : S → α × S) : ∀ (t : ℕ) (g : S), (f (stateAfter f g t)).2 = stateAfter f g (t + 1)
  | 0, _ => rfl
  | t + 1, g => stateAfter_succ f t (f g).2

theorem chain_shift (rng : Rng S) (Ω : Set (Fin k → ℝ)) (σ : ℝ) (g : S) (z : Fin k → ℝ) (t : ℕ) :
    chain rng Ω σ (rng.normal k 1 g).2 (moved Ω σ z fun j => (rng.normal k 1 g).1 j 0) t = chain rng Ω σ g z (t + 1) := by
  induction t with
  | zero => rfl
  | succ t ih =>
    rw [chain, ih, stateAfter_one]
    rfl

theorem burnIn_chain (rng : Rng S) (y : Fin n → ℝ) (W1 : Matrix (Fin m) (Fin n) ℝ) (W2 : Matrix (Fin m) (Fin k) ℝ) (σ : ℝ) (t : ℕ)
    (z : Fin k → ℝ) (w : S × E) : (burnIn rng (W1.mulVec y) W2 σ t z).run w
      = (.ok (chain rng (inactive W1 W2 y) σ w.1 z t), (stateAfter (rng.normal k 1) w.1 t, w.2)) := by
  induction t generalizing z w with
  | zero => rfl
  | succ t ih =>
    rw [burnIn, PyM.run_bind_ok (walkStep_moved rng y W1 W2 σ z w), ih, chain_shift]
    rfl

theorem walkLoop_chain (rng : Rng S) (y : Fin n → ℝ) (W1 : Matrix (Fin m) (Fin n) ℝ) (W2 : Matrix (Fin m) (Fin k) ℝ) (σ : ℝ) (N : ℕ)
    (z : Fin k → ℝ) (w : S × E) : (walkLoop rng (W1.mulVec y) W2 σ N z).run w
      = (.ok fun i => chain rng (inactive W1 W2 y) σ w.1 z (i + 1), (stateAfter (rng.normal k 1) w.1 N, w.2)) := by
  induction N generalizing z w with
  | zero =>
    refine Prod.ext (congrArg Except.ok (funext fun i => i.elim0)) rfl
  | succ N ih =>
    rw [walkLoop, PyM.run_bind_ok (walkStep_moved rng y W1 W2 σ z w), PyM.run_bind_ok (ih _ _)]
    refine Prod.ext (congrArg Except.ok (funext fun i => ?_)) rfl
    refine Fin.cases rfl (fun i => ?_) i
    rw [Fin.cons_succ, chain_shift]
    rfl

theorem chain_add (rng : Rng S) (Ω : Set (Fin k → ℝ)) (σ : ℝ) (g : S) (z : Fin k → ℝ) (a b : ℕ) :
    chain rng Ω σ (stateAfter (rng.normal k 1) g a) (chain rng Ω σ g z a) b = chain rng Ω σ g z (a + b) := by
  induction a generalizing g z with
  | zero => rw [Nat.zero_add]; rfl
  | succ a ih =>
    rw [← chain_shift, ← stateAfter_one, ih, chain_shift]
    congr 1
    omega

/-- C103: `random_walk_z` runs the chain for `11 N` moves, with a step of one tenth of the distance of the starting point
`x0 = W1 y + W2 z0` to the nearer one of the corners `(1, ..., 1)` and `(-1, ..., -1)`; the entries of the result are those of the last `N` states (at
the positions of C47). -/
theorem C103_chain (lib : Model.Domains.Lib) (rng : Rng S) (y : Fin n → ℝ) (W1 : Matrix (Fin m) (Fin n) ℝ)
    (W2 : Matrix (Fin m) (Fin k) ℝ) (w w1 : S × Files × E) (z0 : Fin k → ℝ) (x0 : Fin m → ℝ)
    (h : (walkStart lib rng y W1 W2).run w = (.ok z0, w1)) (hx : ∀ i, x0 i = ∑ j, W1 i j * y j + ∑ j, W2 i j * z0 j) :
    ∃ Z : Matrix (Fin N) (Fin k) ℝ, (random_walk_z lib rng N y W1 W2).run w = (.ok Z, (stateAfter (rng.normal k 1) w1.1 (11 * N), w1.2)) ∧
      ∀ (i : Fin N) (j a : Fin k) (b : Fin N), (i : ℕ) * k + j = a * N + b →
        Z i j = chain rng (inactive W1 W2 y)
          (min (√(∑ i, (x0 i - 1) ^ 2)) (√(∑ i, (x0 i - (-1)) ^ 2)) / 10) w1.1 z0 (10 * N + b + 1) a := by
  have hσ : walkSig (W1.mulVec y) W2 z0 = min (√(∑ i, (x0 i - 1) ^ 2)) (√(∑ i, (x0 i - (-1)) ^ 2)) / 10 := by
    unfold walkSig
    have e : ∀ i, W2.mulVec z0 i + W1.mulVec y i = x0 i := fun i => by rw [hx, add_comm]; rfl
    simp only [e, sub_neg_eq_add]
    norm_num
    ring
  refine ⟨reshapeT (Matrix.of fun j i => chain rng (inactive W1 W2 y) (min (√(∑ i, (x0 i - 1) ^ 2)) (√(∑ i, (x0 i - (-1)) ^ 2)) / 10)
    w1.1 z0 (10 * N + i + 1) j), ?_, fun i j a b hab => reshapeT_apply _ i j a b hab⟩
  unfold random_walk_z
  dsimp only
  rw [PyM.run_bind_ok h, hσ, PyM.run_bind_ok (burnIn_chain rng y W1 W2 _ (10 * N) z0 w1),
    PyM.run_bind_ok (walkLoop_chain rng y W1 W2 _ N _ _)]
  have e1 : stateAfter (rng.normal k 1) (stateAfter (rng.normal k 1) w1.1 (10 * N)) N = stateAfter (rng.normal k 1) w1.1 (11 * N) := by
    have : ∀ (a : ℕ) (g : S), stateAfter (rng.normal k 1) (stateAfter (rng.normal k 1) g a) N = stateAfter (rng.normal k 1) g (a + N) := by
      intro a
      induction a with
      | zero => intro g; rw [Nat.zero_add]; rfl
      | succ a ih =>
        intro g
        rw [Nat.succ_add_eq_add_succ] at *
        exact (ih (rng.normal k 1 g).2).trans (by rw [stateAfter_one]; congr 1)
    rw [this]
    congr 1
    omega
  refine Prod.ext (congrArg Except.ok ?_) (Prod.ext e1 rfl)
  congr 1
  ext j i
  simp only [Matrix.of_apply]
  rw [chain_add]
  rfl

/-! ## The law of a move -/

theorem stdNormal_neg : MeasurePreserving (fun ξ : Fin k → ℝ => -ξ) (stdNormal k) (stdNormal k) := by
  unfold stdNormal
  have h : MeasurePreserving (fun x : ℝ => -x) (gaussianReal 0 1) (gaussianReal 0 1) :=
    ⟨measurable_neg, by rw [gaussianReal_map_neg, neg_zero]⟩
  exact measurePreserving_pi (fun _ : Fin k => gaussianReal 0 1) (fun _ : Fin k => gaussianReal 0 1) fun _ => h

theorem inactive_measurable (W1 : Matrix (Fin m) (Fin n) ℝ) (W2 : Matrix (Fin m) (Fin k) ℝ) (y : Fin n → ℝ) :
    MeasurableSet (inactive W1 W2 y) := by
  have e : inactive W1 W2 y = ⋂ i, {z | -1 ≤ ∑ j, W1 i j * y j + ∑ j, W2 i j * z j ∧ ∑ j, W1 i j * y j + ∑ j, W2 i j * z j ≤ 1} := by
    ext z
    simp [inactive]
  rw [e]
  refine MeasurableSet.iInter fun i => ?_
  have hm : Measurable fun z : Fin k → ℝ => ∑ j, W1 i j * y j + ∑ j, W2 i j * z j := by fun_prop
  exact (measurableSet_le measurable_const hm).inter (measurableSet_le hm measurable_const)

theorem moved_measurable {Ω : Set (Fin k → ℝ)} (hΩ : MeasurableSet Ω) (σ : ℝ) :
    Measurable fun p : (Fin k → ℝ) × (Fin k → ℝ) => moved Ω σ p.2 p.1 := by
  classical
  unfold moved
  have hm : Measurable fun p : (Fin k → ℝ) × (Fin k → ℝ) => p.2 + σ • p.1 := by fun_prop
  have hs : MeasurableSet {p : (Fin k → ℝ) × (Fin k → ℝ) | p.2 + σ • p.1 ∈ Ω} := hm hΩ
  convert Measurable.ite hs hm measurable_snd

/-- Exchanging start and end of a proposal preserves the measure. -/
theorem swap_preserving (σ : ℝ) : MeasurePreserving (fun p : (Fin k → ℝ) × (Fin k → ℝ) => (-p.1, p.2 + σ • p.1))
    ((stdNormal k).prod volume) ((stdNormal k).prod volume) := by
  refine stdNormal_neg.skew_product (g := fun ξ z => z + σ • ξ) (by fun_prop) (Filter.Eventually.of_forall fun ξ => ?_)
  exact map_add_right_eq_self volume (σ • ξ)

theorem reversible {Ω : Set (Fin k → ℝ)} (hΩ : MeasurableSet Ω) (σ : ℝ) {φ ψ : (Fin k → ℝ) → ℝ≥0∞} (hφ : Measurable φ) (hψ : Measurable ψ) :
    ∫⁻ z in Ω, φ z * afterMove Ω σ ψ z = ∫⁻ z in Ω, ψ z * afterMove Ω σ φ z := by
  classical
  have hm := moved_measurable hΩ σ
  -- both sides as integrals over the product
  have key : ∀ {φ ψ : (Fin k → ℝ) → ℝ≥0∞}, Measurable φ → Measurable ψ → ∫⁻ z in Ω, φ z * afterMove Ω σ ψ z
      = ∫⁻ p, (Ω.indicator φ p.2 * Ω.indicator ψ (p.2 + σ • p.1)
        + Ω.indicator (fun z => φ z * ψ z) p.2 * Ωᶜ.indicator 1 (p.2 + σ • p.1)) ∂((stdNormal k).prod volume) := by
    intro φ ψ hφ hψ
    rw [lintegral_prod_symm _ (by
      refine AEMeasurable.add ?_ ?_
      · exact ((hφ.indicator hΩ).comp measurable_snd).aemeasurable.mul ((hψ.indicator hΩ).comp (by fun_prop)).aemeasurable
      · exact (((hφ.mul hψ).indicator hΩ).comp measurable_snd).aemeasurable.mul
          ((measurable_one.indicator hΩ.compl).comp (by fun_prop)).aemeasurable), ← lintegral_indicator hΩ]
    refine lintegral_congr fun z => ?_
    by_cases hz : z ∈ Ω
    · simp only [Set.indicator_of_mem hz]
      unfold afterMove
      have hc : Measurable fun ξ : Fin k → ℝ => ψ (moved Ω σ z ξ) :=
        hψ.comp (hm.comp (by fun_prop : Measurable fun ξ : Fin k → ℝ => (ξ, z)))
      rw [← lintegral_const_mul _ hc]
      refine lintegral_congr fun ξ => ?_
      unfold moved
      by_cases hc : z + σ • ξ ∈ Ω
      · rw [if_pos hc, Set.indicator_of_mem hc, Set.indicator_of_notMem (by simpa using hc), mul_zero, add_zero]
      · rw [if_neg hc, Set.indicator_of_notMem hc, Set.indicator_of_mem (by simpa using hc), mul_zero, zero_add, Pi.one_apply, mul_one]
    · simp only [Set.indicator_of_notMem hz, zero_mul, add_zero, lintegral_zero]
  rw [key hφ hψ, key hψ hφ]
  have m1 : ∀ {φ ψ : (Fin k → ℝ) → ℝ≥0∞}, Measurable φ → Measurable ψ →
      Measurable fun p : (Fin k → ℝ) × (Fin k → ℝ) => Ω.indicator φ p.2 * Ω.indicator ψ (p.2 + σ • p.1) := fun hφ hψ =>
    ((hφ.indicator hΩ).comp measurable_snd).mul ((hψ.indicator hΩ).comp (by fun_prop))
  rw [lintegral_add_left (m1 hφ hψ), lintegral_add_left (m1 hψ hφ)]
  congr 1
  · rw [← (swap_preserving σ).lintegral_comp (m1 hφ hψ)]
    refine lintegral_congr fun p => ?_
    dsimp only
    rw [smul_neg, add_neg_cancel_right, mul_comm]
  · refine lintegral_congr fun p => ?_
    simp only [mul_comm (φ _) (ψ _)]

/-- C103: a move satisfies detailed balance for the uniform distribution on the polytope of the inactive variables, for any step. -/
theorem C103_reversible (W1 : Matrix (Fin m) (Fin n) ℝ) (W2 : Matrix (Fin m) (Fin k) ℝ) (y : Fin n → ℝ) (σ : ℝ)
    {φ ψ : (Fin k → ℝ) → ℝ≥0∞} (hφ : Measurable φ) (hψ : Measurable ψ) :
    ∫⁻ z in inactive W1 W2 y, φ z * afterMove (inactive W1 W2 y) σ ψ z
      = ∫⁻ z in inactive W1 W2 y, ψ z * afterMove (inactive W1 W2 y) σ φ z := reversible (inactive_measurable W1 W2 y) σ hφ hψ

theorem afterMove_measurable {Ω : Set (Fin k → ℝ)} (hΩ : MeasurableSet Ω) (σ : ℝ) {φ : (Fin k → ℝ) → ℝ≥0∞} (hφ : Measurable φ) :
    Measurable (afterMove Ω σ φ) :=
  Measurable.lintegral_prod_left' (f := fun p : (Fin k → ℝ) × (Fin k → ℝ) => φ (moved Ω σ p.2 p.1)) (hφ.comp (moved_measurable hΩ σ))

/-- C103: started from the uniform distribution, the chain has the uniform distribution after any number of moves. -/
theorem C103_stationary (W1 : Matrix (Fin m) (Fin n) ℝ) (W2 : Matrix (Fin m) (Fin k) ℝ) (y : Fin n → ℝ) (σ : ℝ)
    {φ : (Fin k → ℝ) → ℝ≥0∞} (hφ : Measurable φ) (t : ℕ) :
    ∫⁻ z in inactive W1 W2 y, (afterMove (inactive W1 W2 y) σ)^[t] φ z = ∫⁻ z in inactive W1 W2 y, φ z := by
  induction t generalizing φ with
  | zero => rfl
  | succ t ih =>
    rw [Function.iterate_succ_apply, ih (afterMove_measurable (inactive_measurable W1 W2 y) σ hφ)]
    have h := C103_reversible W1 W2 y σ (φ := fun _ => 1) measurable_const hφ
    simp only [one_mul] at h
    rw [h]
    refine lintegral_congr fun z => ?_
    unfold afterMove
    simp

/-! ## The hypotheses can be met -/

/-- The square, with the first coordinate active: at `y = 1/2` the walk starts at `0`, with step `√(5/4)/10`. -/
theorem square_start (lib : Model.Domains.Lib) (rng : Rng S) (w : S × Files × E) :
    (walkStart lib rng (fun _ : Fin 1 => (1 / 2 : ℝ)) (Matrix.of fun i _ => if i = 0 then 1 else 0 : Matrix (Fin 2) (Fin 1) ℝ)
      (Matrix.of fun i _ => if i = 1 then 1 else 0 : Matrix (Fin 2) (Fin 1) ℝ)).run w = (.ok (fun _ => 0), w) := by
  unfold walkStart
  dsimp only
  rw [if_pos]
  · rfl
  · constructor <;> intro i <;> fin_cases i <;> norm_num [Matrix.mulVec, dotProduct]

/-- There the polytope has volume 2, so that the uniform distribution exists. -/
theorem square_volume : volume (inactive (Matrix.of fun i _ => if i = 0 then 1 else 0 : Matrix (Fin 2) (Fin 1) ℝ)
    (Matrix.of fun i _ => if i = 1 then 1 else 0 : Matrix (Fin 2) (Fin 1) ℝ) fun _ => (1 / 2 : ℝ)) = 2 := by
  have e : inactive (Matrix.of fun i _ => if i = 0 then 1 else 0 : Matrix (Fin 2) (Fin 1) ℝ)
      (Matrix.of fun i _ => if i = 1 then 1 else 0 : Matrix (Fin 2) (Fin 1) ℝ) (fun _ => (1 / 2 : ℝ))
      = Set.Icc (fun _ => (-1 : ℝ)) fun _ => 1 := by
    ext z
    simp only [inactive, Set.mem_setOf_eq, Set.mem_Icc, Pi.le_def, Fin.forall_fin_two, Fin.forall_fin_one, Fin.sum_univ_one, Matrix.of_apply]
    norm_num
  rw [e, Real.volume_Icc_pi]
  norm_num

end Props
