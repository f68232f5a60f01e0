import Verif.Proofs.Index
import Verif.Props.SamplersMore

/-!
# Property C47: the random walk
-/

open Py Model.Domains Model.QPSolver Model.Misc Spec Proofs.Run

namespace Props

variable {S E : Type} {m n k N : ℕ}

theorem walkOK_iff (W1 : Matrix (Fin m) (Fin n) ℝ) (W2 : Matrix (Fin m) (Fin k) ℝ) (y : Fin n → ℝ) (z : Fin k → ℝ) :
    walkOK (W1.mulVec y) W2 z ↔ z ∈ inactive W1 W2 y := by
  change ((∀ i, ∑ j, W2 i j * z j ≤ 1 - ∑ j, W1 i j * y j) ∧ ∀ i, -1 - ∑ j, W1 i j * y j ≤ ∑ j, W2 i j * z j) ↔
    ∀ i, -1 ≤ ∑ j, W1 i j * y j + ∑ j, W2 i j * z j ∧ ∑ j, W1 i j * y j + ∑ j, W2 i j * z j ≤ 1
  constructor
  · rintro ⟨h1, h2⟩ i
    constructor <;> linarith [h1 i, h2 i]
  · intro h
    exact ⟨fun i => by linarith [(h i).2], fun i => by linarith [(h i).1]⟩

theorem walkStep_feasible {rng : Rng S} {s : Fin m → ℝ} {W2 : Matrix (Fin m) (Fin k) ℝ} {sig : ℝ} {z0 z1 : Fin k → ℝ} {w w' : S × E}
    (h : (walkStep rng s W2 sig z0).run w = (.ok z1, w')) (h0 : walkOK s W2 z0) : walkOK s W2 z1 := by
  obtain ⟨D, w1, -, h2⟩ := bind_inv h
  dsimp only at h2
  split_ifs at h2 with hz
  · obtain ⟨rfl, -⟩ := pure_inv h2
    exact hz
  · obtain ⟨rfl, -⟩ := pure_inv h2
    exact h0

theorem burnIn_feasible {rng : Rng S} {s : Fin m → ℝ} {W2 : Matrix (Fin m) (Fin k) ℝ} {sig : ℝ} {t : ℕ} {z0 z1 : Fin k → ℝ} {w w' : S × E}
    (h : (burnIn rng s W2 sig t z0).run w = (.ok z1, w')) (h0 : walkOK s W2 z0) : walkOK s W2 z1 := by
  induction t generalizing z0 w with
  | zero =>
    obtain ⟨rfl, -⟩ := pure_inv h
    exact h0
  | succ t ih =>
    obtain ⟨z, w1, h1, h2⟩ := bind_inv h
    exact ih h2 (walkStep_feasible h1 h0)

theorem walkLoop_feasible {rng : Rng S} {s : Fin m → ℝ} {W2 : Matrix (Fin m) (Fin k) ℝ} {sig : ℝ} {z0 : Fin k → ℝ} {cols : Fin N → Fin k → ℝ}
    {w w' : S × E} (h : (walkLoop rng s W2 sig N z0).run w = (.ok cols, w')) (h0 : walkOK s W2 z0) : ∀ i, walkOK s W2 (cols i) := by
  induction N generalizing z0 w w' with
  | zero => exact fun i => i.elim0
  | succ N ih =>
    obtain ⟨z, w1, h1, h2⟩ := bind_inv h
    obtain ⟨rest, w2, h3, h4⟩ := bind_inv h2
    obtain ⟨rfl, -⟩ := pure_inv h4
    have hz := walkStep_feasible h1 h0
    exact Fin.cases hz fun i => ih h3 hz i

/-- C47: the starting point is feasible: the origin when it is, and otherwise the inactive variables of a point of the cube with
the requested active variables. -/
theorem C47_start {lib : Model.Domains.Lib} (hl : QPLibOK lib.qp) (rng : Rng S) (y : Fin n → ℝ) (W1 : Matrix (Fin m) (Fin n) ℝ)
    (W2 : Matrix (Fin m) (Fin k) ℝ) (hW : W1 * W1.transpose + W2 * W2.transpose = 1) (w w' : S × Files × E) (z : Fin k → ℝ)
    (h : (walkStart lib rng y W1 W2).run w = (.ok z, w')) : z ∈ inactive W1 W2 y := by
  classical
  unfold walkStart at h
  dsimp only at h
  split_ifs at h with h0
  · obtain ⟨rfl, -⟩ := pure_inv h
    intro i
    have h1 : 0 ≤ 1 - ∑ j, W1 i j * y j := h0.1 i
    have h2 : 0 ≥ -1 - ∑ j, W1 i j * y j := h0.2 i
    simp only [mul_zero, Finset.sum_const_zero, add_zero]
    constructor <;> linarith
  · obtain ⟨x0, w1, h1, h2⟩ := bind_inv h
    obtain ⟨rfl, -⟩ := pure_inv h2
    obtain ⟨⟨⟨h3, h4⟩, -⟩, -⟩ := C65_solves_linear_eq hl _ _ _ _ _ _ _ _ _ _ h1
    have hy : y = W1.transpose.mulVec x0 := funext fun i => (h3 i).symm
    have hx : W1.mulVec y + W2.mulVec (W2.transpose.mulVec x0) = x0 := by
      rw [hy, Matrix.mulVec_mulVec, Matrix.mulVec_mulVec, ← Matrix.add_mulVec, hW, Matrix.one_mulVec]
    intro i
    have hi : ∑ j, W1 i j * y j + ∑ j, W2 i j * W2.transpose.mulVec x0 j = x0 i := congrFun hx i
    rw [hi]
    exact h4 i

/-- The entry of a reshaped transpose. -/
theorem reshapeT_apply (Z : Matrix (Fin k) (Fin N) ℝ) (i : Fin N) (j : Fin k) (a : Fin k) (b : Fin N)
    (h : (i : ℕ) * k + j = a * N + b) : reshapeT Z i j = Z a b := by
  have e : Fin.cast (Nat.mul_comm N k) (finProdFinEquiv (i, j)) = finProdFinEquiv (a, b) := by
    ext
    simp only [Fin.val_cast, finProdFinEquiv_apply_val]
    rw [Nat.mul_comm k, Nat.mul_comm N]
    omega
  change Np.ravel Z (Fin.cast (Nat.mul_comm N k) (finProdFinEquiv (i, j))) = _
  rw [e, Proofs.Index.ravel_finProd]

/-- C47 (partial): every sample of the walk is feasible, and the entry of sample `b` and coordinate `a` is returned at position
`a N + b` of the flattened result.  Missing: that the rows of the result are the samples, which is false (`C47_infeasible`). -/
theorem C47_random_walk_partial (lib : Model.Domains.Lib) (rng : Rng S) (y : Fin n → ℝ) (W1 : Matrix (Fin m) (Fin n) ℝ)
    (W2 : Matrix (Fin m) (Fin k) ℝ) (w w' : S × Files × E) (Z : Matrix (Fin N) (Fin k) ℝ)
    (h : (random_walk_z lib rng N y W1 W2).run w = (.ok Z, w')) :
    ∃ z0 w1, (walkStart lib rng y W1 W2).run w = (.ok z0, w1) ∧ (z0 ∈ inactive W1 W2 y → ∃ cols : Fin N → Fin k → ℝ,
      (∀ i, cols i ∈ inactive W1 W2 y) ∧
      ∀ (i : Fin N) (j a : Fin k) (b : Fin N), (i : ℕ) * k + j = a * N + b → Z i j = cols b a) := by
  obtain ⟨z0, w1, h1, h2⟩ := bind_inv h
  obtain ⟨z1, w2, h3, h4⟩ := bind_inv h2
  obtain ⟨cols, w3, h5, h6⟩ := bind_inv h4
  obtain ⟨rfl, -⟩ := pure_inv h6
  refine ⟨z0, w1, h1, fun h0 => ⟨cols, fun i => ?_, fun i j a b hab => reshapeT_apply _ i j a b hab⟩⟩
  rw [← walkOK_iff] at h0 ⊢
  exact walkLoop_feasible h5 (burnIn_feasible h3 h0) i

/-- C47: for one sample, and for one inactive variable, the rows are the samples. -/
theorem C47_small {lib : Model.Domains.Lib} (hl : QPLibOK lib.qp) (rng : Rng S) (y : Fin n → ℝ) (W1 : Matrix (Fin m) (Fin n) ℝ)
    (W2 : Matrix (Fin m) (Fin k) ℝ) (hW : W1 * W1.transpose + W2 * W2.transpose = 1) (w w' : S × Files × E) (Z : Matrix (Fin N) (Fin k) ℝ)
    (h : (random_walk_z lib rng N y W1 W2).run w = (.ok Z, w')) (hN : N ≤ 1 ∨ k ≤ 1) (i : Fin N) : Z i ∈ inactive W1 W2 y := by
  obtain ⟨z0, w1, h1, h2⟩ := C47_random_walk_partial lib rng y W1 W2 w w' Z h
  obtain ⟨cols, h3, h4⟩ := h2 (C47_start hl rng y W1 W2 hW w w1 z0 h1)
  have e : Z i = cols i := funext fun j => h4 i j j i (by
    have := i.2
    have := j.2
    rcases hN with hN | hN
    · obtain rfl : N = 1 := by omega
      have : (i : ℕ) = 0 := by omega
      rw [this]
      ring
    · obtain rfl : k = 1 := by omega
      have : (j : ℕ) = 0 := by omega
      rw [this]
      ring)
  rw [e]
  exact h3 i

namespace WalkWitness

/-- The active direction. -/
def W1 : Matrix (Fin 3) (Fin 1) ℝ := Matrix.of ![![0], ![0], ![1]]

/-- The inactive directions. -/
noncomputable def W2 : Matrix (Fin 3) (Fin 2) ℝ := Matrix.of ![![3 / 5, 4 / 5], ![4 / 5, -3 / 5], ![0, 0]]

/-- The active variable. -/
def y : Fin 1 → ℝ := fun _ => 0

/-- The end of the only accepted step. -/
noncomputable def c : Fin 2 → ℝ := ![63 / 50, 9 / 50]

/-- The step size at the origin. -/
noncomputable def sig : ℝ := walkSig (W1.mulVec y) W2 fun _ => 0

/-- A generator. -/
noncomputable def rng : Rng Unit :=
  ⟨fun _ => (), fun r _ _ => (Matrix.of fun i _ => (if (i : ℕ) = 0 then 63 / 50 else 9 / 50) / sig, ()), fun r c _ => (0, ()), fun n _ => (0, ())⟩

theorem orthogonal : W1 * W1.transpose + W2 * W2.transpose = 1 := by
  ext i j
  rw [Matrix.add_apply, Matrix.mul_apply, Matrix.mul_apply, Fin.sum_univ_one, Fin.sum_univ_two]
  fin_cases i <;> fin_cases j <;> norm_num [W1, W2, Matrix.transpose_apply]

theorem mem (z : Fin 2 → ℝ) : z ∈ inactive W1 W2 y ↔ |3 * z 0 + 4 * z 1| ≤ 5 ∧ |4 * z 0 - 3 * z 1| ≤ 5 := by
  have e : ∀ i, ∑ j, W1 i j * y j = 0 := fun i => by simp [y]
  simp only [inactive, Set.mem_setOf_eq, e, Fin.forall_fin_succ, Fin.sum_univ_two, W2, abs_le]
  simp only [Matrix.of_apply, Matrix.cons_val_zero, Matrix.cons_val_one, Matrix.cons_val_fin_one, Matrix.cons_val_succ]
  constructor
  · rintro ⟨⟨h1, h2⟩, ⟨h3, h4⟩, -⟩
    refine ⟨⟨?_, ?_⟩, ?_, ?_⟩ <;> linarith
  · rintro ⟨⟨h1, h2⟩, h3, h4⟩
    refine ⟨⟨?_, ?_⟩, ⟨?_, ?_⟩, ⟨?_, ?_⟩, ?_⟩ <;> first | linarith | exact fun i => i.elim0

theorem sig_pos : 0 < sig := by
  have e : ∀ i, (W1.mulVec y) i = 0 := fun i => by simp [Matrix.mulVec, dotProduct, y]
  have e2 : ∀ i, W2.mulVec (fun _ => 0) i = 0 := fun i => by simp [Matrix.mulVec, dotProduct]
  unfold sig walkSig
  simp only [e, e2]
  refine mul_pos (by norm_num) (lt_min (Real.sqrt_pos.mpr ?_) (Real.sqrt_pos.mpr ?_)) <;> norm_num

theorem drawn (w : Unit × E) (z0 : Fin 2 → ℝ) : (walkStep rng (W1.mulVec y) W2 sig z0).run w =
    (.ok (open Classical in if (fun j => z0 j + c j) ∈ inactive W1 W2 y then (fun j => z0 j + c j) else z0), w) := by
  have e : (fun j : Fin 2 => z0 j + sig * (rng.normal 2 1 w.1).1 j 0) = fun j => z0 j + c j := by
    funext j
    have hs := sig_pos.ne'
    change z0 j + sig * ((if (j : ℕ) = 0 then 63 / 50 else 9 / 50) / sig) = z0 j + c j
    rw [mul_div_cancel₀ _ hs]
    fin_cases j <;> simp [c]
  unfold walkStep
  rw [PyM.run_bind_ok (Rng.run_draw _ _)]
  dsimp only
  rw [e]
  split_ifs with h1 h2 h2
  · rfl
  · exact absurd ((walkOK_iff _ _ _ _).mp h1) h2
  · exact absurd ((walkOK_iff _ _ _ _).mpr h2) h1
  · rfl

theorem first (w : Unit × E) : (walkStep rng (W1.mulVec y) W2 sig fun _ => 0).run w = (.ok c, w) := by
  rw [drawn, if_pos]
  · simp
  · rw [mem]
    norm_num [c, abs_le]

theorem later (w : Unit × E) : (walkStep rng (W1.mulVec y) W2 sig c).run w = (.ok c, w) := by
  rw [drawn, if_neg]
  rw [mem]
  norm_num [c, abs_le]

theorem burn (t : ℕ) (w : Unit × E) : (burnIn rng (W1.mulVec y) W2 sig t c).run w = (.ok c, w) := by
  induction t with
  | zero => rfl
  | succ t ih =>
    unfold burnIn
    rw [PyM.run_bind_ok (later w), ih]

theorem loop (N : ℕ) (w : Unit × E) : (walkLoop rng (W1.mulVec y) W2 sig N c).run w = (.ok fun _ => c, w) := by
  induction N with
  | zero => exact congrArg (fun a => (Except.ok a, w)) (funext fun i => i.elim0)
  | succ N ih =>
    unfold walkLoop
    rw [PyM.run_bind_ok (later w), PyM.run_bind_ok ih]
    exact congrArg (fun a => (Except.ok a, w)) (funext fun i => Fin.cases rfl (fun _ => rfl) i)

end WalkWitness

/-- C47 fails: both samples are the same feasible point, and the first returned row is not feasible. -/
theorem C47_infeasible (lib : Model.Domains.Lib) : ∃ (rng : Rng Unit) (W1 : Matrix (Fin 3) (Fin 1) ℝ) (W2 : Matrix (Fin 3) (Fin 2) ℝ)
    (y : Fin 1 → ℝ) (w : Unit × Files × Unit) (Z : Matrix (Fin 2) (Fin 2) ℝ), W1 * W1.transpose + W2 * W2.transpose = 1 ∧
    (walkStart lib rng y W1 W2).run w = (.ok fun _ => 0, w) ∧ (fun _ => 0) ∈ inactive W1 W2 y ∧
    (random_walk_z lib rng 2 y W1 W2).run w = (.ok Z, w) ∧ Z 0 ∉ inactive W1 W2 y := by
  have h1 : (walkStart lib WalkWitness.rng WalkWitness.y WalkWitness.W1 WalkWitness.W2).run ((), [], ()) = (.ok fun _ => 0, ((), [], ())) := by
    unfold walkStart
    dsimp only
    rw [if_pos]
    · rfl
    · simp [Matrix.mulVec, dotProduct, WalkWitness.y]
  have h2 : (burnIn WalkWitness.rng (WalkWitness.W1.mulVec WalkWitness.y) WalkWitness.W2 WalkWitness.sig (10 * 2) fun _ => 0).run ((), ([], ()))
      = (.ok WalkWitness.c, ((), (([] : Files), ()))) := by
    change (walkStep _ _ _ _ _ >>= fun z0 => burnIn WalkWitness.rng (WalkWitness.W1.mulVec WalkWitness.y) WalkWitness.W2 WalkWitness.sig 19 z0).run _ = _
    rw [PyM.run_bind_ok (WalkWitness.first _), WalkWitness.burn]
  refine ⟨WalkWitness.rng, WalkWitness.W1, WalkWitness.W2, WalkWitness.y, ((), [], ()),
    reshapeT (Matrix.of fun j (_ : Fin 2) => WalkWitness.c j), WalkWitness.orthogonal, h1, ?_, ?_, ?_⟩
  · rw [WalkWitness.mem]
    norm_num
  · unfold random_walk_z
    dsimp only
    rw [PyM.run_bind_ok h1]
    change (burnIn WalkWitness.rng _ _ WalkWitness.sig _ _ >>= fun z0 => _).run _ = _
    rw [PyM.run_bind_ok h2]
    change (walkLoop WalkWitness.rng _ _ WalkWitness.sig _ _ >>= fun z0 => _).run _ = _
    rw [PyM.run_bind_ok (WalkWitness.loop 2 _)]
    rfl
  · rw [WalkWitness.mem, reshapeT_apply _ 0 0 0 0 (by norm_num), reshapeT_apply _ 0 1 0 1 (by norm_num)]
    norm_num [WalkWitness.c, abs_le]

end Props
