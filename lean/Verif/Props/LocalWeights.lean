import Verif.Model.Subspaces
import Verif.Props.LocalLinear

/-!
# Properties C88 and C89: weights and size of the result of `local_linear_gradients`
-/

open Py Model.Gradients Proofs.SimRunners Spec

namespace Props

variable {W : Type} {M m : ℕ}

/-! ## C88 -/

/-- The least-squares solution of smallest norm is unique. -/
theorem min_norm_unique {r c : ℕ} {A : Matrix (Fin r) (Fin c) ℝ} {b : Fin r → ℝ} {u v : Fin c → ℝ} (hu : IsLeastSquares A b u)
    (hv : IsLeastSquares A b v) (hu' : ∀ z, IsLeastSquares A b z → sqNorm u ≤ sqNorm z) (hv' : ∀ z, IsLeastSquares A b z → sqNorm v ≤ sqNorm z) :
    u = v := by
  have hmid : IsLeastSquares A b ((1 / 2 : ℝ) • (u + v)) := by
    rw [Proofs.LeastSquares.isLeastSquares_iff] at hu hv ⊢
    have e : A.mulVec ((1 / 2 : ℝ) • (u + v)) - b = (1 / 2 : ℝ) • ((A.mulVec u - b) + (A.mulVec v - b)) := by
      rw [Matrix.mulVec_smul, Matrix.mulVec_add]
      module
    rw [e, Matrix.mulVec_smul, Matrix.mulVec_add, hu, hv]
    simp
  have h1 := hu' _ hmid
  have h2 := hu' _ hv
  have h3 := hv' _ hu
  have h4 : sqNorm ((1 / 2 : ℝ) • (u + v)) + sqNorm ((1 / 2 : ℝ) • (u - v)) = (sqNorm u + sqNorm v) / 2 := by
    simp only [sqNorm, Pi.smul_apply, Pi.add_apply, Pi.sub_apply, smul_eq_mul]
    rw [← Finset.sum_add_distrib, ← Finset.sum_add_distrib, Finset.sum_div]
    exact Finset.sum_congr rfl fun i _ => by ring
  have h5 : sqNorm ((1 / 2 : ℝ) • (u - v)) = 0 := le_antisymm (by linarith) (Proofs.LeastSquares.sqNorm_nonneg _)
  rw [Proofs.LeastSquares.sqNorm_eq_zero] at h5
  have h6 : u - v = 0 := by simpa using h5
  exact sub_eq_zero.mp h6

theorem isLeastSquares_smul {r c : ℕ} {A : Matrix (Fin r) (Fin c) ℝ} {b : Fin r → ℝ} {t : ℝ} (ht : t ≠ 0) {u : Fin c → ℝ} :
    IsLeastSquares (t • A) (t • b) u ↔ IsLeastSquares A b u := by
  have h : ∀ v, sqNorm ((t • A).mulVec v - t • b) = t ^ 2 * sqNorm (A.mulVec v - b) := fun v => by
    rw [Matrix.smul_mulVec, ← smul_sub, Proofs.LeastSquares.sqNorm_smul]
  unfold IsLeastSquares
  simp only [h]
  have ht2 : 0 < t ^ 2 := by positivity
  exact forall_congr' fun v => mul_le_mul_iff_right₀ ht2

theorem lstsq_smul {lib : Lib} (hlib : LibOK lib) {r c : ℕ} (A : Matrix (Fin r) (Fin c) ℝ) (b : Fin r → ℝ) {t : ℝ} (ht : t ≠ 0) :
    lib.lstsq (t • A) (t • b) = lib.lstsq A b := by
  have h1 := hlib.lstsq (t • A) (t • b)
  have h2 := hlib.lstsq A b
  refine min_norm_unique (isLeastSquares_smul ht |>.mp h1.1) h2.1 (fun z hz => h1.2 z (isLeastSquares_smul ht |>.mpr hz)) h2.2

/-- The local model does not depend on positive weights. -/
theorem localModel_weights {lib : Lib} (hlib : LibOK lib) (X : Matrix (Fin M) (Fin m) ℝ) (f u : Fin M → ℝ) (p : ℕ) (ii : Fin M) (hu : 0 < u ii) :
    localModel lib X f u p ii = localModel lib X f (fun _ => 1) p ii := by
  unfold localModel
  dsimp only
  split_ifs with h
  · have hs := (Real.sqrt_pos.mpr hu).ne'
    have hb : ∀ (t : ℝ) (s : Fin p → Fin M), (fun k => f (s k) * t) = t • fun k => f (s k) := fun t s => by
      funext k; simp [mul_comm]
    rw [hb, hb, lstsq_smul hlib _ _ hs, lstsq_smul hlib _ _ (by simp)]
  · rfl

/-- C88 fails: positive weights have no effect at all.  Whatever they are, the call does what it does without weights. -/
theorem C88_no_effect {lib : Lib} (hlib : LibOK lib) (randint : PyM W (Fin M)) (X : Matrix (Fin M) (Fin m) ℝ) (f u : Fin M → ℝ) (p : PArg)
    (hu : ∀ i, 0 < u i) : local_linear_gradients lib randint X f p (some u) = local_linear_gradients lib randint X f p none := by
  unfold local_linear_gradients
  cases hc : checkP M m p with
  | error e => rfl
  | ok q =>
    simp only [Option.getD_some, Option.getD_none]
    unfold localLoop
    congr 1
    funext df i
    congr 1
    funext ii
    have hM : (0 : ℝ) < 1 / M := by
      have : (0 : ℝ) < M := by exact_mod_cast ii.pos
      positivity
    rw [localModel_weights hlib X f u q ii (hu ii), localModel_weights hlib X f (fun _ => 1 / M) q ii hM]

/-- C88 fails for `opg_subspace` as well: the subspace does not depend on positive weights. -/
theorem C88_opg {S E : Type} {lib : Model.Subspaces.Lib} (hlib : LibOK lib.grad) (rng : Rng S) (X f : Arr) {k : ℕ}
    (u v : Matrix (Fin k) (Fin 1) ℝ) (hu : ∀ i, 0 < u i 0) (hv : ∀ i, 0 < v i 0) :
    (Model.Subspaces.opg_subspace lib rng X f (NpMat.of u) : PyM (S × E) _) = Model.Subspaces.opg_subspace lib rng X f (NpMat.of v) := by
  unfold Model.Subspaces.opg_subspace
  cases Model.Misc.process_inputs_outputs X f with
  | error e => rfl
  | ok r =>
    obtain ⟨X, f⟩ := r
    dsimp only
    by_cases h : k = X.rows ∧ 1 = 1
    · refine (dif_pos h).trans (Eq.trans ?_ (dif_pos h).symm)
      rw [C88_no_effect hlib, C88_no_effect hlib]
      · exact fun i => hv _
      · exact fun i => hu _
    · rw [dif_neg (show ¬ ((NpMat.of u).rows = X.rows ∧ (NpMat.of u).cols = 1) from h),
        dif_neg (show ¬ ((NpMat.of v).rows = X.rows ∧ (NpMat.of v).cols = 1) from h)]

/-- `a + v.x` minimises the weighted sum of squares over the observations in `S`. -/
def WeightedFit (X : Matrix (Fin M) (Fin m) ℝ) (f u : Fin M → ℝ) (S : Finset (Fin M)) (a : ℝ) (v : Fin m → ℝ) : Prop :=
  ∀ (a' : ℝ) (v' : Fin m → ℝ), ∑ k ∈ S, u k * (f k - (a + ∑ j, X k j * v j)) ^ 2 ≤ ∑ k ∈ S, u k * (f k - (a' + ∑ j, X k j * v' j)) ^ 2

/-- What one local model is: with a positive weight at the centre, the unweighted fit over the neighbours. -/
theorem localModel_fit {lib : Lib} (hlib : LibOK lib) {X : Matrix (Fin M) (Fin m) ℝ} (hX : Function.Injective fun i => X i) (f u : Fin M → ℝ)
    {p : ℕ} (hp : p < M) (ii : Fin M) (hu : 0 < u ii) :
    ∃ g, localModel lib X f u p ii = .ok g ∧ ∃ a, WeightedFit X f (fun _ => 1) (neighbours lib X ii p).toFinset a g := by
  have hlen := length_neighbours_distinct lib hX ii p hp
  have hnd := nodup_neighbours hlib X ii p
  rw [localModel_weights hlib X f u p ii hu]
  simp only [localModel, hlen, dif_pos, Real.sqrt_one, one_smul, mul_one]
  refine ⟨_, rfl, ?_⟩
  set s : Fin p → Fin M := fun k => (neighbours lib X ii p).get (k.cast hlen.symm) with hs
  have hsinj : Function.Injective s := by
    intro k k' hk
    have := (List.nodup_iff_injective_get.mp hnd) hk
    simpa [Fin.ext_iff] using this
  set A : Matrix (Fin p) (Fin (1 + m)) ℝ := Np.hstack (Np.ones p 1) (X.submatrix s id) with hA
  have hmul : ∀ (u : Fin (1 + m) → ℝ) (k : Fin p), A.mulVec u k = u (Fin.castAdd m 0) + ∑ j, X (s k) j * u (Fin.natAdd 1 j) := by
    intro u k
    rw [hA, Matrix.mulVec, dotProduct, Fin.sum_univ_add]
    simp only [Np.hstack_castAdd, Np.hstack_natAdd]
    simp [Np.ones]
  have himg : (neighbours lib X ii p).toFinset = Finset.univ.image s := by
    ext k
    rw [List.mem_toFinset, List.mem_iff_get]
    simp only [Finset.mem_image, Finset.mem_univ, true_and]
    constructor
    · rintro ⟨i, rfl⟩
      exact ⟨i.cast hlen, rfl⟩
    · rintro ⟨i, rfl⟩
      exact ⟨i.cast hlen.symm, rfl⟩
  have hval : ∀ v : Fin (1 + m) → ℝ, sqNorm (A.mulVec v - fun k => f (s k)) =
      ∑ k ∈ (neighbours lib X ii p).toFinset, 1 * (f k - (v (Fin.castAdd m 0) + ∑ j, X k j * v (Fin.natAdd 1 j))) ^ 2 := by
    intro v
    rw [himg, Finset.sum_image fun _ _ _ _ h => hsinj h]
    refine Finset.sum_congr rfl fun k _ => ?_
    rw [Pi.sub_apply, hmul]
    ring
  refine ⟨lib.lstsq A (fun k => f (s k)) (Fin.castAdd m 0), fun a' v' => ?_⟩
  have h := (hlib.lstsq A (fun k => f (s k))).1 (Fin.append (fun _ : Fin 1 => a') v')
  rw [hval, hval] at h
  simpa only [Fin.append_left, Fin.append_right] using h

/-- `localLoop_ok` for centres in a set. -/
theorem localLoop_ok_on {lib : Lib} {randint : PyM W (Fin M)} {Q : Fin M → Prop} (hr : ∀ w, ∃ i w', randint.run w = (.ok i, w') ∧ Q i)
    {X : Matrix (Fin M) (Fin m) ℝ} {f weights : Fin M → ℝ} {p : ℕ} (MM : ℕ) (P : (Fin m → ℝ) → Prop)
    (h : ∀ ii, Q ii → ∃ g, localModel lib X f weights p ii = .ok g ∧ P g) (w : W) :
    ∃ df w', (localLoop lib randint X f weights p MM).run w = (.ok df, w') ∧ ∀ i, P (df i) := by
  have htot : ∀ x w, ∃ v w', (step lib randint X f weights p x).run w = (.ok v, w') ∧ P v := by
    intro _ w
    obtain ⟨ii, w', hi, hq⟩ := hr w
    obtain ⟨g, hg, hP⟩ := h ii hq
    exact ⟨g, w', by rw [step, PyM.run_bind, hi]; simp [hg], hP⟩
  obtain ⟨vs, w', hc, hP⟩ := calls_of_total htot ((List.finRange MM).map fun _ => ()) w
  have hl : vs.length = MM := by simpa using hc.length
  have h1 := foldlM_calls (put := fun (F : Matrix (Fin MM) (Fin m) ℝ) i v => Matrix.updateRow F i v)
    (List.finRange MM) (Np.zeros MM m) w hc
  rw [fill_rows (fun v => v) vs hl] at h1
  refine ⟨_, w', by rw [localLoop_eq]; exact h1, fun i => ?_⟩
  exact hP _ (List.get_mem vs _)

theorem checkP_ok {p : ℕ} (hp1 : m + 1 ≤ p) (hp2 : p ≤ M) : checkP M m (.int p) = .ok p := by
  have h1 : ¬ M ≤ m := by omega
  have h2 : ¬ ((p : ℤ) < m + 1 ∨ (p : ℤ) > M) := by omega
  simp only [checkP, h1, if_false, h2]
  rfl

/-- C88, the part that holds: with positive weights every row is the slope of a fit to `p` observations that minimises the unweighted sum
of squares, hence the weighted one if the weights of these observations are equal. -/
theorem C88_equal_weights_partial {lib : Lib} (hlib : LibOK lib) {randint : PyM W (Fin M)} (hr : RandintOK randint)
    (X : Matrix (Fin M) (Fin m) ℝ) (hX : Function.Injective fun i => X i) (f u : Fin M → ℝ) (hu : ∀ i, 0 < u i) (p : ℕ) (hp1 : m + 1 ≤ p)
    (hp2 : p < M) (w : W) :
    ∃ df w', (local_linear_gradients lib randint X f (.int p) (some u)).run w = (.ok df, w') ∧
      ∀ i, ∃ S : Finset (Fin M), S.card = p ∧ ∃ a, WeightedFit X f (fun _ => 1) S a (df i) ∧
        ∀ c, (∀ k ∈ S, u k = c) → WeightedFit X f u S a (df i) := by
  simp only [local_linear_gradients, checkP_ok hp1 hp2.le]
  refine localLoop_ok hr (numModels M m) (fun g => ∃ S : Finset (Fin M), S.card = p ∧ ∃ a, WeightedFit X f (fun _ => 1) S a g ∧
        ∀ c, (∀ k ∈ S, u k = c) → WeightedFit X f u S a g) (fun ii => ?_) w
  obtain ⟨g, h1, a, h2⟩ := localModel_fit hlib hX f u hp2 ii (hu ii)
  refine ⟨g, h1, (neighbours lib X ii p).toFinset, ?_, a, h2, fun c hc => ?_⟩
  · rw [List.toFinset_card_of_nodup (nodup_neighbours hlib X ii p), length_neighbours_distinct lib hX ii p hp2]
  · intro a' v'
    have h3 := h2 a' v'
    simp only [one_mul] at h3
    have e : ∀ (a' : ℝ) (v' : Fin m → ℝ), ∑ k ∈ (neighbours lib X ii p).toFinset, u k * (f k - (a' + ∑ j, X k j * v' j)) ^ 2
        = c * ∑ k ∈ (neighbours lib X ii p).toFinset, (f k - (a' + ∑ j, X k j * v' j)) ^ 2 := fun a' v' => by
      rw [Finset.mul_sum]
      exact Finset.sum_congr rfl fun k hk => by rw [hc k hk]
    rw [e, e]
    rcases Finset.eq_empty_or_nonempty (neighbours lib X ii p).toFinset with h4 | ⟨k, hk⟩
    · rw [h4]; simp
    · have hc0 : 0 < c := by rw [← hc k hk]; exact hu k
      exact mul_le_mul_of_nonneg_left h3 hc0.le

/-- C88 fails: a centre of weight 0 yields the gradient 0, whatever the data. -/
theorem C88_zero_weight {lib : Lib} (hlib : LibOK lib) {randint : PyM W (Fin M)} (u : Fin M → ℝ)
    (hr : ∀ w, ∃ i w', randint.run w = (.ok i, w') ∧ u i = 0) (X : Matrix (Fin M) (Fin m) ℝ) (hX : Function.Injective fun i => X i)
    (f : Fin M → ℝ) (p : ℕ) (hp1 : m + 1 ≤ p) (hp2 : p < M) (w : W) :
    ∃ df w', (local_linear_gradients lib randint X f (.int p) (some u)).run w = (.ok df, w') ∧ ∀ i, df i = 0 := by
  simp only [local_linear_gradients, checkP_ok hp1 hp2.le]
  refine localLoop_ok_on hr (numModels M m) (fun g => g = 0) (fun ii h0 => ?_) w
  have hlen := length_neighbours_distinct lib hX ii p hp2
  simp only [localModel, hlen, dif_pos, Option.getD_some, h0, Real.sqrt_zero, zero_smul, mul_zero]
  refine ⟨_, rfl, ?_⟩
  have h1 := (hlib.lstsq (0 : Matrix (Fin p) (Fin (1 + m)) ℝ) (fun _ => 0)).2 0 fun v => by simp
  have h2 : sqNorm (0 : Fin (1 + m) → ℝ) = 0 := Proofs.LeastSquares.sqNorm_eq_zero.mpr rfl
  rw [h2] at h1
  have h3 := Proofs.LeastSquares.sqNorm_eq_zero.mp (le_antisymm h1 (Proofs.LeastSquares.sqNorm_nonneg _))
  rw [h3]
  rfl

/-- C88 fails with positive weights: five observations, the centre is always the first.  The slope returned is not that of a weighted fit to the
four nearest other observations, with any intercept. -/
theorem C88_refuted : ∃ (X : Matrix (Fin 5) (Fin 2) ℝ) (f u : Fin 5 → ℝ), Function.Injective (fun i => X i) ∧ (∀ i, 0 < u i) ∧
    NearestOthers X 0 4 {1, 2, 3, 4} ∧ 0 < numModels 5 2 ∧
    ∀ lib, LibOK lib → ∃ df, (local_linear_gradients lib (pure 0 : PyM Unit (Fin 5)) X f (.int 4) (some u)).run () = (.ok df, ()) ∧
      ∀ i a, ¬ WeightedFit X f u {1, 2, 3, 4} a (df i) := by
  let X : Matrix (Fin 5) (Fin 2) ℝ := !![0, 0; 1, 0; -1, 0; 0, 1; 0, -1]
  have hX : Function.Injective (fun i => X i) := by
    intro i j h
    have h0 := congrFun h 0
    have h1 := congrFun h 1
    fin_cases i <;> fin_cases j <;> simp [X] at h0 h1 ⊢ <;> linarith
  have hu : ∀ i, 0 < (![1, 3, 1, 1, 1] : Fin 5 → ℝ) i := fun i => by fin_cases i <;> norm_num
  have hsum : ∀ (c : Fin 5 → ℝ) (a : ℝ) (v : Fin 2 → ℝ), ∑ k ∈ ({1, 2, 3, 4} : Finset (Fin 5)), c k * ((![0, 1, 0, 0, 0] : Fin 5 → ℝ) k - (a + ∑ j, X k j * v j)) ^ 2
      = c 1 * (1 - (a + v 0)) ^ 2 + c 2 * (a - v 0) ^ 2 + c 3 * (a + v 1) ^ 2 + c 4 * (a - v 1) ^ 2 := by
    intro c a v
    rw [Finset.sum_insert (by decide), Finset.sum_insert (by decide), Finset.sum_insert (by decide), Finset.sum_singleton]
    simp [X, Fin.sum_univ_two]
    ring
  refine ⟨X, ![0, 1, 0, 0, 0], ![1, 3, 1, 1, 1], hX, hu, ?_, ?_, fun lib hlib => ?_⟩
  · refine ⟨by decide, by decide, fun a _ b hb h0 => ?_⟩
    refine absurd ?_ h0
    clear h0
    revert hb
    revert b
    decide
  · exact Nat.pos_of_ne_zero (numModels_pos (by omega) (by omega))
  · have h1 : ∀ ii : Fin 5, ii = 0 → ∃ g, localModel lib X ![0, 1, 0, 0, 0] ![1, 3, 1, 1, 1] 4 ii = .ok g ∧
        ∀ a, ¬ WeightedFit X ![0, 1, 0, 0, 0] ![1, 3, 1, 1, 1] {1, 2, 3, 4} a g := by
      rintro ii rfl
      obtain ⟨g, hg, a, hfit⟩ := localModel_fit hlib hX ![0, 1, 0, 0, 0] ![1, 3, 1, 1, 1] (p := 4) (by omega) 0 (hu 0)
      refine ⟨g, hg, fun a' hw => ?_⟩
      have hS : (neighbours lib X 0 4).toFinset = {1, 2, 3, 4} := by
        obtain ⟨h2, h3, -⟩ := C13_nearest_others_partial lib hlib X hX 0 rfl 4 (by omega)
        refine Finset.eq_of_subset_of_card_le (fun k hk => ?_) (by rw [h3]; decide)
        have hk0 : k ≠ 0 := fun h => h2 (h ▸ hk)
        revert hk0
        clear hk
        revert k
        decide
      rw [hS] at hfit
      have h2 := hfit (1 / 4) ![1 / 2, 0]
      have h3 := hw (3 / 10) ![3 / 5, 0]
      rw [hsum, hsum] at h2 h3
      have h2' : (1 - (a + g 0)) ^ 2 + (a - g 0) ^ 2 + (a + g 1) ^ 2 + (a - g 1) ^ 2 ≤ 1 / 4 := by
        refine le_of_eq_of_le (by ring) (h2.trans ?_)
        norm_num
      have h3' : 3 * (1 - (a' + g 0)) ^ 2 + (a' - g 0) ^ 2 + (a' + g 1) ^ 2 + (a' - g 1) ^ 2 ≤ 3 / 10 := by
        refine le_of_eq_of_le ?_ (h3.trans ?_)
        · simp
        · simp; norm_num
      have e : (1 - (a + g 0)) ^ 2 + (a - g 0) ^ 2 + (a + g 1) ^ 2 + (a - g 1) ^ 2
          = 1 / 4 + 4 * (a - 1 / 4) ^ 2 + 2 * (g 0 - 1 / 2) ^ 2 + 2 * g 1 ^ 2 := by ring
      have hb : g 0 - 1 / 2 = 0 := by
        have : (g 0 - 1 / 2) ^ 2 = 0 := le_antisymm (by linarith [sq_nonneg (a - 1 / 4), sq_nonneg (g 1)]) (sq_nonneg _)
        exact pow_eq_zero_iff two_ne_zero |>.mp this
      have hc : g 1 = 0 := by
        have : g 1 ^ 2 = 0 := le_antisymm (by linarith [sq_nonneg (a - 1 / 4), sq_nonneg (g 0 - 1 / 2)]) (sq_nonneg _)
        exact pow_eq_zero_iff two_ne_zero |>.mp this
      rw [sub_eq_zero.mp hb, hc] at h3'
      have e' : 3 * (1 - (a' + 1 / 2)) ^ 2 + (a' - 1 / 2) ^ 2 + (a' + 0) ^ 2 + (a' - 0) ^ 2 = 6 * (a' - 1 / 3) ^ 2 + 1 / 3 := by ring
      linarith [sq_nonneg (a' - 1 / 3)]
    have hr : ∀ w, ∃ i w', (pure 0 : PyM Unit (Fin 5)).run w = (.ok i, w') ∧ i = 0 := fun w => ⟨0, w, rfl, rfl⟩
    simp only [local_linear_gradients, show checkP 5 2 (.int 4) = .ok 4 from checkP_ok (p := 4) (by omega) (by omega)]
    obtain ⟨df, w', h2, h3⟩ := localLoop_ok_on hr (numModels 5 2) _ h1 ()
    exact ⟨df, h2, h3⟩

/-- The hypotheses of `C88_no_effect`, `C88_equal_weights_partial` and `C88_zero_weight` can be met. -/
example : (∃ lib, LibOK lib) ∧ RandintOK (W := Unit) (pure 1 : PyM Unit (Fin 4)) ∧
    (Function.Injective fun i => (!![0, 0; 1, 0; 0, 1; 2, 3] : Matrix (Fin 4) (Fin 2) ℝ) i) ∧
    (∀ w, ∃ i w', (pure 1 : PyM Unit (Fin 4)).run w = (.ok i, w') ∧ (![1, 0, 1, 1] : Fin 4 → ℝ) i = 0) :=
  ⟨libOK_exists, fun w => ⟨1, w, rfl⟩, general_position_example.1, fun w => ⟨1, w, rfl, rfl⟩⟩

/-! ## C89 -/

/-- C89 fails for every sample: the result has fewer rows than there are observations. -/
theorem C89_refuted (lib : Lib) (randint : PyM W (Fin M)) (X : Matrix (Fin M) (Fin m) ℝ) (f : Fin M → ℝ) (p : PArg)
    (weights : Option (Fin M → ℝ)) (w w' : W) (k : ℕ) (df : Matrix (Fin k) (Fin m) ℝ) (hk : k = numModels M m)
    (h : (local_linear_gradients lib randint X f p weights).run w = (.ok (hk ▸ df), w')) : k < M := by
  have hM : ¬ M ≤ m := by
    intro hM
    rw [(C14_guards lib randint X f weights w).1 hM p] at h
    exact absurd (Prod.mk.inj h).1 nofun
  have : numModels M m ≤ M - 1 := Nat.min_le_right _ _
  omega

/-- C89, the part that holds: for two or more inputs there is at least one row; up to `10 m log m + 1` observations there is one row less than
observations, beyond that the number of rows does not grow. -/
theorem C89_rows_partial (hm : 2 ≤ m) (hM : m < M) : 1 ≤ numModels M m ∧ ((M : ℝ) ≤ 10 * m * Real.log m + 1 → numModels M m = M - 1) ∧
    (10 * m * Real.log m + 1 < M → (numModels M m : ℝ) < 10 * m * Real.log m + 1 ∧ 10 * m * Real.log m ≤ numModels M m) := by
  refine ⟨Nat.pos_of_ne_zero (numModels_pos hm hM), fun h => ?_, fun h => ?_⟩
  · unfold numModels
    refine min_eq_right ?_
    have h1 : ((M - 1 : ℕ) : ℝ) ≤ 10 * m * Real.log m := by
      rw [Nat.cast_sub (by omega)]
      push_cast
      linarith
    exact_mod_cast h1.trans (Nat.le_ceil _)
  · have hlog : 0 ≤ Real.log m := Real.log_natCast_nonneg m
    have h1 : ⌈10 * (m : ℝ) * Real.log m⌉₊ ≤ M - 1 := by
      rw [Nat.ceil_le, Nat.cast_sub (by omega)]
      push_cast
      linarith
    have h2 : numModels M m = ⌈10 * (m : ℝ) * Real.log m⌉₊ := min_eq_left h1
    rw [h2]
    exact ⟨Nat.ceil_lt_add_one (by positivity), Nat.le_ceil _⟩

end Props
