import Verif.Model.RoundedOpg
import Verif.Props.OlsRounded
import Verif.Props.RoundedExact

/-!
# Property C160: `opg_subspace` in double precision
-/

open Py Matrix Model.Misc Model.Subspaces Spec Proofs.Rounding Proofs.FloatSum Proofs.SimRunners Proofs.Perturb
open scoped Matrix.Norms.L2Operator

namespace Props

variable {S : Type} {M m p K : ℕ}

/-- **C160**, without rounding: the loop of the exact model. -/
theorem C160_exact_loop (lib : Model.Gradients.Lib) (randint : PyM S (Fin M)) (X : Matrix (Fin M) (Fin m) ℝ) (f weights : Fin M → ℝ) (p K : ℕ) :
    Model.Rounded.localLoop id lib.argsort (fun _ _ A b => lib.lstsq A b) (fun ii => Model.Gradients.sqDist X (X ii)) randint X f weights p K
      = Model.Gradients.localLoop lib randint X f weights p K := by
  unfold Model.Rounded.localLoop Model.Gradients.localLoop
  simp only [C158_exact]

/-- **C160**, without rounding: `opg_subspace` of the exact model, when the number `p` of points is accepted. -/
theorem C160_exact {S E : Type} (lib : Model.Subspaces.Lib) (rng : Rng S) (X : Matrix (Fin M) (Fin m) ℝ) (f w : Fin M → ℝ) {p : ℕ}
    (hp : Model.Gradients.checkP M m .none = .ok p) :
    Model.Rounded.opg_subspace (W := S × E) id (fun _ _ _ A B => A * B) lib.grad.argsort (fun _ _ A b => lib.grad.lstsq A b) lib
        (fun ii => Model.Gradients.sqDist X (X ii)) (randint rng M) X f w p (Model.Gradients.numModels M m)
      = opg_subspace lib rng (.mat (NpMat.of X)) (.mat (wcol f)) (wcol w) := by
  have h2 : opg_subspace (E := E) lib rng (.mat (NpMat.of X)) (.mat (wcol f)) (wcol w)
      = Model.Gradients.local_linear_gradients lib.grad (randint rng M) X f .none (some w) >>= fun df =>
        PyM.lift (active_subspace lib (.mat (NpMat.of df)) (NpMat.of (Matrix.of fun (_ : Fin (Model.Gradients.numModels M m)) (_ : Fin 1) =>
          1 / ((Model.Gradients.numModels M m : ℕ) : ℝ)))) := by
    unfold opg_subspace
    rw [process_col]
    refine (dif_pos ⟨rfl, rfl⟩).trans ?_
    congr 2
    funext i
    exact NpMat.get_of (Matrix.of fun i (_ : Fin 1) => f i) i 0
  rw [h2]
  unfold Model.Rounded.opg_subspace Model.Gradients.local_linear_gradients
  rw [hp, C160_exact_loop]
  rfl

/-- Averages of outer products of vectors near `v`. -/
theorem outer_near (G : Matrix (Fin K) (Fin m) ℝ) (w : Fin K → ℝ) (hw : ∀ k, 0 ≤ w k) {v : Fin m → ℝ} {κ L : ℝ} (hG : ∀ k, ∑ j, |G k j - v j| ≤ κ)
    (hL : L = Real.sqrt (∑ j, v j ^ 2)) (hκ : 0 ≤ κ) :
    ‖gradOuter G w - Matrix.of fun i j => (∑ k, w k) * (v i * v j)‖ ≤ (∑ k, w k) * (κ * (2 * L + κ)) := by
  have hL0 : 0 ≤ L := hL ▸ Real.sqrt_nonneg _
  have hs0 : 0 ≤ ∑ k, w k := Finset.sum_nonneg fun k _ => hw k
  refine opNorm_le (by positivity) fun x y => ?_
  have hx : x ⬝ᵥ x = ∑ i, x i ^ 2 := Finset.sum_congr rfl fun i _ => (sq _).symm
  have hy : y ⬝ᵥ y = ∑ i, y i ^ 2 := Finset.sum_congr rfl fun i _ => (sq _).symm
  rw [hx, hy]
  set a := Real.sqrt (∑ i, x i ^ 2) with ha
  set b := Real.sqrt (∑ i, y i ^ 2) with hb
  have ha0 : 0 ≤ a := Real.sqrt_nonneg _
  have hb0 : 0 ≤ b := Real.sqrt_nonneg _
  have e1 : x ⬝ᵥ (gradOuter G w - Matrix.of fun i j => (∑ k, w k) * (v i * v j)).mulVec y
      = ∑ k, w k * ((∑ i, x i * G k i) * (∑ j, y j * G k j) - (∑ i, x i * v i) * ∑ j, y j * v j) := by
    have h1 : ∀ k, (∑ i, x i * G k i) * (∑ j, y j * G k j) - (∑ i, x i * v i) * ∑ j, y j * v j
        = ∑ i, ∑ j, x i * ((G k i * G k j - v i * v j) * y j) := fun k => by
      rw [Finset.sum_mul_sum, Finset.sum_mul_sum, ← Finset.sum_sub_distrib]
      refine Finset.sum_congr rfl fun i _ => ?_
      rw [← Finset.sum_sub_distrib]
      exact Finset.sum_congr rfl fun j _ => by ring
    simp only [h1]
    simp only [dotProduct, mulVec, Finset.mul_sum]
    rw [Finset.sum_comm]
    conv_rhs => rw [Finset.sum_comm]
    rw [Finset.sum_comm]
    refine Finset.sum_congr rfl fun i _ => ?_
    rw [Finset.sum_comm]
    refine Finset.sum_congr rfl fun j _ => ?_
    rw [Matrix.sub_apply, gradOuter, Matrix.of_apply, Matrix.of_apply, Finset.sum_mul, ← Finset.sum_sub_distrib, Finset.sum_mul, Finset.mul_sum]
    exact Finset.sum_congr rfl fun k _ => by ring
  rw [e1, mul_assoc, mul_assoc, Finset.sum_mul Finset.univ w]
  refine Finset.sum_le_sum fun k _ => mul_le_mul_of_nonneg_left ?_ (hw k)
  obtain ⟨l1, l2⟩ := length_close (hG k)
  rw [← hL] at l2
  set D := Real.sqrt (∑ j, (G k j - v j) ^ 2) with hD
  set g := Real.sqrt (∑ j, G k j ^ 2) with hg
  have hgL : g ≤ L + κ := by linarith [(abs_le.mp l2).2]
  have e2 : (∑ i, x i * G k i) * (∑ j, y j * G k j) - (∑ i, x i * v i) * ∑ j, y j * v j
      = (∑ i, x i * (G k i - v i)) * (∑ j, y j * G k j) + (∑ i, x i * v i) * ∑ j, y j * (G k j - v j) := by
    simp only [mul_sub, Finset.sum_sub_distrib]
    ring
  have c1 := abs_dot_le x fun i => G k i - v i
  have c2 := abs_dot_le y fun j => G k j
  have c3 := abs_dot_le x v
  have c4 := abs_dot_le y fun j => G k j - v j
  rw [← hL] at c3
  have d1 : |(∑ i, x i * (G k i - v i)) * ∑ j, y j * G k j| ≤ (a * κ) * (b * (L + κ)) := by
    rw [abs_mul]
    exact mul_le_mul (c1.trans (mul_le_mul_of_nonneg_left l1 ha0)) (c2.trans (mul_le_mul_of_nonneg_left hgL hb0)) (abs_nonneg _) (by positivity)
  have d2 : |(∑ i, x i * v i) * ∑ j, y j * (G k j - v j)| ≤ (a * L) * (b * κ) := by
    rw [abs_mul]
    exact mul_le_mul c3 (c4.trans (mul_le_mul_of_nonneg_left l1 hb0)) (abs_nonneg _) (by positivity)
  rw [e2]
  calc _ ≤ (a * κ) * (b * (L + κ)) + (a * L) * (b * κ) := add_le_add ((le_abs_self _).trans d1) ((le_abs_self _).trans d2)
    _ = _ := by ring

/-- `active_subspace` in double precision for gradients that are all near `v`. -/
theorem near_rank_one {rd : ℝ → ℝ} (hr : Rounding rd) {d : Model.Rounded.Dot} (hd : ∀ p n q A B, FloatDot rd A B (d p n q A B))
    {lib : Model.Subspaces.Lib} (ha : ∀ (n : ℕ) (v : Fin n → ℝ), IsArgsort v (lib.argsort n v)) {ε : ℝ}
    (he : ∀ A : Matrix (Fin m) (Fin m) ℝ, StableEigh ε A (lib.eigh m A).1 (lib.eigh m A).2) (hε : 0 ≤ ε) (hm : 0 < m)
    (G : Matrix (Fin K) (Fin m) ℝ) (w : Fin K → ℝ) (hw : ∀ k, 0 ≤ w k) {v : Fin m → ℝ} {κ L γ s Δ : ℝ} (hG : ∀ k, ∑ j, |G k j - v j| ≤ κ) (hκ : 0 ≤ κ)
    (hL : L = Real.sqrt (∑ j, v j ^ 2)) (hs : s = ∑ k, w k) (hγ : γ = (1 + 1 / 2 ^ 53) ^ (K + 1) - 1)
    (hΔ : Δ = s * ((γ + ε * (1 + γ)) * (L + κ) ^ 2 + κ * (2 * L + κ))) :
    ∃ (e : Fin m → ℝ) (W : Matrix (Fin m) (Fin m) ℝ), Model.Rounded.active_subspace rd d lib (.mat (.of G)) (wcol w) = .ok ⟨m, e, W⟩ ∧ Antitone e ∧ (∀ j, 0 ≤ e j) ∧
      |e ⟨0, hm⟩ - s * L ^ 2| ≤ Δ ∧ (∀ j : Fin m, (j : ℕ) ≠ 0 → e j ≤ Δ) ∧
      ∀ z : Fin m → ℝ, ∑ i, z i * v i = 0 → e ⟨0, hm⟩ * |∑ i, z i * W i ⟨0, hm⟩| ≤ (Δ + ε * e ⟨0, hm⟩) * Real.sqrt (∑ i, z i ^ 2) := by
  obtain ⟨B, lam, e, W, W', hrun, hB, -, habs, hanti, hWW, hBG⟩ := Rounded.subspace_core hr hd ha he hε hm G w hw hγ rfl
  have hs0 : 0 ≤ s := hs ▸ Finset.sum_nonneg fun k _ => hw k
  have hL0 : 0 ≤ L := hL ▸ Real.sqrt_nonneg _
  have hL2 : L ^ 2 = ∑ j, v j ^ 2 := by rw [hL]; exact Real.sq_sqrt (Finset.sum_nonneg fun _ _ => sq_nonneg _)
  have hγ0 : 0 ≤ γ := by
    have : γ = (1 + u) ^ (K + 1) - 1 := hγ
    rw [this]
    linarith [one_le_pow (K + 1)]
  set g : Fin m → ℝ := fun j => Real.sqrt s * v j with hg
  have hgg : (Matrix.of fun k l => g k * g l : Matrix (Fin m) (Fin m) ℝ) = Matrix.of fun i j => s * (v i * v j) := by
    ext i j
    rw [Matrix.of_apply, Matrix.of_apply, hg]
    calc Real.sqrt s * v i * (Real.sqrt s * v j) = (Real.sqrt s * Real.sqrt s) * (v i * v j) := by ring
      _ = _ := by rw [Real.mul_self_sqrt hs0]
  have hBO : ‖B - Matrix.of fun k l => g k * g l‖ ≤ Δ := by
    have h1 := outer_near G w hw hG hL hκ
    rw [← hs] at h1
    have h2 : ∑ k, w k * ∑ i, G k i ^ 2 ≤ s * (L + κ) ^ 2 := by
      rw [hs, Finset.sum_mul]
      refine Finset.sum_le_sum fun k _ => mul_le_mul_of_nonneg_left ?_ (hw k)
      obtain ⟨-, l2⟩ := length_close (hG k)
      rw [← hL] at l2
      have := Real.sq_sqrt (Finset.sum_nonneg fun i (_ : i ∈ Finset.univ) => sq_nonneg (G k i))
      rw [← this]
      exact pow_le_pow_left₀ (Real.sqrt_nonneg _) (by linarith [(abs_le.mp l2).2]) 2
    have e1 : B - (Matrix.of fun i j => s * (v i * v j)) = (B - gradOuter G w) + (gradOuter G w - Matrix.of fun i j => s * (v i * v j)) := by abel
    rw [hgg, e1, hΔ]
    refine (norm_add_le _ _).trans ((add_le_add (hBG.trans (mul_le_mul_of_nonneg_left h2 (by positivity))) h1).trans (le_of_eq ?_))
    ring
  obtain ⟨lib', hl'⟩ := subLibOK_exists
  obtain ⟨e', V, -, hse⟩ := C34_posSemidef lib' hl' hm _ (rank_one_posSemidef g)
  obtain ⟨r1, r2, -⟩ := rank_one hm hse
  have hclose := (Rounded.abs_eig_close hB hse habs hanti hBO).1
  refine ⟨e, W, hrun, hanti, fun j => by rw [habs]; exact abs_nonneg _, ?_, fun j hj => ?_, fun z hz => ?_⟩
  · have h1 := hclose ⟨0, hm⟩
    have e2 : ∑ k, g k ^ 2 = s * L ^ 2 := by
      rw [hL2, Finset.mul_sum]
      exact Finset.sum_congr rfl fun k _ => by rw [hg, mul_pow, Real.sq_sqrt hs0]
    rwa [r1, e2] at h1
  · have h1 := hclose j
    rw [r2 j hj, sub_zero] at h1
    exact (le_abs_self _).trans h1
  · set o : Fin m := ⟨0, hm⟩ with ho
    set Z := Real.sqrt (∑ i, z i ^ 2) with hZ
    have hZ0 : 0 ≤ Z := Real.sqrt_nonneg _
    have hunit : ∑ i, W' i o ^ 2 = 1 := by
      have := congrFun (congrFun hB.orth o) o
      rw [Matrix.mul_apply, Matrix.one_apply_eq] at this
      rw [← this]
      exact Finset.sum_congr rfl fun i _ => by rw [transpose_apply, sq]
    have hvec : ∀ i, ∑ j, B i j * W' j o = lam o * W' i o := fun i => by
      have := congrFun (congrFun hB.vecs i) o
      rw [Matrix.mul_apply, Matrix.mul_diagonal] at this
      rw [this, mul_comm]
    have n1 := Rounded.norm_apply hBO (c := fun i => W' i o) hunit.le
    have c1 := (abs_dot_le z fun i => ∑ j, (B - Matrix.of fun k l => g k * g l) i j * W' j o).trans (mul_le_mul_of_nonneg_left n1 hZ0)
    have c2 : ∑ i, z i * g i = 0 := by
      calc ∑ i, z i * g i = Real.sqrt s * ∑ i, z i * v i := by
            rw [Finset.mul_sum]
            exact Finset.sum_congr rfl fun i _ => by rw [hg]; ring
        _ = 0 := by rw [hz, mul_zero]
    have e1 : lam o * ∑ i, z i * W' i o = ∑ i, z i * (∑ j, (B - Matrix.of fun k l => g k * g l) i j * W' j o) + (∑ i, z i * g i) * ∑ j, g j * W' j o := by
      rw [Finset.mul_sum, Finset.sum_mul, ← Finset.sum_add_distrib]
      refine Finset.sum_congr rfl fun i _ => ?_
      have : ∑ j, (B - Matrix.of fun k l => g k * g l) i j * W' j o = lam o * W' i o - g i * ∑ j, g j * W' j o := by
        rw [← hvec, Finset.mul_sum, ← Finset.sum_sub_distrib]
        refine Finset.sum_congr rfl fun j _ => ?_
        rw [Matrix.sub_apply, Matrix.of_apply]
        ring
      rw [this]
      ring
    have h1 : e o * |∑ i, z i * W' i o| ≤ Z * Δ := by
      rw [habs, ← abs_mul, e1, c2, zero_mul, add_zero]
      exact c1
    have h2 : |∑ i, z i * W i o - ∑ i, z i * W' i o| ≤ Z * ε := by
      have n2 := Rounded.norm_apply hWW (c := Pi.single o 1) (by
        rw [Finset.sum_eq_single o (fun i _ hi => by rw [Pi.single_eq_of_ne hi]; norm_num) (fun h => absurd (Finset.mem_univ _) h), Pi.single_eq_same]
        norm_num)
      have e2 : ∀ j, ∑ i, (W - W') j i * (Pi.single o 1 : Fin m → ℝ) i = W j o - W' j o := fun j => by
        rw [Finset.sum_eq_single o (fun i _ hi => by rw [Pi.single_eq_of_ne hi, mul_zero]) (fun h => absurd (Finset.mem_univ _) h), Pi.single_eq_same, mul_one, Matrix.sub_apply]
      simp only [e2] at n2
      have := (abs_dot_le z fun j => W j o - W' j o).trans (mul_le_mul_of_nonneg_left n2 hZ0)
      rwa [show ∑ i, z i * (W i o - W' i o) = ∑ i, z i * W i o - ∑ i, z i * W' i o by simp only [mul_sub, Finset.sum_sub_distrib]] at this
    have h3 : |∑ i, z i * W i o| ≤ |∑ i, z i * W' i o| + Z * ε := by
      have := abs_sub_abs_le_abs_sub (∑ i, z i * W i o) (∑ i, z i * W' i o)
      linarith
    have he0 : 0 ≤ e o := by rw [habs]; exact abs_nonneg _
    calc e o * |∑ i, z i * W i o| ≤ e o * (|∑ i, z i * W' i o| + Z * ε) := mul_le_mul_of_nonneg_left h3 he0
      _ = e o * |∑ i, z i * W' i o| + ε * e o * Z := by ring
      _ ≤ Z * Δ + ε * e o * Z := by linarith
      _ = _ := by ring

/-- The loop over the random centres: every row is the slope of one model. -/
theorem localLoop_rows {rd : ℝ → ℝ} {argsort : (Fin M → ℝ) → (Fin M → Fin M)} {lstsq : Model.Rounded.Lstsq} {dist : Fin M → Fin M → ℝ} {randint : PyM S (Fin M)}
    (hrand : RandintOK randint) {X : Matrix (Fin M) (Fin m) ℝ} {f weights : Fin M → ℝ} (K : ℕ) (P : (Fin m → ℝ) → Prop)
    (h : ∀ ii, ∃ g, Model.Rounded.localModel rd argsort lstsq (dist ii) X f (weights ii) p = .ok g ∧ P g) (w : S) :
    ∃ df w', (Model.Rounded.localLoop rd argsort lstsq dist randint X f weights p K).run w = (.ok df, w') ∧ ∀ i, P (df i) := by
  set st : Unit → PyM S (Fin m → ℝ) := fun _ => do
    let ii ← randint
    PyM.lift (Model.Rounded.localModel rd argsort lstsq (dist ii) X f (weights ii) p) with hst
  have heq : Model.Rounded.localLoop rd argsort lstsq dist randint X f weights p K
      = (List.finRange K).foldlM (fun df i => do
          let g ← st ((fun _ => ()) i)
          return Matrix.updateRow df i g) (Np.zeros K m) := by
    unfold Model.Rounded.localLoop
    congr 1
    funext df i w
    simp only [hst, bind, PyM.bind]
    rcases randint w with ⟨_ | ii, w'⟩
    · rfl
    · simp only [PyM.lift]
  have htot : ∀ x w, ∃ v w', (st x).run w = (.ok v, w') ∧ P v := by
    intro _ w
    obtain ⟨ii, w', hi⟩ := hrand w
    obtain ⟨g, hg, hP⟩ := h ii
    exact ⟨g, w', by rw [hst, PyM.run_bind, hi]; simp [hg], hP⟩
  obtain ⟨vs, w', hc, hP⟩ := calls_of_total htot ((List.finRange K).map fun _ => ()) w
  have hl : vs.length = K := by simpa using hc.length
  have h1 := foldlM_calls (put := fun (F : Matrix (Fin K) (Fin m) ℝ) i v => Matrix.updateRow F i v)
    (List.finRange K) (Np.zeros K m) w hc
  rw [fill_rows (fun v => v) vs hl] at h1
  refine ⟨_, w', by rw [heq]; exact h1, fun i => ?_⟩
  exact hP _ (List.get_mem vs _)

/-- **C160.** `opg_subspace` in double precision with backward stable solvers, for data near an affine function `a + v x`.  Whatever centres are drawn and however the
distances were rounded, the call succeeds, the first eigenvalue is near the squared length of `v`, the others are small, and the first eigenvector is nearly
parallel to `v`.  Any `p` different points have to be spread out, and at every centre `p` points have to be at a computed distance other than zero. -/
theorem C160_opg {rd : ℝ → ℝ} (hr : Rounding rd) {d : Model.Rounded.Dot} (hd : ∀ p n q A B, FloatDot rd A B (d p n q A B))
    {lib : Model.Subspaces.Lib} (ha : ∀ (n : ℕ) (v : Fin n → ℝ), IsArgsort v (lib.argsort n v)) {ε η : ℝ}
    (he : ∀ A : Matrix (Fin m) (Fin m) ℝ, StableEigh ε A (lib.eigh m A).1 (lib.eigh m A).2) (hε : 0 ≤ ε)
    {lstsq : Model.Rounded.Lstsq} (hsol : ∀ r c A b, StableLstsq η A b (lstsq r c A b)) {argsort : (Fin M → ℝ) → (Fin M → Fin M)} (hs : ∀ v, IsArgsort v (argsort v))
    {randint : PyM S (Fin M)} (hrand : RandintOK randint) (hm : 0 < m) (hK : 0 < K) (hM : 0 < M) (X : Matrix (Fin M) (Fin m) ℝ) (f : Fin M → ℝ) {w : Fin M → ℝ} (hw : ∀ i, 0 < w i)
    {dist : Fin M → Fin M → ℝ} (hdist : ∀ ii, p ≤ (Finset.univ.filter fun k => dist ii k ≠ 0).card) {σ ξ φ ρ γ a κ L γ' Δ : ℝ} {v : Fin m → ℝ}
    (hγ : γ = (1 + η) * (1 + 1 / 2 ^ 53) ^ 2 - 1) (hσ : 0 < σ)
    (hcond : ∀ s : Fin p → Fin M, Function.Injective s → ∀ (b : ℝ) (z : Fin m → ℝ), σ * (|b| + ∑ j, |z j|) ≤ Real.sqrt (∑ k, (b + ∑ j, X (s k) j * z j) ^ 2))
    (hξ : 1 ≤ ξ) (hX : ∀ i j, |X i j| ≤ ξ) (hf : ∀ i, |f i| ≤ φ) (hρ : ∀ i, |a + ∑ j, X i j * v j - f i| ≤ ρ) (hsmall : Real.sqrt p * (γ * ξ) ≤ σ / 2)
    (hκ : κ = 2 * Real.sqrt p / σ * (ρ + γ * (ξ * (|a| + ∑ j, |v j|) + φ))) (hL : L = Real.sqrt (∑ j, v j ^ 2)) (hγ' : γ' = (1 + 1 / 2 ^ 53) ^ (K + 1) - 1)
    (hΔ : Δ = (1 + 1 / 2 ^ 53) * ((γ' + ε * (1 + γ')) * (L + κ) ^ 2 + κ * (2 * L + κ))) (world : S) :
    ∃ (e : Fin m → ℝ) (W : Matrix (Fin m) (Fin m) ℝ) (world' : S),
      (Model.Rounded.opg_subspace rd d argsort lstsq lib dist randint X f w p K).run world = (.ok ⟨m, e, W⟩, world') ∧ Antitone e ∧ (∀ j, 0 ≤ e j) ∧
      |e ⟨0, hm⟩ - L ^ 2| ≤ Δ + 1 / 2 ^ 53 * L ^ 2 ∧ (∀ j : Fin m, (j : ℕ) ≠ 0 → e j ≤ Δ) ∧
      ∀ z : Fin m → ℝ, ∑ i, z i * v i = 0 → e ⟨0, hm⟩ * |∑ i, z i * W i ⟨0, hm⟩| ≤ (Δ + ε * e ⟨0, hm⟩) * Real.sqrt (∑ i, z i ^ 2) := by
  have hlocal : ∀ ii, ∃ g, Model.Rounded.localModel rd argsort lstsq (dist ii) X f (w ii) p = .ok g ∧ ∑ j, |g j - v j| ≤ κ := fun ii => by
    have hlen : (Model.Rounded.neighbours argsort (dist ii) p).length = p := by
      unfold Model.Rounded.neighbours
      rw [List.length_take, List.length_map, min_eq_left]
      refine (hdist ii).trans (le_of_eq ?_)
      classical
      rw [← List.toFinset_card_of_nodup ((List.nodup_finRange M).filter _)]
      congr 1
      ext k
      simp
    have hex : ∃ g, Model.Rounded.localModel rd argsort lstsq (dist ii) X f (w ii) p = .ok g := by
      unfold Model.Rounded.localModel
      simp only [hlen, dif_pos]
      exact ⟨_, rfl⟩
    obtain ⟨g, hg⟩ := hex
    obtain ⟨s, hinj, H⟩ := C158_slope hr hs hsol (dist ii) X f (hw ii) hg
    exact ⟨g, hg, hκ ▸ H σ ξ φ ρ γ a v hγ hσ (hcond s hinj) hξ (fun k j => hX _ j) (fun k => hf _) (fun k => hρ _) hsmall⟩
  have hκ0 : 0 ≤ κ := by
    obtain ⟨g, -, h⟩ := hlocal ⟨0, hM⟩
    exact (Finset.sum_nonneg fun _ _ => abs_nonneg _).trans h
  obtain ⟨G, world', hloop, hG⟩ := localLoop_rows hrand K (fun g => ∑ j, |g j - v j| ≤ κ) hlocal world
  have hK' : (0 : ℝ) < K := by exact_mod_cast hK
  have hKn : Proofs.Near.Near 1 (rd (1 / (K : ℝ))) (1 / K) (1 / K) := by
    have := (Proofs.Near.refl (le_of_eq (abs_of_pos (by positivity : (0 : ℝ) < 1 / K)))).round hr
    simpa using this
  have hu : u = 1 / 2 ^ 53 := rfl
  have herr : |rd (1 / (K : ℝ)) - 1 / K| ≤ u * (1 / K) := by
    have := hKn.err
    rw [pow_one, add_sub_cancel_left] at this
    exact this
  have hu1 : u ≤ 1 := by rw [hu]; norm_num
  have hpos : 0 ≤ rd (1 / (K : ℝ)) := by
    have h1 := (abs_le.mp herr).1
    have h2 : u * (1 / K) ≤ 1 * (1 / (K : ℝ)) := mul_le_mul_of_nonneg_right hu1 (by positivity)
    linarith
  set s : ℝ := ∑ _k : Fin K, rd (1 / (K : ℝ)) with hsdef
  have hsK : s = K * rd (1 / (K : ℝ)) := by rw [hsdef, Finset.sum_const, Finset.card_univ, Fintype.card_fin, nsmul_eq_mul]
  have hs1 : |s - 1| ≤ u := by
    have e1 : s - 1 = K * (rd (1 / (K : ℝ)) - 1 / K) := by
      rw [hsK]
      field_simp
    rw [e1, abs_mul, abs_of_pos hK']
    refine (mul_le_mul_of_nonneg_left herr hK'.le).trans (le_of_eq ?_)
    field_simp
  have hs2 : s ≤ 1 + u := by linarith [(abs_le.mp hs1).2]
  obtain ⟨e, W, hrun, h1, h2, h3, h4, h5⟩ := near_rank_one hr hd ha he hε hm G (fun _ => rd (1 / (K : ℝ))) (fun _ => hpos) hG hκ0 hL hsdef hγ' rfl
  have hL0 : 0 ≤ L := hL ▸ Real.sqrt_nonneg _
  have hγ0 : 0 ≤ γ' := by
    have : γ' = (1 + u) ^ (K + 1) - 1 := hγ'
    rw [this]
    linarith [one_le_pow (K + 1)]
  set Δ' := s * ((γ' + ε * (1 + γ')) * (L + κ) ^ 2 + κ * (2 * L + κ)) with hΔ'
  have hΔΔ : Δ' ≤ Δ := by
    rw [hΔ', hΔ]
    exact mul_le_mul_of_nonneg_right hs2 (by positivity)
  refine ⟨e, W, world', ?_, h1, h2, ?_, fun j hj => (h4 j hj).trans hΔΔ, fun z hz => (h5 z hz).trans ?_⟩
  · unfold Model.Rounded.opg_subspace
    rw [PyM.run_bind_ok hloop, PyM.run_lift]
    exact congrArg (·, world') hrun
  · have e1 : e ⟨0, hm⟩ - L ^ 2 = (e ⟨0, hm⟩ - s * L ^ 2) + (s - 1) * L ^ 2 := by ring
    rw [e1]
    refine (abs_add_le _ _).trans (add_le_add (h3.trans hΔΔ) ?_)
    rw [abs_mul, abs_of_nonneg (sq_nonneg L)]
    exact mul_le_mul_of_nonneg_right hs1 (sq_nonneg L)
  · exact mul_le_mul_of_nonneg_right (by linarith) (Real.sqrt_nonneg _)

/-- The points -1, 0 and 1 with these values and two points in every model: all hypotheses hold, for any number of models. -/
example {rd : ℝ → ℝ} (hr : Rounding rd) {d : Model.Rounded.Dot} (hd : ∀ p n q A B, FloatDot rd A B (d p n q A B))
    {lib : Model.Subspaces.Lib} (ha : ∀ (n : ℕ) (v : Fin n → ℝ), IsArgsort v (lib.argsort n v))
    (he : ∀ A : Matrix (Fin 1) (Fin 1) ℝ, StableEigh (1 / 2 ^ 40) A (lib.eigh 1 A).1 (lib.eigh 1 A).2)
    {lstsq : Model.Rounded.Lstsq} (hsol : ∀ r c A b, StableLstsq (1 / 2 ^ 40) A b (lstsq r c A b)) {argsort : (Fin 3 → ℝ) → (Fin 3 → Fin 3)} (hs : ∀ v, IsArgsort v (argsort v))
    {randint : PyM S (Fin 3)} (hrand : RandintOK randint) (hK : 0 < K) (world : S) :
    ∃ e W world', (Model.Rounded.opg_subspace rd d argsort lstsq lib (fun ii k => ((k : ℝ) - ii) ^ 2) randint (Matrix.of ![![-1], ![0], ![1]] : Matrix (Fin 3) (Fin 1) ℝ)
      ![-1, 0, 1] (fun _ => 1 / 3) 2 K).run world = (.ok ⟨1, e, W⟩, world') := by
  obtain ⟨e, W, world', h, -⟩ := C160_opg (p := 2) (σ := 1 / 5) (ξ := 1) (φ := 1) (ρ := 0) (a := 0) (v := fun _ => 1) hr hd ha he (by positivity) hsol hs hrand one_pos hK
    (by norm_num) (Matrix.of ![![-1], ![0], ![1]] : Matrix (Fin 3) (Fin 1) ℝ) ![-1, 0, 1] (w := fun _ => 1 / 3) (fun _ => by norm_num) (dist := fun ii k => ((k : ℝ) - ii) ^ 2)
    (fun ii => by
      have : (Finset.univ.filter fun k : Fin 3 => ((k : ℝ) - ii) ^ 2 ≠ 0) = Finset.univ.erase ii := by
        ext k
        simp [sub_eq_zero, Fin.ext_iff]
      rw [this, Finset.card_erase_of_mem (Finset.mem_univ _)]
      simp)
    rfl (by norm_num) (fun s hs b z => (spread_three s hs b z)) le_rfl (fun i j => by fin_cases i <;> fin_cases j <;> simp) (fun i => by fin_cases i <;> simp)
    (fun i => by fin_cases i <;> simp) (by
      have h2 : Real.sqrt (2 : ℕ) ≤ 2 := by
        rw [Real.sqrt_le_left (by norm_num)]
        norm_num
      have h3 : (0 : ℝ) ≤ ((1 + 1 / 2 ^ 40) * (1 + 1 / 2 ^ 53) ^ 2 - 1) * 1 := by norm_num
      refine (mul_le_mul_of_nonneg_right h2 h3).trans ?_
      norm_num) rfl rfl rfl rfl world
  exact ⟨e, W, world', h⟩

end Props
