import Verif.Props.CubeError
import Verif.Props.OutputErrors
import Verif.Props.LocalAccuracy

/-!
# Property C143: functions of the active variables from inexact gradients, or from values alone
-/

open Py Model.Misc Model.Subspaces Model.Gradients Spec MeasureTheory ProbabilityTheory

namespace Props

variable {S : Type} {m n k M : ℕ}

/-! ## What is to be shown -/

/-- The two laws of the inputs that the package is written for. -/
inductive InputLaw
  | normal
  | cube

/-- Standard normal, or uniform on the cube. -/
noncomputable def InputLaw.law : InputLaw → (m : ℕ) → Measure (Fin m → ℝ)
  | .normal, m => Measure.pi fun _ => gaussianReal 0 1
  | .cube, m => cubeLaw m

/-- The constant between the derivatives in `k` of `m` directions and the error. -/
noncomputable def InputLaw.factor : InputLaw → ℕ → ℕ → ℝ
  | .normal, _, _ => 1
  | .cube, m, k => 2 ^ (k + 1) * m

/-- `df` is the continuous gradient of `f`; for normal inputs it grows no faster than a polynomial. -/
def InputLaw.Smooth : InputLaw → ((Fin m → ℝ) → ℝ) → ((Fin m → ℝ) → Fin m → ℝ) → Prop
  | .normal, f, df => Spec.Smooth f df
  | .cube, f, df => C1 f df

/-- Some measurable function of the active variables is within `B` of `f` in mean square. (The integral of a function that is not integrable is
zero by convention, hence the second condition.) -/
def WithinError (l : InputLaw) (f : (Fin m → ℝ) → ℝ) (V1 : Matrix (Fin m) (Fin n) ℝ) (B : ℝ) : Prop :=
  ∃ g : (Fin n → ℝ) → ℝ, Measurable g ∧ Integrable (fun x => (f x - g (V1.transpose.mulVec x)) ^ 2) (l.law m) ∧
    ∫ x, (f x - g (V1.transpose.mulVec x)) ^ 2 ∂l.law m ≤ B

/-! ## Both laws at once -/

theorem InputLaw.factor_nonneg (l : InputLaw) (m k : ℕ) : 0 ≤ l.factor m k := by
  cases l <;> simp only [InputLaw.factor] <;> positivity

theorem InputLaw.form {l : InputLaw} {f : (Fin m → ℝ) → ℝ} {df : (Fin m → ℝ) → Fin m → ℝ} (hf : l.Smooth f df) (v : Fin m → ℝ) :
    ∫ x, (∑ i, v i * df x i) ^ 2 ∂l.law m = ∑ i, ∑ j, v i * v j * ∫ x, df x i * df x j ∂l.law m := by
  cases l with
  | normal => exact meanOuter_form (Smooth.cont hf) (Smooth.growth hf) v
  | cube => exact cube_form (C1.cont hf) v

section split

variable {f : (Fin (n + k) → ℝ) → ℝ} {df : (Fin (n + k) → ℝ) → Fin (n + k) → ℝ} {s : Subspaces}
  {V1 : Matrix (Fin (n + k)) (Fin n) ℝ} {V2 : Matrix (Fin (n + k)) (Fin k) ℝ} {l : InputLaw}

theorem InputLaw.ridge (h : Split s V1 V2) (hf : l.Smooth f df) :
    WithinError l f V1 (l.factor (n + k) k * ∑ b, ∫ x, (∑ i, V2 i b * df x i) ^ 2 ∂l.law (n + k)) := by
  cases l with
  | normal => exact ⟨_, (condMean_measurable (Smooth.continuous hf)).measurable, C116_integrable h hf, (C116_ridge h hf).trans_eq (one_mul _).symm⟩
  | cube => exact ⟨_, sliceMean_measurable V1 V2 (C1.continuous hf), C142_integrable h hf, C142_ridge h hf⟩

/-! ## A subspace that is off -/

theorem spectral {A : Matrix (Fin m) (Fin m) ℝ} {e : Fin m → ℝ} {V : Matrix (Fin m) (Fin m) ℝ} (he : IsSortedEigh A e V) (v : Fin m → ℝ) :
    ∑ i, ∑ j, v i * v j * A i j = ∑ j, e j * (∑ i, V i j * v i) ^ 2 := by
  have h1 : A * V = V * Matrix.diagonal e := by
    ext r j
    have := congrFun (he.vec j) r
    rw [Matrix.mul_diagonal]
    exact this.trans (mul_comm _ _)
  have h2 : V.transpose * V = 1 := by
    ext a b
    rw [Matrix.mul_apply, Matrix.one_apply]
    exact he.orth a b
  have h3 : A = V * Matrix.diagonal e * V.transpose := by
    rw [← h1, Matrix.mul_assoc, mul_eq_one_comm.mp h2, Matrix.mul_one]
  have h4 : ∀ i j, A i j = ∑ a, e a * (V i a * V j a) := fun i j => by
    conv_lhs => rw [h3]
    rw [Matrix.mul_apply]
    exact Finset.sum_congr rfl fun a _ => by rw [Matrix.mul_diagonal, Matrix.transpose_apply]; ring
  simp only [h4, Finset.mul_sum]
  calc ∑ i, ∑ j, ∑ a, v i * v j * (e a * (V i a * V j a)) = ∑ i, ∑ a, ∑ j, v i * v j * (e a * (V i a * V j a)) :=
        Finset.sum_congr rfl fun i _ => Finset.sum_comm
    _ = ∑ a, ∑ i, ∑ j, v i * v j * (e a * (V i a * V j a)) := Finset.sum_comm
    _ = _ := Finset.sum_congr rfl fun a _ => by
        rw [pow_two, Finset.sum_mul_sum, Finset.mul_sum]
        refine Finset.sum_congr rfl fun i _ => ?_
        rw [Finset.mul_sum]
        exact Finset.sum_congr rfl fun j _ => by ring

theorem bessel (h : Split s V1 V2) (w : Fin (n + k) → ℝ) : ∑ b, (∑ i, w i * V2 i b) ^ 2 ≤ ∑ i, w i ^ 2 := by
  have h1 : (Np.hstack V1 V2) * (Np.hstack V1 V2).transpose = 1 := mul_eq_one_comm.mp h.orth
  have h2 : ∑ a, (∑ i, w i * Np.hstack V1 V2 i a) ^ 2 = ∑ i, w i ^ 2 := by
    have e : ∀ a, ∑ i, w i * Np.hstack V1 V2 i a = ((Np.hstack V1 V2).transpose.mulVec w) a := fun a => by
      simp only [Matrix.mulVec, dotProduct, Matrix.transpose_apply, mul_comm]
    have e2 : (Np.hstack V1 V2).transpose.mulVec w ⬝ᵥ (Np.hstack V1 V2).transpose.mulVec w = w ⬝ᵥ w := by
      rw [Matrix.dotProduct_mulVec, Matrix.vecMul_mulVec, ← Matrix.dotProduct_mulVec, Matrix.transpose_transpose, h1, Matrix.one_mulVec]
    simp only [e]
    simpa only [dotProduct, ← pow_two] using e2
  rw [← h2, Fin.sum_univ_add]
  simp only [Np.hstack_natAdd]
  exact le_add_of_nonneg_left (Finset.sum_nonneg fun _ _ => sq_nonneg _)

theorem leak_bound (h : Split s V1 V2) {V : Matrix (Fin (n + k)) (Fin (n + k)) ℝ} {δ : ℝ}
    (hδ : ∀ y ∈ leakage V (Np.hstack V1 V2) n, y ≤ δ) {j : Fin (n + k)} (hj : (j : ℕ) < n) : ∑ b, (∑ i, V i j * V2 i b) ^ 2 ≤ δ ^ 2 := by
  obtain ⟨N2, hN2⟩ : ∃ N2, N2 = ∑ b, (∑ i, V i j * V2 i b) ^ 2 := ⟨_, rfl⟩
  have hN0 : 0 ≤ N2 := hN2 ▸ Finset.sum_nonneg fun _ _ => sq_nonneg _
  rw [← hN2]
  rcases hN0.eq_or_lt with h0 | h0
  · rw [← h0]
    exact sq_nonneg _
  let u : Fin k → ℝ := fun b => (∑ i, V i j * V2 i b) / Real.sqrt N2
  have hs := Real.sqrt_pos.mpr h0
  have hu : ∑ b, u b ^ 2 = 1 := by
    simp only [u, div_pow, Real.sq_sqrt hN0]
    rw [← Finset.sum_div, ← hN2, div_self h0.ne']
  have h2 : V2.transpose * V2 = 1 := by
    ext a b
    rw [Matrix.mul_apply, Matrix.one_apply]
    exact h.orth22 a b
  have hlen : ∑ r, (V2.mulVec u r) ^ 2 ≤ 1 := by
    have e1 : V2.mulVec u ⬝ᵥ V2.mulVec u = u ⬝ᵥ u := by
      rw [Matrix.dotProduct_mulVec, Matrix.vecMul_mulVec, ← Matrix.dotProduct_mulVec, h2, Matrix.one_mulVec]
    simp only [dotProduct, ← pow_two] at e1
    rw [e1, hu]
  have hdot : ∀ w : Fin (n + k) → ℝ, ∑ r, w r * V2.mulVec u r = ∑ b, (∑ r, w r * V2 r b) * u b := fun w => by
    simp only [Matrix.mulVec, dotProduct, Finset.mul_sum, Finset.sum_mul]
    rw [Finset.sum_comm]
    exact Finset.sum_congr rfl fun b _ => Finset.sum_congr rfl fun r _ => by ring
  have hmem := hδ _ ⟨V2.mulVec u, hlen, fun i hi => by
    obtain ⟨a, rfl⟩ : ∃ a : Fin n, i = Fin.castAdd k a := ⟨⟨i, hi⟩, rfl⟩
    rw [hdot fun r => Np.hstack V1 V2 r (Fin.castAdd k a)]
    refine Finset.sum_eq_zero fun b _ => ?_
    simp only [Np.hstack_castAdd, h.orth12 a b, zero_mul], rfl⟩
  have hval : ∑ r, V r j * V2.mulVec u r = Real.sqrt N2 := by
    rw [hdot fun r => V r j]
    have : ∀ b, (∑ r, V r j * V2 r b) * u b = (∑ r, V r j * V2 r b) ^ 2 / Real.sqrt N2 := fun b => by simp only [u]; ring
    simp only [this]
    rw [← Finset.sum_div, ← hN2, Real.div_sqrt]
  have hle : N2 ≤ ∑ i : Fin (n + k), if (i : ℕ) < n then (∑ r, V r i * V2.mulVec u r) ^ 2 else 0 := by
    have := Finset.single_le_sum (f := fun i : Fin (n + k) => if (i : ℕ) < n then (∑ r, V r i * V2.mulVec u r) ^ 2 else 0)
      (fun i _ => by positivity) (Finset.mem_univ j)
    simp only [hj, if_true, hval, Real.sq_sqrt hN0] at this
    exact this
  have h5 := (Real.sqrt_le_sqrt hle).trans hmem
  calc N2 = Real.sqrt N2 ^ 2 := (Real.sq_sqrt hN0).symm
    _ ≤ δ ^ 2 := pow_le_pow_left₀ hs.le h5 2

/-- C143: the columns of `V` are the eigenvectors of the matrix `∫ ∇f ∇fᵀ`. If the directions left out are within `δ` of those that should be
left out, the error is at most the sum of the eigenvalues left out plus `δ²` times the sum of the others. -/
theorem C143_leakage (h : Split s V1 V2) (hf : l.Smooth f df) {e : Fin (n + k) → ℝ} {V : Matrix (Fin (n + k)) (Fin (n + k)) ℝ}
    (he : IsSortedEigh (Matrix.of fun i j => ∫ x, df x i * df x j ∂l.law (n + k)) e V) {δ : ℝ}
    (hδ : ∀ y ∈ leakage V (Np.hstack V1 V2) n, y ≤ δ) :
    WithinError l f V1 (l.factor (n + k) k * (∑ b, e (Fin.natAdd n b) + δ ^ 2 * ∑ a, e (Fin.castAdd k a))) := by
  obtain ⟨g, g1, g2, hg⟩ := InputLaw.ridge h hf
  refine ⟨g, g1, g2, hg.trans (mul_le_mul_of_nonneg_left ?_ (l.factor_nonneg _ _))⟩
  have e1 : ∀ b, ∫ x, (∑ i, V2 i b * df x i) ^ 2 ∂l.law (n + k) = ∑ j, e j * (∑ i, V i j * V2 i b) ^ 2 := fun b => by
    rw [InputLaw.form hf fun i => V2 i b, ← spectral he]
    rfl
  simp only [e1]
  rw [Finset.sum_comm]
  simp only [← Finset.mul_sum]
  rw [Fin.sum_univ_add, add_comm, Finset.mul_sum]
  refine add_le_add (Finset.sum_le_sum fun b _ => ?_) (Finset.sum_le_sum fun a _ => ?_)
  · refine mul_le_of_le_one_right (he.nonneg _) ((bessel h fun i => V i (Fin.natAdd n b)).trans_eq ?_)
    have := he.orth (Fin.natAdd n b) (Fin.natAdd n b)
    rw [if_pos rfl] at this
    simpa only [pow_two] using this
  · rw [mul_comm (δ ^ 2)]
    exact mul_le_mul_of_nonneg_left (leak_bound h hδ (by simp)) (he.nonneg _)

theorem InputLaw.of_form (h : Split s V1 V2) (hf : l.Smooth f df) {A : Matrix (Fin (n + k)) (Fin (n + k)) ℝ} {e : Fin (n + k) → ℝ} {η : ℝ}
    (he : IsSortedEigh A e (Np.hstack V1 V2))
    (hη : ∀ v : Fin (n + k) → ℝ, ∑ i, v i * v i = 1 →
      ∑ i, ∑ j, v i * v j * ∫ x, df x i * df x j ∂l.law (n + k) ≤ ∑ i, ∑ j, v i * v j * A i j + η) :
    WithinError l f V1 (l.factor (n + k) k * (∑ b, e (Fin.natAdd n b) + k * η)) := by
  obtain ⟨g, g1, g2, hg⟩ := InputLaw.ridge h hf
  refine ⟨g, g1, g2, hg.trans (mul_le_mul_of_nonneg_left ?_ (l.factor_nonneg _ _))⟩
  have hb : ∀ b, ∫ x, (∑ i, V2 i b * df x i) ^ 2 ∂l.law (n + k) ≤ e (Fin.natAdd n b) + η := fun b => by
    rw [InputLaw.form hf fun i => V2 i b, ← eig_form he (Fin.natAdd n b)]
    simp only [Np.hstack_natAdd]
    exact hη _ ((h.orth22 b b).trans (if_pos rfl))
  refine (Finset.sum_le_sum fun b _ => hb b).trans_eq ?_
  rw [Finset.sum_add_distrib, Finset.sum_const, Finset.card_univ, Fintype.card_fin, nsmul_eq_mul]

end split

/-! ## `compute` -/

variable {f : (Fin m → ℝ) → ℝ} {df : (Fin m → ℝ) → Fin m → ℝ} {l : InputLaw}

theorem law_compute {lib : Model.Subspaces.Lib} (hl : SubLibOK lib) (rng : Rng S) (hm : 2 ≤ m) (hM : 0 < M) (hf : l.Smooth f df)
    (X : Option (Matrix (Fin M) (Fin m) ℝ)) (y : Option (Fin M → ℝ)) (G : Option (Matrix (Fin M) (Fin m) ℝ)) (weights : Option (Fin M → ℝ))
    (h : X ≠ none ∨ G ≠ none) (sstype : String) (t : SS) (ht : SS.ofString sstype = some t) (w w1 : S × Subspaces)
    {A : Matrix (Fin m) (Fin m) ℝ} {e : Fin m → ℝ} {V : Matrix (Fin m) (Fin m) ℝ} (he : IsSortedEigh A e V)
    (hest : (Proofs.Bootstrap.estimate lib rng t X y G (weightsOf weights)).run w = (.ok ⟨m, e, V⟩, w1)) :
    ∃ (n : ℕ) (V1 : Matrix (Fin m) (Fin n) ℝ) (w' : S × Subspaces), 1 ≤ n ∧ n ≤ m ∧
      (compute lib rng (X.map fun X => .mat (NpMat.of X)) (y.map fun y => .mat (wcol y)) (G.map fun G => .mat (NpMat.of G)) (weights.map wcol)
        sstype "EVG" 0).run w = (.ok (), w') ∧
      w'.2.eigenvals = some (NpVec.of e) ∧ w'.2.W1 = some (NpMat.of V1) ∧
      ∀ η, (∀ v : Fin m → ℝ, ∑ i, v i * v i = 1 →
          ∑ i, ∑ j, v i * v j * ∫ x, df x i * df x j ∂l.law m ≤ ∑ i, ∑ j, v i * v j * A i j + η) →
        WithinError l f V1 (l.factor m (m - n) * ((∑ j : Fin m, if n ≤ (j : ℕ) then e j else 0) + (m - n : ℕ) * η)) := by
  obtain ⟨e', V', w', hp, hc, hsplit, he', hV', -, -, -⟩ := compute_ok hl rng hm hM X y G weights h sstype "EVG" t ht 0 w w1 ⟨m, e, V⟩ hest
    (fun h => absurd h (lt_irrefl _)) (.inl rfl)
  cases hp
  obtain ⟨n, k, V1, V2, hn, hs⟩ := split_of_isSplit hsplit fun m' V' h => by
    rw [hV'] at h
    cases h
    ext a b
    rw [Matrix.mul_apply, Matrix.one_apply]
    exact he.orth a b
  have hm' : m = n + k := by
    have := hV'.symm.trans hs.eig
    have := congrArg NpMat.rows (Option.some.inj this)
    exact this
  subst hm'
  have hVs : V = Np.hstack V1 V2 := by
    have := hV'.symm.trans hs.eig
    cases this
    rfl
  refine ⟨n, V1, w', hn, by omega, hc, he', hs.w1, fun η hη => ?_⟩
  have hsum : (∑ j : Fin (n + k), if n ≤ (j : ℕ) then e j else 0) = ∑ b, e (Fin.natAdd n b) := by
    rw [Fin.sum_univ_add]
    have h0 : ∀ i : Fin n, (if n ≤ ((Fin.castAdd k i : Fin (n + k)) : ℕ) then e (Fin.castAdd k i) else 0) = 0 := fun i => if_neg (by simp)
    rw [Finset.sum_eq_zero fun i _ => h0 i, zero_add]
    exact Finset.sum_congr rfl fun b _ => if_pos (by simp)
  rw [hsum, Nat.add_sub_cancel_left]
  exact InputLaw.of_form hs hf (hVs ▸ he) hη

theorem form_gradOuter (G : Matrix (Fin M) (Fin m) ℝ) (w : Fin M → ℝ) (v : Fin m → ℝ) :
    ∑ i, ∑ j, v i * v j * gradOuter G w i j = v ⬝ᵥ (gradOuter G w).mulVec v := by
  simp only [dotProduct, Matrix.mulVec, Finset.mul_sum]
  exact Finset.sum_congr rfl fun i _ => Finset.sum_congr rfl fun j _ => by ring

/-- Sampling error and errors of the gradients together. -/
theorem form_inexact {G G' : Matrix (Fin M) (Fin m) ℝ} {w : Fin M → ℝ} (hw : ∀ i, 0 ≤ w i) {L ε σ : ℝ} (hε : 0 ≤ ε)
    (hL : ∀ i, Real.sqrt (∑ k, G i k ^ 2) ≤ L) (hG : ∀ i, Real.sqrt (∑ k, (G i k - G' i k) ^ 2) ≤ ε) {C : Fin m → Fin m → ℝ}
    (hσ : ∀ i j, |∑ l, w l * (G l i * G l j) - C i j| ≤ σ) (v : Fin m → ℝ) (hv : ∑ i, v i * v i = 1) :
    ∑ i, ∑ j, v i * v j * C i j ≤ ∑ i, ∑ j, v i * v j * gradOuter G' w i j + (m * σ + ε * (2 * L + ε) * ∑ i, w i) := by
  have h1 := form_close (A := gradOuter G w) (B := C) hσ v hv
  have h2 := gradOuter_diff G G' w hw hε hL hG v v
  have hv' : v ⬝ᵥ v = 1 := hv
  rw [hv', Real.sqrt_one, mul_one, mul_one, Matrix.sub_mulVec, dotProduct_sub, ← form_gradOuter, ← form_gradOuter] at h2
  have := le_of_abs_le h2
  linarith

/-- C143: `compute` with gradients each off by at most `ε`: whatever dimension is chosen, there is a function of the active variables whose mean
square error is at most the constant times the sum of the computed eigenvalues left out, with for each of them `m σ` for the sample and
`ε (2 L + ε)` times the sum of the weights for the gradients. No gap between eigenvalues is needed. -/
theorem C143_inexact {lib : Model.Subspaces.Lib} (hl : SubLibOK lib) (rng : Rng S) (hm : 2 ≤ m) (hM : 0 < M) (hf : l.Smooth f df)
    (X : Matrix (Fin M) (Fin m) ℝ) (G : Matrix (Fin M) (Fin m) ℝ) (wt : Fin M → ℝ) (hw : ∀ i, 0 ≤ wt i) {L ε σ : ℝ} (hε : 0 ≤ ε)
    (hL : ∀ i, Real.sqrt (∑ j, df (X i) j ^ 2) ≤ L) (hG : ∀ i, Real.sqrt (∑ j, (df (X i) j - G i j) ^ 2) ≤ ε)
    (hσ : ∀ i j, |∑ a, wt a * (df (X a) i * df (X a) j) - ∫ x, df x i * df x j ∂l.law m| ≤ σ) (w : S × Subspaces) :
    ∃ (n : ℕ) (V1 : Matrix (Fin m) (Fin n) ℝ) (e : Fin m → ℝ) (w' : S × Subspaces), 1 ≤ n ∧ n ≤ m ∧
      (compute lib rng none none (some (.mat (NpMat.of G))) (some (NpMat.of (Matrix.of fun i (_ : Fin 1) => wt i))) "AS" "EVG" 0).run w
        = (.ok (), w') ∧
      w'.2.eigenvals = some (NpVec.of e) ∧ w'.2.W1 = some (NpMat.of V1) ∧
      WithinError l f V1 (l.factor m (m - n) * ((∑ j : Fin m, if n ≤ (j : ℕ) then e j else 0)
        + (m - n : ℕ) * (m * σ + ε * (2 * L + ε) * ∑ i, wt i))) := by
  obtain ⟨e, V, h1, h2⟩ := C34_posSemidef lib hl (by omega) _ (gradOuter_posSemidef G wt hw)
  obtain ⟨n, V1, w', a1, a2, a3, a4, a5, a6⟩ := law_compute hl rng hm hM hf none none (some G) (some wt) (.inr (by simp)) "AS" .AS rfl w w h2 (by
      change (active_subspace lib (.mat (NpMat.of G)) (wcol wt), w) = _
      rw [active_subspace_eq, h1])
  exact ⟨n, V1, e, w', a1, a2, a3, a4, a5, a6 _ (form_inexact (G := Matrix.of fun i => df (X i)) hw hε hL hG hσ)⟩

/-- C143: finite differences of a simulation that is off by `η`, then `compute`. -/
theorem C143_differences {lib : Model.Subspaces.Lib} (hl : SubLibOK lib) (rng : Rng S) (hm : 2 ≤ m) (hM : 0 < M) (hf : l.Smooth f df)
    (g : (m : ℕ) → (Fin m → ℝ) → ℝ) (X : Matrix (Fin M) (Fin m) ℝ) (wt : Fin M → ℝ) (hw : ∀ i, 0 ≤ wt i) {h K L η ε σ : ℝ} (hh : 0 < h)
    (hK : 0 ≤ K) (hη : 0 ≤ η) {D : Set (Fin m → ℝ)} (hF : SmoothOn D f df K) (hXD : ∀ i, X i ∈ D) (hXD' : ∀ i k, X i + h • Pi.single k 1 ∈ D)
    (hg : ∀ x ∈ D, |g m x - f x| ≤ η) (hL : ∀ i, Real.sqrt (∑ j, df (X i) j ^ 2) ≤ L) (hε : ε = Real.sqrt m * (K * h / 2 + 2 * η / h))
    (hσ : ∀ i j, |∑ a, wt a * (df (X a) i * df (X a) j) - ∫ x, df x i * df x j ∂l.law m| ≤ σ) (w : S × Subspaces) :
    ∃ (G : Matrix (Fin M) (Fin m) ℝ) (n : ℕ) (V1 : Matrix (Fin m) (Fin n) ℝ) (e : Fin m → ℝ) (w' : S × Subspaces), 1 ≤ n ∧ n ≤ m ∧
      (finite_difference_gradients (.mat (.of X)) (fun m x => pure (g m x)) h).run w = (.ok (.of G), w) ∧
      (compute lib rng none none (some (.mat (NpMat.of G))) (some (NpMat.of (Matrix.of fun i (_ : Fin 1) => wt i))) "AS" "EVG" 0).run w
        = (.ok (), w') ∧
      w'.2.eigenvals = some (NpVec.of e) ∧ w'.2.W1 = some (NpMat.of V1) ∧
      WithinError l f V1 (l.factor m (m - n) * ((∑ j : Fin m, if n ≤ (j : ℕ) then e j else 0)
        + (m - n : ℕ) * (m * σ + ε * (2 * L + ε) * ∑ i, wt i))) := by
  obtain ⟨G, -, -, -, -, r, hent, -⟩ := C141_differences hl hl (by omega) g X hh hK hη w hF hXD hXD' hg hL wt hw hε
  have hε0 : 0 ≤ ε := by rw [hε]; positivity
  have hrow : ∀ i, Real.sqrt (∑ k, (df (X i) k - G i k) ^ 2) ≤ ε := by
    intro i
    rw [Real.sqrt_le_left hε0, hε, mul_pow, Real.sq_sqrt (Nat.cast_nonneg m)]
    calc ∑ k, (df (X i) k - G i k) ^ 2 ≤ ∑ _k : Fin m, (K * h / 2 + 2 * η / h) ^ 2 := Finset.sum_le_sum fun k _ => by
          rw [← sq_abs]
          exact pow_le_pow_left₀ (abs_nonneg _) (hent i k) 2
      _ = _ := by simp
  obtain ⟨n, V1, e, w', a1, a2, a3, a4, a5, a6⟩ := C143_inexact hl rng hm hM hf X G wt hw hε0 hL hrow hσ w
  exact ⟨G, n, V1, e, w', a1, a2, r, a3, a4, a5, a6⟩

/-- C143: `compute` from values alone, with local linear models (`OPG`): the values are off by at most `η`, and `σ` is the error of the
centres that were drawn in the matrix `∫ ∇f ∇fᵀ`. -/
theorem C143_values {lib : Model.Subspaces.Lib} (hl : SubLibOK lib) (rng : Rng S) (hm : 2 ≤ m) (hf : l.Smooth f df)
    {X : Matrix (Fin M) (Fin m) ℝ} (hX : Function.Injective fun i => X i) (hM : ⌊(1.7 : ℝ) * m⌋₊ < M) {h κ K η L ε : ℝ} (hh : 0 < h)
    (hκ : 0 < κ) (hK : 0 ≤ K) (hd : DenseSample X ⌊(1.7 : ℝ) * m⌋₊ h) (hs : SpreadSample X ⌊(1.7 : ℝ) * m⌋₊ h κ)
    {D : Set (Fin m → ℝ)} (hF : SmoothOn D f df K) (hXD : ∀ i, X i ∈ D) (hL : ∀ i, Real.sqrt (∑ j, df (X i) j ^ 2) ≤ L) {y : Fin M → ℝ}
    (hy : ∀ i, |y i - f (X i)| ≤ η) (wt : Fin M → ℝ) (hw : ∀ i, 0 < wt i) (hε : ε = (K * h / 2 + η / h) / κ) (w : S × Subspaces) :
    ∃ (c : Fin (numModels M m) → Fin M) (n : ℕ) (V1 : Matrix (Fin m) (Fin n) ℝ) (e : Fin m → ℝ) (w' : S × Subspaces), 1 ≤ n ∧ n ≤ m ∧
      (compute lib rng (some (.mat (NpMat.of X))) (some (.mat (NpMat.of (Matrix.of fun i (_ : Fin 1) => y i)))) none
        (some (NpMat.of (Matrix.of fun i (_ : Fin 1) => wt i))) "OPG" "EVG" 0).run w = (.ok (), w') ∧
      w'.2.eigenvals = some (NpVec.of e) ∧ w'.2.W1 = some (NpMat.of V1) ∧
      ∀ σ, (∀ i j, |∑ a, 1 / (numModels M m : ℝ) * (df (X (c a)) i * df (X (c a)) j) - ∫ x, df x i * df x j ∂l.law m| ≤ σ) →
        WithinError l f V1 (l.factor m (m - n) * ((∑ j : Fin m, if n ≤ (j : ℕ) then e j else 0) + (m - n : ℕ) * (m * σ + ε * (2 * L + ε)))) := by
  obtain ⟨hp, heq⟩ := default_p hm hM lib.grad (Model.Subspaces.randint rng M : PyM (S × Subspaces) (Fin M)) X y (some wt)
  obtain ⟨G, u1, c, h1, h2⟩ := C140_gradients (libOK_grad hl) (randintOK rng (by omega)) hX hp hM hh hκ hK hd hs hF hXD hy (some wt)
    (fun v hv i => by rw [← Option.some.inj hv]; exact hw i) w
  have hη : 0 ≤ η := (abs_nonneg _).trans (hy ⟨0, by omega⟩)
  have hε0 : 0 ≤ ε := by rw [hε]; positivity
  have hk : (numModels M m : ℝ) ≠ 0 := by exact_mod_cast numModels_pos hm (by omega)
  have hq : ∀ _i : Fin (numModels M m), 0 ≤ 1 / (numModels M m : ℝ) := fun _ => by positivity
  obtain ⟨e, V, h3, h4⟩ := C34_posSemidef lib hl (by omega) _ (gradOuter_posSemidef G (fun _ => 1 / (numModels M m : ℝ)) hq)
  have hest : (Proofs.Bootstrap.estimate lib rng .OPG (some X) (some y) none wt : PyM (S × Subspaces) EigPair).run w = (.ok ⟨m, e, V⟩, u1) := by
    change (Model.Subspaces.opg_subspace lib rng (.mat (NpMat.of X)) (.mat (wcol y)) (wcol wt)).run w = _
    rw [opg_eq, PyM.run_bind_ok ((congrArg (fun x => PyM.run x w) heq).trans h1), active_subspace_eq, h3]
    rfl
  have hsum : ∑ _i : Fin (numModels M m), 1 / (numModels M m : ℝ) = 1 := by
    rw [Finset.sum_const, Finset.card_univ, Fintype.card_fin, nsmul_eq_mul]
    field_simp
  obtain ⟨n, V1, w', a1, a2, a3, a4, a5, a6⟩ := law_compute hl rng hm (by omega) hf (some X) (some y) none (some wt) (.inl (by simp)) "OPG" .OPG rfl
    w u1 h4 hest
  refine ⟨c, n, V1, e, w', a1, a2, a3, a4, a5, fun σ hσ => a6 _ ?_⟩
  have := form_inexact (G := Matrix.of fun a => df (X (c a))) (G' := G) (L := L) (ε := ε) hq hε0 (fun i => hL (c i))
    (fun i => (h2 i).trans_eq hε.symm) hσ
  rw [hsum, mul_one] at this
  exact this

/-! ## The hypotheses can be met -/

/-- C143: both laws accept the polynomial `x² + y`. -/
example (l : InputLaw) : l.Smooth (fun x => MvPolynomial.eval x sampleP) fun x i => MvPolynomial.eval x (MvPolynomial.pderiv i sampleP) := by
  cases l
  · exact poly_smooth _
  · exact poly_C1 _

/-- C143: for `x² + y` with standard normal inputs and the directions turned by an angle of sine `3/5`, no unit vector orthogonal to the active
direction has more than `3/5` along the first eigenvector. -/
example : ∀ y ∈ leakage (1 : Matrix (Fin (1 + 1)) (Fin (1 + 1)) ℝ)
    (Np.hstack (Matrix.of fun (i : Fin (1 + 1)) (_ : Fin 1) => if i = 0 then (4 / 5 : ℝ) else 3 / 5)
      (Matrix.of fun (i : Fin (1 + 1)) (_ : Fin 1) => if i = 0 then (-3 / 5 : ℝ) else 4 / 5)) 1, y ≤ 3 / 5 := by
  have two : ∀ g : Fin (1 + 1) → ℝ, ∑ x, g x = g 0 + g 1 := fun g => Fin.sum_univ_two g
  rintro y ⟨v, hv, ho, rfl⟩
  have h0 := ho 0 (by simp)
  have e0 : ∀ r : Fin (1 + 1), Np.hstack (Matrix.of fun (i : Fin (1 + 1)) (_ : Fin 1) => if i = 0 then (4 / 5 : ℝ) else 3 / 5)
      (Matrix.of fun (i : Fin (1 + 1)) (_ : Fin 1) => if i = 0 then (-3 / 5 : ℝ) else 4 / 5) r 0 = if r = 0 then 4 / 5 else 3 / 5 := fun r => rfl
  simp only [e0] at h0
  rw [Real.sqrt_le_left (by norm_num)]
  clear ho e0
  simp only [two, Matrix.one_apply] at *
  norm_num at *
  have : v 1 = -(4 / 3) * v 0 := by linarith
  rw [this] at hv
  nlinarith

/-- C143: the corners of a square for `x² + y` and values off by `1/100`: `f` is smooth, the sample dense and spread. -/
example : SmoothOn Set.univ (fun x : Fin (1 + 1) → ℝ => MvPolynomial.eval x sampleP)
    (fun x i => MvPolynomial.eval x (MvPolynomial.pderiv i sampleP)) 2 ∧ ⌊(1.7 : ℝ) * (2 : ℕ)⌋₊ = 3 ∧
    DenseSample (!![0, 0; 1, 0; 0, 1; 1, 1] : Matrix (Fin 4) (Fin 2) ℝ) 3 2 ∧
    SpreadSample (!![0, 0; 1, 0; 0, 1; 1, 1] : Matrix (Fin 4) (Fin 2) ℝ) 3 2 (1 / 10) := by
  refine ⟨⟨convex_univ, fun x _ => (poly_smooth sampleP).deriv x, fun x _ y _ => ?_⟩, ?_, square_sample.2⟩
  · have two : ∀ g : Fin (1 + 1) → ℝ, ∑ x, g x = g 0 + g 1 := fun g => Fin.sum_univ_two g
    simp only [sampleP_grad, two]
    norm_num
    have : (2 * y 0 - 2 * x 0) ^ 2 ≤ 2 ^ 2 * ((y 0 - x 0) ^ 2 + (y 1 - x 1) ^ 2) := by nlinarith [sq_nonneg (y 1 - x 1)]
    calc Real.sqrt ((2 * y 0 - 2 * x 0) ^ 2)
      _ ≤ Real.sqrt (2 ^ 2 * ((y 0 - x 0) ^ 2 + (y 1 - x 1) ^ 2)) := Real.sqrt_le_sqrt this
      _ = _ := by rw [Real.sqrt_mul (by norm_num), Real.sqrt_sq (by norm_num)]
  · rw [Nat.floor_eq_iff (by norm_num)]
    norm_num

end Props
