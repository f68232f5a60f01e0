import Mathlib.Algebra.MvPolynomial.Funext
import Mathlib.MeasureTheory.Integral.Pi
import Mathlib.MeasureTheory.Constructions.Pi
import Verif.Props.Regression
import Verif.Props.PolyApprox
import Verif.Proofs.HermitePoly
import Verif.Proofs.Index
import Verif.Spec.White

/-!
# Property C37: the subspace of a global quadratic model
-/

open Py Model.Subspaces Model.Misc Spec Matrix Proofs.Eigh MvPolynomial Proofs.PolyApprox Proofs.PolyTrain MeasureTheory

namespace Props

variable {M m : ℕ}

/-! ## The gradient of a quadratic -/

theorem hess_comm (P : MvPolynomial (Fin m) ℝ) (k l : Fin m) :
    eval 0 (pderiv k (pderiv l P)) = eval 0 (pderiv l (pderiv k P)) := by
  rw [hess_zero, hess_zero, pair_comm]
  by_cases h : k = l
  · subst h; rfl
  · rw [if_neg h, if_neg (Ne.symm h)]

theorem grad_two (P : MvPolynomial (Fin m) ℝ) (hP : P.totalDegree ≤ 2) (x : Fin m → ℝ) (k : Fin m) :
    eval x (pderiv k P) = eval 0 (pderiv k P) + ∑ l, eval 0 (pderiv k (pderiv l P)) * x l := by
  have hQ : P = C (eval 0 P) + ∑ k, C (eval 0 (pderiv k P)) * X k
      + C (1 / 2) * ∑ k, ∑ l, C (eval 0 (pderiv k (pderiv l P))) * X k * X l := by
    refine MvPolynomial.funext fun y => ?_
    rw [taylor_two P hP y]
    simp [map_sum]
  have hd : eval x (pderiv k P) = eval 0 (pderiv k P) + 1 / 2 * (∑ l, eval 0 (pderiv k (pderiv l P)) * x l
      + ∑ l, eval 0 (pderiv l (pderiv k P)) * x l) := by
    conv_lhs => rw [hQ]
    simp only [map_add, map_sum, Derivation.leibniz, pderiv_C, pderiv_X, smul_eq_mul, eval_C, eval_X, map_mul, map_zero,
      mul_zero, zero_add, add_zero, Pi.single_apply, Finset.sum_add_distrib]
    congr 1
    · rw [Finset.sum_eq_single k]
      · simp
      · intro b _ hb; simp [hb]
      · intro h; exact absurd (Finset.mem_univ _) h
    · congr 1
      rw [add_comm]
      congr 1
      · rw [Finset.sum_eq_single k]
        · refine Finset.sum_congr rfl fun l _ => ?_
          simp [mul_comm]
        · intro b _ hb
          refine Finset.sum_eq_zero fun l _ => ?_
          simp [hb]
        · intro h; exact absurd (Finset.mem_univ _) h
      · refine Finset.sum_congr rfl fun j _ => ?_
        rw [Finset.sum_eq_single k]
        · simp
        · intro b _ hb; simp [hb]
        · intro h; exact absurd (Finset.mem_univ _) h
  rw [hd]
  have : ∑ l, eval 0 (pderiv l (pderiv k P)) * x l = ∑ l, eval 0 (pderiv k (pderiv l P)) * x l :=
    Finset.sum_congr rfl fun l _ => by rw [hess_comm]
  rw [this]
  ring

/-! ## Second moments of the gradient -/

theorem integral_grad (P : MvPolynomial (Fin m) ℝ) (hP : P.totalDegree ≤ 2) {μ : Measure (Fin m → ℝ)} {γ : ℝ} (h : IsWhite μ γ)
    (k l : Fin m) :
    ∫ x, eval x (pderiv k P) * eval x (pderiv l P) ∂μ
      = eval 0 (pderiv k P) * eval 0 (pderiv l P)
        + γ * ∑ r, eval 0 (pderiv k (pderiv r P)) * eval 0 (pderiv l (pderiv r P)) := by
  have := h.prob
  set a := eval 0 (pderiv k P)
  set b := eval 0 (pderiv l P)
  obtain ⟨H, hH⟩ : ∃ H : Fin m → Fin m → ℝ, ∀ k r, eval 0 (pderiv k (pderiv r P)) = H k r := ⟨_, fun _ _ => rfl⟩
  have hf : (fun x => eval x (pderiv k P) * eval x (pderiv l P))
      = fun x : Fin m → ℝ => (a + ∑ r, H k r * x r) * (b + ∑ s, H l s * x s) := by
    funext x
    rw [grad_two P hP x k, grad_two P hP x l]
    simp only [hH]
    rfl
  rw [hf]
  simp only [hH]
  have hx : ∀ x : Fin m → ℝ, (a + ∑ r, H k r * x r) * (b + ∑ s, H l s * x s)
      = a * b + (∑ s, a * H l s * x s + ∑ r, b * H k r * x r) + ∑ r, ∑ s, H k r * H l s * (x r * x s) := by
    intro x
    rw [add_mul, mul_add, mul_add, Finset.sum_mul_sum, Finset.mul_sum, Finset.sum_mul]
    have h1 : ∑ i, a * (H l i * x i) = ∑ s, a * H l s * x s := Finset.sum_congr rfl fun _ _ => by ring
    have h2 : ∑ i, H k i * x i * b = ∑ s, b * H k s * x s := Finset.sum_congr rfl fun _ _ => by ring
    have h3 : ∑ i, ∑ j, H k i * x i * (H l j * x j) = ∑ r, ∑ s, H k r * H l s * (x r * x s) :=
      Finset.sum_congr rfl fun _ _ => Finset.sum_congr rfl fun _ _ => by ring
    rw [h1, h2, h3]
    ring
  simp only [hx]
  have i1 : ∀ c : Fin m → ℝ, Integrable (fun x : Fin m → ℝ => ∑ s, c s * x s) μ := fun c =>
    integrable_finsetSum _ fun s _ => (h.int1 s).const_mul _
  have v1 : ∀ c : Fin m → ℝ, ∫ x : Fin m → ℝ, ∑ s, c s * x s ∂μ = 0 := by
    intro c
    rw [integral_finsetSum _ fun s _ => (h.int1 s).const_mul _]
    exact Finset.sum_eq_zero fun s _ => by rw [integral_const_mul, h.mean, mul_zero]
  have i2 : ∀ r, Integrable (fun x : Fin m → ℝ => ∑ s, H k r * H l s * (x r * x s)) μ := fun r =>
    integrable_finsetSum _ fun s _ => (h.int2 r s).const_mul _
  have i3 : Integrable (fun x : Fin m → ℝ => ∑ s, a * H l s * x s + ∑ r, b * H k r * x r) μ := (i1 _).add (i1 _)
  have i4 : Integrable (fun x : Fin m → ℝ => a * b + (∑ s, a * H l s * x s + ∑ r, b * H k r * x r)) μ :=
    (integrable_const _).add i3
  rw [integral_add i4 (integrable_finsetSum _ fun r _ => i2 r), integral_add (integrable_const _) i3,
    integral_add (i1 _) (i1 _), v1, v1,
    integral_finsetSum _ fun r _ => i2 r]
  rw [integral_const, probReal_univ, one_smul, add_zero, add_zero, Finset.mul_sum]
  congr 1
  refine Finset.sum_congr rfl fun r _ => ?_
  rw [integral_finsetSum _ fun s _ => (h.int2 r s).const_mul _, Finset.sum_eq_single r]
  · rw [integral_const_mul, h.moment, if_pos rfl]; ring
  · intro s _ hs
    rw [integral_const_mul, h.moment, if_neg (Ne.symm hs), mul_zero]
  · intro h; exact absurd (Finset.mem_univ _) h

/-! ## The function -/

theorem gamma_of (X : Matrix (Fin M) (Fin m) ℝ) (hM : 0 < M) (hm : 0 < m) :
    ((∃ i j, 1 < X i j) ∧ gamma (NpMat.of X) = .ok 1) ∨ ((∀ i j, X i j ≤ 1) ∧ gamma (NpMat.of X) = .ok (1 / 3)) := by
  obtain ⟨i, hi, hmax⟩ := Np.amax_ok (Np.ravel X) (Nat.mul_pos hM hm)
  have hent : ∀ a b, X a b ≤ Np.ravel X i := fun a b => by
    rw [← Proofs.Index.ravel_finProd X a b]
    exact hmax _
  unfold gamma
  erw [hi]
  by_cases h : Np.ravel X i > 1
  · exact .inl ⟨⟨_, _, h⟩, if_pos h⟩
  · exact .inr ⟨fun a b => (hent a b).trans (not_lt.mp h), if_neg h⟩

/-- The weights `weights` of the model: `train` scales row `i` of the system by `w i`. -/
theorem qphd_eq (lib : Model.Subspaces.Lib) (hl : LstsqOK lib.surf) (hm : 1 ≤ m) (X : Matrix (Fin M) (Fin m) ℝ) (f w : Fin M → ℝ)
    (hM : (2 + m).choose m ≤ M) {γ : ℝ} (hγ : gamma (NpMat.of X) = .ok γ) :
    ∃ P : MvPolynomial (Fin m) ℝ, P.totalDegree ≤ 2 ∧
      (∀ q : MvPolynomial (Fin m) ℝ, q.totalDegree ≤ 2 →
        ∑ i, (w i * (eval (X i) P - f i)) ^ 2 ≤ ∑ i, (w i * (eval (X i) q - f i)) ^ 2) ∧
      qphd_subspace lib (.mat (NpMat.of X)) (.mat (wcol f)) (wcol w)
        = sorted_eigh lib (NpMat.of (Matrix.of fun k l => eval 0 (pderiv k P) * eval 0 (pderiv l P)
          + γ * ∑ r, eval 0 (pderiv k (pderiv r P)) * eval 0 (pderiv l (pderiv r P)))) := by
  obtain ⟨w', P, hrun, hdeg, -, -, -, -, hg, hH, hmin, -⟩ :=
    fit_ok lib.surf hl { N := 2 } hm (by norm_num) X f (some w) hM
  refine ⟨P, hdeg, fun q hq => by simpa using hmin q hq, ?_⟩
  have hH := hH (by norm_num)
  have hv : toVec (wcol w) = .ok (NpVec.of w) := rfl
  unfold qphd_subspace
  rw [process_col]
  change (do
    let gamma ← gamma (NpMat.of X)
    let weights ← toVec (wcol w)
    match (Model.ResponseSurfaces.PolyApprox.train lib.surf (.mat (NpMat.of X)) (.mat (wcol f)) (some weights)).run { N := 2 } with
    | (.error e, _) => .error e
    | (.ok _, pr) =>
      match pr.g, pr.H with
      | some b, some A => do
        let AA ← NpMat.dot A A.transpose
        let C ← NpMat.zipB (· + ·) ⟨b.n, b.n, Matrix.of fun i j => b.val i * b.val j⟩ (AA.map (gamma * ·))
        sorted_eigh lib C
      | _, _ => .error .attributeError) = _
  rw [hγ, hv]
  simp only [bind, Except.bind]
  erw [hrun]
  simp only
  rw [hg, hH]
  simp only [NpMat.transpose_of]
  rw [dot_of]
  simp only [NpMat.map_of]
  have hz := NpMat.zipB_same (· + ·) (Matrix.of fun i j => eval 0 (pderiv i P) * eval 0 (pderiv j P))
    (Matrix.of fun i j => γ * ((Matrix.of fun k l => eval 0 (pderiv k (pderiv l P)))
      * (Matrix.of fun k l => eval 0 (pderiv k (pderiv l P)))ᵀ : Matrix (Fin m) (Fin m) ℝ) i j)
  erw [hz]
  simp only
  congr 2

theorem qphd_posSemidef (g : Fin m → ℝ) (H : Matrix (Fin m) (Fin m) ℝ) {γ : ℝ} (hγ : 0 ≤ γ) :
    (Matrix.of fun k l => g k * g l + γ * ∑ r, H k r * H l r : Matrix (Fin m) (Fin m) ℝ).PosSemidef := by
  have h1 := rank_one_posSemidef g
  have h2 := (Matrix.posSemidef_self_mul_conjTranspose H).smul hγ
  have h3 := h1.add h2
  convert h3 using 1
  ext k l
  simp [Matrix.mul_apply]

open Classical in
/-- The second moment that belongs to a sample: 1 (standard Gaussian) when a coordinate lies outside `[-1, 1]`, otherwise 1/3
(uniform on the cube). -/
noncomputable def sampleMoment (X : Matrix (Fin M) (Fin m) ℝ) : ℝ := if ∃ i j, 1 < |X i j| then 1 else 1 / 3

/-- C37, the part that holds: unless the sample has a coordinate below -1 and none above 1, the code decomposes the average
outer product of the gradient of the fitted quadratic. -/
theorem C37_qphd_partial (lib : Model.Subspaces.Lib) (hl : SubLibOK lib) (hm : 0 < m) (X : Matrix (Fin M) (Fin m) ℝ)
    (f w : Fin M → ℝ) (hM : (2 + m).choose m ≤ M) (hX : (∃ i j, X i j < -1) → ∃ i j, 1 < X i j) :
    ∃ (e : Fin m → ℝ) (W : Matrix (Fin m) (Fin m) ℝ) (P : MvPolynomial (Fin m) ℝ),
      qphd_subspace lib (.mat (NpMat.of X)) (.mat (wcol f)) (wcol w) = .ok ⟨m, e, W⟩ ∧ P.totalDegree ≤ 2 ∧
      (∀ q : MvPolynomial (Fin m) ℝ, q.totalDegree ≤ 2 →
        ∑ i, (w i * (eval (X i) P - f i)) ^ 2 ≤ ∑ i, (w i * (eval (X i) q - f i)) ^ 2) ∧
      ∀ μ : Measure (Fin m → ℝ), IsWhite μ (sampleMoment X) →
        IsSortedEigh (Matrix.of fun k l => ∫ x, eval x (pderiv k P) * eval x (pderiv l P) ∂μ) e W := by
  have hM0 : 0 < M := lt_of_lt_of_le (Nat.choose_pos (by omega)) hM
  have hγ : gamma (NpMat.of X) = .ok (sampleMoment X) := by
    rcases gamma_of X hM0 hm with ⟨⟨i, j, h⟩, h2⟩ | ⟨h, h2⟩
    · rw [h2, sampleMoment, if_pos ⟨i, j, lt_of_lt_of_le h (le_abs_self _)⟩]
    · rw [h2, sampleMoment, if_neg]
      rintro ⟨i, j, hij⟩
      rcases lt_abs.mp hij with h3 | h3
      · exact absurd (h i j) (not_le.mpr h3)
      · obtain ⟨a, b, hab⟩ := hX ⟨i, j, by linarith⟩
        exact absurd (h a b) (not_le.mpr hab)
  have hγ0 : 0 ≤ sampleMoment X := by
    unfold sampleMoment
    split_ifs <;> norm_num
  obtain ⟨P, hdeg, hmin, heq⟩ := qphd_eq lib hl.lstsq hm X f w hM hγ
  obtain ⟨e, W, h, hs⟩ := C34_posSemidef lib hl hm _ (qphd_posSemidef (fun k => eval 0 (pderiv k P))
    (Matrix.of fun k r => eval 0 (pderiv k (pderiv r P))) hγ0)
  refine ⟨e, W, P, heq.trans h, hdeg, hmin, fun μ hμ => ?_⟩
  simp only [integral_grad P hdeg hμ]
  exact hs

/-- C37 fails: `f = x^2` at -2, 0 and 1.  The sample leaves `[-1, 1]`, the fitted quadratic is `x^2` and its average squared
derivative is 4, but the code returns 4/3. -/
theorem C37_fails (lib : Model.Subspaces.Lib) (hl : SubLibOK lib) :
    sampleMoment (Matrix.of ![![-2], ![0], ![1]] : Matrix (Fin 3) (Fin 1) ℝ) = 1 ∧
    ∃ (e : Fin 1 → ℝ) (W : Matrix (Fin 1) (Fin 1) ℝ),
      qphd_subspace lib (.mat (NpMat.of (Matrix.of ![![-2], ![0], ![1]]))) (.mat (wcol ![4, 0, 1]))
        (wcol fun _ : Fin 3 => 1 / 3) = .ok ⟨1, e, W⟩ ∧ e 0 = 4 / 3 ∧
      ∀ P : MvPolynomial (Fin 1) ℝ, P.totalDegree ≤ 2 →
        (∀ i, eval ((Matrix.of ![![-2], ![0], ![1]] : Matrix (Fin 3) (Fin 1) ℝ) i) P = (![4, 0, 1] : Fin 3 → ℝ) i) →
        ∀ μ : Measure (Fin 1 → ℝ), IsWhite μ 1 →
        ∫ x, eval x (pderiv 0 P) * eval x (pderiv 0 P) ∂μ = 4 := by
  have e0 : (Matrix.of ![![-2], ![0], ![1]] : Matrix (Fin 3) (Fin 1) ℝ) 0 = ![-2] := rfl
  have e1 : (Matrix.of ![![-2], ![0], ![1]] : Matrix (Fin 3) (Fin 1) ℝ) 1 = ![0] := rfl
  have e2 : (Matrix.of ![![-2], ![0], ![1]] : Matrix (Fin 3) (Fin 1) ℝ) 2 = ![1] := rfl
  have key : ∀ P : MvPolynomial (Fin 1) ℝ, P.totalDegree ≤ 2 →
      (∀ i, eval ((Matrix.of ![![-2], ![0], ![1]] : Matrix (Fin 3) (Fin 1) ℝ) i) P = (![4, 0, 1] : Fin 3 → ℝ) i) →
      eval 0 (pderiv 0 P) = 0 ∧ eval 0 (pderiv 0 (pderiv 0 P)) = 2 := by
    intro P hP h
    have h0 := h 0
    have h1 := h 1
    have h2 := h 2
    rw [e0, taylor_two P hP] at h0
    rw [e1, taylor_two P hP] at h1
    rw [e2, taylor_two P hP] at h2
    simp only [Fin.sum_univ_one, Matrix.cons_val_zero, Matrix.cons_val_one, Matrix.cons_val] at h0 h1 h2
    constructor <;> linarith
  refine ⟨?_, ?_⟩
  · unfold sampleMoment
    refine if_pos ⟨0, 0, ?_⟩
    rw [e0]
    norm_num
  have hγ : gamma (NpMat.of (Matrix.of ![![-2], ![0], ![1]] : Matrix (Fin 3) (Fin 1) ℝ)) = .ok (1 / 3) := by
    rcases gamma_of (Matrix.of ![![-2], ![0], ![1]] : Matrix (Fin 3) (Fin 1) ℝ) (by norm_num) (by norm_num)
      with ⟨⟨i, j, h⟩, -⟩ | ⟨-, h⟩
    · exfalso
      rw [Fin.fin_one_eq_zero j] at h
      fin_cases i
      · change 1 < (-2 : ℝ) at h; norm_num at h
      · change 1 < (0 : ℝ) at h; norm_num at h
      · change 1 < (1 : ℝ) at h; norm_num at h
    · exact h
  obtain ⟨P, hdeg, hmin, heq⟩ := qphd_eq lib hl.lstsq le_rfl (Matrix.of ![![-2], ![0], ![1]] : Matrix (Fin 3) (Fin 1) ℝ)
    ![4, 0, 1] (fun _ => 1 / 3) (by decide) hγ
  have hfit : ∀ i, eval ((Matrix.of ![![-2], ![0], ![1]] : Matrix (Fin 3) (Fin 1) ℝ) i) P = (![4, 0, 1] : Fin 3 → ℝ) i := by
    have h1 := hmin (X 0 ^ 2) (by
      refine (totalDegree_pow _ _).trans ?_
      rw [totalDegree_X])
    simp only [map_pow, eval_X] at h1
    rw [Fin.sum_univ_three (fun i => (1 / 3 * ((Matrix.of ![![-2], ![0], ![1]] : Matrix (Fin 3) (Fin 1) ℝ) i 0 ^ 2
      - (![4, 0, 1] : Fin 3 → ℝ) i)) ^ 2), e0, e1, e2] at h1
    norm_num [Matrix.cons_val_zero, Matrix.cons_val_one] at h1
    intro i
    have h2 : ∀ j ∈ Finset.univ, 0 ≤ (1 / 3 * (eval ((Matrix.of ![![-2], ![0], ![1]] : Matrix (Fin 3) (Fin 1) ℝ) j) P
      - (![4, 0, 1] : Fin 3 → ℝ) j)) ^ 2 := fun j _ => sq_nonneg _
    have h3 := (Finset.sum_eq_zero_iff_of_nonneg h2).mp (le_antisymm (by simpa using h1) (Finset.sum_nonneg h2)) i
      (Finset.mem_univ i)
    rw [pow_eq_zero_iff (by norm_num)] at h3
    linarith
  obtain ⟨e, W, h, hs⟩ := C34_posSemidef lib hl (by norm_num) _ (qphd_posSemidef (fun k => eval 0 (pderiv k P))
    (Matrix.of fun k r => eval 0 (pderiv k (pderiv r P))) (by norm_num : (0 : ℝ) ≤ 1 / 3))
  refine ⟨e, W, heq.trans h, ?_, fun Q hQ hQf μ hμ => ?_⟩
  · obtain ⟨hg, hH⟩ := key P hdeg hfit
    have hv := congrFun (hs.vec 0) 0
    have ho := hs.orth 0 0
    rw [Matrix.mulVec, dotProduct, Fin.sum_univ_one, Matrix.of_apply, Fin.sum_univ_one, Matrix.of_apply, hg, hH,
      Pi.smul_apply, smul_eq_mul] at hv
    rw [Fin.sum_univ_one, if_pos rfl] at ho
    have hW : W 0 0 ≠ 0 := fun h => by rw [h] at ho; norm_num at ho
    have := mul_right_cancel₀ hW hv
    linarith
  · obtain ⟨hg, hH⟩ := key Q hQ hQf
    rw [integral_grad Q hQ hμ, Fin.sum_univ_one, hg, hH]
    norm_num

/-! ## The two input distributions -/

theorem white_pi (m : ℕ) (ν : Measure ℝ) [IsProbabilityMeasure ν] {γ : ℝ} (h1 : Integrable (fun x => x) ν)
    (h2 : Integrable (fun x => x ^ 2) ν) (h3 : ∫ x, x ∂ν = 0) (h4 : ∫ x, x ^ 2 ∂ν = γ) :
    IsWhite (Measure.pi fun _ : Fin m => ν) γ := by
  have hprod : ∀ (k l : Fin m) (x : Fin m → ℝ), x k * x l
      = ∏ i, (fun t : ℝ => (if i = k then t else 1) * (if i = l then t else 1)) (x i) := by
    intro k l x
    simp only [Finset.prod_mul_distrib]
    rw [Finset.prod_ite_eq' , Finset.prod_ite_eq']
    simp
  have hint : ∀ k l i : Fin m, Integrable (fun t : ℝ => (if i = k then t else 1) * (if i = l then t else 1)) ν := by
    intro k l i
    split_ifs
    · simpa [sq] using h2
    · simpa using h1
    · simpa using h1
    · simp
  refine ⟨inferInstance, fun k => integrable_eval h1, fun k l => ?_, fun k => ?_, fun k l => ?_⟩
  · simp only [hprod k l]
    exact Integrable.fintype_prod (hint k l)
  · exact (integral_comp_eval (μ := fun _ : Fin m => ν) (i := k) (f := fun x => x) h1.aestronglyMeasurable).trans h3
  · simp only [hprod k l]
    rw [integral_fintype_prod_eq_prod (fun i (t : ℝ) => (if i = k then t else 1) * (if i = l then t else 1))]
    split_ifs with h
    · subst h
      rw [Finset.prod_eq_single k]
      · simp only [if_true]; simpa [sq] using h4
      · intro i _ hi; simp [hi]
      · intro h; exact absurd (Finset.mem_univ _) h
    · refine Finset.prod_eq_zero (Finset.mem_univ k) ?_
      simpa [h] using h3

/-- The standard Gaussian distribution on `ℝ^m`. -/
theorem white_gaussian (m : ℕ) : IsWhite (Measure.pi fun _ : Fin m => ProbabilityTheory.gaussianReal 0 1) 1 := by
  have h0 := Proofs.HermitePoly.integrable_poly
  refine white_pi m _ (by simpa using h0 Polynomial.X) ((ProbabilityTheory.memLp_id_gaussianReal 2).integrable_sq) ?_ ?_
  · exact ProbabilityTheory.integral_id_gaussianReal
  · have := ProbabilityTheory.variance_fun_id_gaussianReal (μ := 0) (v := 1)
    rw [ProbabilityTheory.variance_of_integral_eq_zero (by fun_prop) ProbabilityTheory.integral_id_gaussianReal] at this
    simpa using this

/-- The uniform distribution on the interval `[-1, 1]`. -/
noncomputable def unifInterval : Measure ℝ := (2 : ENNReal)⁻¹ • volume.restrict (Set.Ioc (-1) 1)

instance : IsProbabilityMeasure unifInterval := by
  refine ⟨?_⟩
  rw [unifInterval, Measure.smul_apply, Measure.restrict_apply MeasurableSet.univ, Set.univ_inter, Real.volume_Ioc]
  norm_num
  exact ENNReal.inv_mul_cancel (by norm_num) (by norm_num)

/-- The uniform distribution on the cube. -/
theorem white_uniform (m : ℕ) : IsWhite (Measure.pi fun _ : Fin m => unifInterval) (1 / 3) := by
  have hi : ∀ f : ℝ → ℝ, Continuous f → Integrable f unifInterval := fun f hf =>
    ((hf.integrableOn_Icc (a := -1) (b := 1)).mono_set Set.Ioc_subset_Icc_self).smul_measure (by norm_num)
  have hv : ∀ f : ℝ → ℝ, ∫ x, f x ∂unifInterval = (∫ x in (-1 : ℝ)..1, f x) / 2 := by
    intro f
    rw [unifInterval, integral_smul_measure, intervalIntegral.integral_of_le (by norm_num), ENNReal.toReal_inv]
    norm_num
    ring
  refine white_pi m _ (hi _ (by fun_prop)) (hi _ (by fun_prop)) ?_ ?_
  · rw [hv]; simp
  · rw [hv]; norm_num [integral_pow]

/-- C37 for samples in the cube: the average is over the uniform distribution. -/
example (lib : Model.Subspaces.Lib) (hl : SubLibOK lib) :=
  C37_qphd_partial lib hl (by norm_num : 0 < 1) (Matrix.of ![![-1], ![0], ![1]] : Matrix (Fin 3) (Fin 1) ℝ) ![3, 0, 1]
    (fun _ => 1 / 3) (by decide) (by
      rintro ⟨i, j, h⟩
      rw [Fin.fin_one_eq_zero j] at h
      exfalso
      fin_cases i
      · change (-1 : ℝ) < -1 at h; norm_num at h
      · change (0 : ℝ) < -1 at h; norm_num at h
      · change (1 : ℝ) < -1 at h; norm_num at h)

end Props
