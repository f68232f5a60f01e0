import Verif.Model.RoundedActive
import Verif.Props.SurfacesRounded
import Verif.Props.RidgeRBF

/-!
# Property C154: polynomial surfaces on the active variables in double precision
-/

open Py Model.Misc Model.ResponseSurfaces Model.Rounded Model.Subspaces Spec Proofs.Rounding Proofs.FloatSum Proofs.Near Proofs.FloatProd Proofs.PolyApprox

namespace Props

variable {M m n k : ℕ}

theorem near_pow {p : ℕ} {a b μ : ℝ} (h : Near p a b μ) (α : ℕ) : Near (p * α) (a ^ α) (b ^ α) (μ ^ α) := by
  induction α with
  | zero => simpa using refl (b := (1 : ℝ)) (m := 1) (by simp)
  | succ α ih =>
    rw [pow_succ, pow_succ, pow_succ, Nat.mul_succ]
    exact ih.mul h

/-- A product of powers of numbers with errors. -/
theorem near_powers {p : ℕ} {a b μ : Fin n → ℝ} (h : ∀ j, Near p (a j) (b j) (μ j)) (α : Fin n → ℕ) :
    Near (p * ∑ j, α j) (∏ j, a j ^ α j) (∏ j, b j ^ α j) (∏ j, μ j ^ α j) := by
  classical
  have : ∀ s : Finset (Fin n), Near (p * ∑ j ∈ s, α j) (∏ j ∈ s, a j ^ α j) (∏ j ∈ s, b j ^ α j) (∏ j ∈ s, μ j ^ α j) := fun s => by
    induction s using Finset.induction_on with
    | empty => simpa using refl (b := (1 : ℝ)) (m := 1) (by simp)
    | insert i s hi ih =>
      rw [Finset.prod_insert hi, Finset.prod_insert hi, Finset.prod_insert hi, Finset.sum_insert hi, Nat.mul_add]
      exact (near_pow (h i) (α i)).mul ih
  exact this Finset.univ

theorem abs_powers_le {p : ℕ} {a b μ : Fin n → ℝ} (h : ∀ j, Near p (a j) (b j) (μ j)) (α : Fin n → ℕ) :
    ∏ j, |a j| ^ α j ≤ (1 + u) ^ (p * ∑ j, α j) * ∏ j, μ j ^ α j := by
  have := (near_powers h α).abs_le
  rw [Finset.abs_prod] at this
  simpa only [abs_pow] using this

/-- A monomial in floating point, at a point with errors. -/
theorem monomial_near_near {fl : Fl} (h : FlOK fl) {p N : ℕ} (Y : Matrix (Fin M) (Fin n) ℝ) {b μ : Fin n → ℝ} {i : Fin M} (hY : ∀ j, Near p (Y i j) (b j) (μ j))
    (I : List (Fin n → ℕ)) (t : Fin I.length) (hN : ∑ j, I.get t j ≤ N) :
    Near (3 * n + p * N) (Model.Rounded.monomials fl Y I i t) (∏ j, b j ^ I.get t j) (∏ j, μ j ^ I.get t j) := by
  have h1 := monomial_near h.rd (h.prod (List.ofFn fun k => fl.power (Y i k) (I.get t k))) fun k => h.power (Y i k) (I.get t k)
  exact (h1.trans (abs_powers_le hY _) (near_powers hY _)).mono (Nat.add_le_add_left (Nat.mul_le_mul_left p hN) _)

theorem gradMonomial_near_near {fl : Fl} (h : FlOK fl) {p N : ℕ} (Y Z : Matrix (Fin M) (Fin n) ℝ) {μ : Fin n → ℝ} {i : Fin M} (hY : ∀ j, Near p (Y i j) (Z i j) (μ j))
    (I : List (Fin n → ℕ)) (t : Fin I.length) (hN : ∑ j, I.get t j ≤ N) (l : Fin n) :
    Near (3 * n + 1 + p * N) (Model.Rounded.gradMonomials fl Y I l i t) (Model.ResponseSurfaces.gradMonomials Z I l i t)
      (I.get t l * ∏ j, μ j ^ (I.get t j - if j = l then 1 else 0)) := by
  have hle : ∑ j, (I.get t j - if j = l then 1 else 0) ≤ N := (Finset.sum_le_sum fun j _ => Nat.sub_le _ _).trans hN
  have h1 := gradMonomial_near h Y I l i t
  have e : ∀ j, Function.update (I.get t) l (I.get t l - 1) j = I.get t j - if j = l then 1 else 0 := fun j => by
    rcases eq_or_ne j l with rfl | hl
    · simp
    · rw [Function.update_of_ne hl, if_neg hl, Nat.sub_zero]
  have h2 : Near (p * ∑ j, (I.get t j - if j = l then 1 else 0)) (Model.ResponseSurfaces.gradMonomials Y I l i t) (Model.ResponseSurfaces.gradMonomials Z I l i t)
      (I.get t l * ∏ j, μ j ^ (I.get t j - if j = l then 1 else 0)) := by
    unfold Model.ResponseSurfaces.gradMonomials
    simp only [Matrix.of_apply]
    split_ifs with h0
    · rw [h0]
      simpa using (refl (b := (0 : ℝ)) (m := 0) (by simp)).mono (Nat.zero_le _)
    · simp only [e]
      have := (refl (b := (I.get t l : ℝ)) (m := (I.get t l : ℝ)) (by simp)).mul (near_powers hY fun j => I.get t j - if j = l then 1 else 0)
      rwa [Nat.zero_add] at this
  refine (h1.trans ?_ h2).mono (Nat.add_le_add_left (Nat.mul_le_mul_left p hle) _)
  rw [mul_left_comm]
  exact mul_le_mul_of_nonneg_left (abs_powers_le hY _) (Nat.cast_nonneg _)

/-- What `predict` returns in floating point. -/
theorem activePredict_eq (d : Dot) (predict : Arr → Bool → Except Err (NpVec × Option NpMat)) {s : Subspaces} {V1 : Matrix (Fin m) (Fin n) ℝ}
    {V2 : Matrix (Fin m) (Fin k) ℝ} (h1 : s.W1 = some (NpMat.of V1)) (h2 : s.W2 = some (NpMat.of V2)) (X : Matrix (Fin M) (Fin m) ℝ) {f : Fin M → ℝ}
    {df : Matrix (Fin M) (Fin n) ℝ} (hf : predict (.mat (NpMat.of (d M m n X V1))) false = .ok (NpVec.of f, none))
    (hdf : predict (.mat (NpMat.of (d M m n X V1))) true = .ok (NpVec.of f, some (NpMat.of df))) :
    activePredict d predict s (.mat (NpMat.of X)) false = .ok (NpVec.of f, none) ∧
    activePredict d predict s (.mat (NpMat.of X)) true = .ok (NpVec.of f, some (NpMat.of (d M n m df V1.transpose))) := by
  have hfw : Model.Rounded.forward d s (.mat (NpMat.of X)) = .ok (NpMat.of (d _ _ _ X V1), NpMat.of (d _ _ _ X V2)) := by
    unfold Model.Rounded.forward
    rw [h1, h2]
    have e1 : Model.Rounded.dot d (NpMat.of X) (NpMat.of V1) = .ok (NpMat.of (d _ _ _ X V1)) := dif_pos rfl
    have e2 : Model.Rounded.dot d (NpMat.of X) (NpMat.of V2) = .ok (NpMat.of (d _ _ _ X V2)) := dif_pos rfl
    simp only [Model.Misc.process_inputs, bind, Except.bind, e1, e2]
    rfl
  have e3 : Model.Rounded.dot d (NpMat.of df) (NpMat.of V1).transpose = .ok (NpMat.of (d _ _ _ df V1.transpose)) := dif_pos rfl
  constructor
  · simp only [activePredict, hfw, bind, Except.bind, hf]
    rfl
  · simp only [activePredict, hfw, bind, Except.bind, hdf, h1, e3]
    rfl

/-- **C154.** In double precision the predictions of a polynomial surface on `n` active variables of points with `m` coordinates: relative to the sum of the absolute
values of the terms, with the active variables replaced by `∑ |x_l| |W1_lj|`, the errors are at most `(1 + 2^-53)^(K + 3n + mN) - 1` for the `K` coefficients, and
`(1 + 2^-53)^(K + 4n + 1 + mN) - 1` for the gradients on the full space. -/
theorem C154_predict {fl : Fl} (h : FlOK fl) (N n : ℕ) (hn : 1 ≤ n) :
    ∃ e : Fin ((N + n).choose n) → (Fin n → ℕ), Function.Injective e ∧ Set.range e = {α | ∑ j, α j ≤ N} ∧
      ∀ (c : Fin ((N + n).choose n) → ℝ) (r : PolyApprox), r.N = N → r.poly_weights = some (NpVec.of c) →
      ∀ (m k : ℕ) (s : Subspaces) (V1 : Matrix (Fin m) (Fin n) ℝ) (V2 : Matrix (Fin m) (Fin k) ℝ), s.W1 = some (NpMat.of V1) → s.W2 = some (NpMat.of V2) →
      ∀ (M : ℕ) (X : Matrix (Fin M) (Fin m) ℝ), ∃ (f : Fin M → ℝ) (df : Matrix (Fin M) (Fin m) ℝ),
        activePredict fl.d (polyPredict fl r) s (.mat (NpMat.of X)) false = .ok (NpVec.of f, none) ∧
        activePredict fl.d (polyPredict fl r) s (.mat (NpMat.of X)) true = .ok (NpVec.of f, some (NpMat.of df)) ∧
        ∀ P : MvPolynomial (Fin n) ℝ, P.totalDegree ≤ N → (∀ t, c t = P.coeff (Finsupp.equivFunOnFinite.symm (e t))) → ∀ i,
          |f i - MvPolynomial.eval (fun j => ∑ l, X i l * V1 l j) P|
            ≤ ((1 + 1 / 2 ^ 53) ^ ((N + n).choose n + 3 * n + m * N) - 1) * ∑ t, |c t| * ∏ j, (∑ l, |X i l| * |V1 l j|) ^ e t j ∧
          ∀ D : (Fin m → ℝ) →L[ℝ] ℝ, HasFDerivAt (fun x : Fin m → ℝ => MvPolynomial.eval (fun j => ∑ l, x l * V1 l j) P) D (X i) → ∀ l,
            |df i l - D (Pi.single l 1)| ≤ ((1 + 1 / 2 ^ 53) ^ ((N + n).choose n + 4 * n + 1 + m * N) - 1) *
              ∑ j, |V1 l j| * ∑ t, |c t| * (e t j * ∏ j', (∑ l, |X i l| * |V1 l j'|) ^ (e t j' - if j' = j then 1 else 0)) := by
  obtain ⟨I, hI, hnd, hmem, -, hlen⟩ := C25_enumerates N n hn
  rw [← hlen]
  refine ⟨I.get, List.nodup_iff_injective_get.mp hnd, ?_, ?_⟩
  · ext α
    rw [Set.mem_ofPred_eq, ← hmem α, List.mem_iff_get]
    rfl
  · rintro c r rfl hc m k s V1 V2 hV1 hV2 M X
    obtain ⟨h1, h2⟩ := polyPredict_eq fl r hI c hc (fl.d M m n X V1)
    obtain ⟨h3, h4⟩ := activePredict_eq fl.d (polyPredict fl r) hV1 hV2 X h1 h2
    refine ⟨_, _, h3, h4, fun P hP hcP i => ?_⟩
    have hPf : P = fitted I c := by
      rw [eq_fitted I hnd (fun α hα => (hmem α).mpr hα) P hP]
      congr 1
      funext j
      exact (hcP j).symm
    subst hPf
    have hdeg : ∀ t : Fin I.length, ∑ j, I.get t j ≤ r.N := fun t => (hmem _).mp (List.get_mem I t)
    have hY : ∀ j, Near m (fl.d M m n X V1 i j) ((X * V1) i j) (∑ l, |X i l| * |V1 l j|) := fun j => by
      have := near_dot h.rd (n := 0) (h.dot M m n X V1 i j) fun l => refl (b := X i l * V1 l j) (m := |X i l| * |V1 l j|) (abs_mul _ _).le
      exact this
    have hrow : (X * V1) i = fun j => ∑ l, X i l * V1 l j := rfl
    constructor
    · have := (vecDot_near h c (B := Model.Rounded.monomials fl (fl.d M m n X V1) I) (i := i) fun t => monomial_near_near h _ hY I t (hdeg t)).err
      rw [← hrow, eval_fitted]
      simpa only [mul_comm (c _), mul_comm |c _|, u, ← add_assoc] using this
    · intro D hD l
      have hDl : D (Pi.single l 1) = ∑ j, MvPolynomial.eval ((X * V1) i) (MvPolynomial.pderiv j (fitted I c)) * V1.transpose j l := by
        have := hasFDerivAt_ridge V1 (x := X i) (hasFDerivAt_eval (fitted I c) fun j => ∑ l, X i l * V1 l j)
        rw [hD.unique this, proj_single, Matrix.mulVec, dotProduct]
        exact Finset.sum_congr rfl fun j _ => mul_comm _ _
      rw [hDl]
      have hg : ∀ j, Near (I.length + (3 * n + 1 + m * r.N)) (fl.d M I.length 1 (Model.Rounded.gradMonomials fl (fl.d M m n X V1) I j) (colMat c) i 0)
          (MvPolynomial.eval ((X * V1) i) (MvPolynomial.pderiv j (fitted I c)))
          (∑ t, (I.get t j * ∏ j', (∑ l, |X i l| * |V1 l j'|) ^ (I.get t j' - if j' = j then 1 else 0)) * |c t|) := fun j => by
        have := vecDot_near h c (B := Model.Rounded.gradMonomials fl (fl.d M m n X V1) I j) (i := i) fun t => gradMonomial_near_near h _ (X * V1) hY I t (hdeg t) j
        have e := congrFun (mulVec_gradMonomials (X * V1) I c j) i
        rw [← e]
        exact this
      have := (near_dot h.rd (h.dot M n m (Matrix.of fun i j => fl.d M I.length 1 (Model.Rounded.gradMonomials fl (fl.d M m n X V1) I j) (colMat c) i 0)
        V1.transpose i l) fun j => (hg j).mul (refl (b := V1.transpose j l) (m := |V1 l j|) le_rfl)).err
      have e1 : n + (I.length + (3 * n + 1 + m * r.N) + 0) = I.length + 4 * n + 1 + m * r.N := by ring
      rw [e1] at this
      refine this.trans (le_of_eq ?_)
      unfold u
      congr 1
      refine Finset.sum_congr rfl fun j _ => ?_
      rw [mul_comm]
      congr 1
      exact Finset.sum_congr rfl fun t _ => mul_comm _ _

/-- Points in the cube and orthonormal eigenvectors: the sums `∑ |x_l| |W1_lj|` are at most `sqrt m`. -/
theorem C154_cube {fl : Fl} (h : FlOK fl) (N n : ℕ) (hn : 1 ≤ n) {m k : ℕ} {s : Subspaces} {V1 : Matrix (Fin m) (Fin n) ℝ} {V2 : Matrix (Fin m) (Fin k) ℝ}
    (hm : 1 ≤ m) (h1 : s.W1 = some (NpMat.of V1)) (h2 : s.W2 = some (NpMat.of V2)) (ho : V1.transpose * V1 = 1) (P : MvPolynomial (Fin n) ℝ) (hP : P.totalDegree ≤ N) :
    ∃ c : Fin ((N + n).choose n) → ℝ, ∀ r : PolyApprox, r.N = N → r.poly_weights = some (NpVec.of c) → ∀ (M : ℕ) (X : Matrix (Fin M) (Fin m) ℝ), (∀ i l, |X i l| ≤ 1) →
      ∃ f : Fin M → ℝ, activePredict fl.d (polyPredict fl r) s (.mat (NpMat.of X)) false = .ok (NpVec.of f, none) ∧
        ∀ i, |f i - MvPolynomial.eval (fun j => ∑ l, X i l * V1 l j) P|
          ≤ ((1 + 1 / 2 ^ 53) ^ ((N + n).choose n + 3 * n + m * N) - 1) * (Real.sqrt m ^ N * ∑ α ∈ P.support, |P.coeff α|) := by
  obtain ⟨e, hinj, hrange, hall⟩ := C154_predict h N n hn
  let φ : Fin ((N + n).choose n) → (Fin n →₀ ℕ) := fun t => Finsupp.equivFunOnFinite.symm (e t)
  have hφ : Function.Injective φ := fun a b hab => hinj (Finsupp.equivFunOnFinite.symm.injective hab)
  have hsum : ∑ t, |P.coeff (φ t)| = ∑ α ∈ P.support, |P.coeff α| := by
    rw [← Finset.sum_image (f := fun α => |P.coeff α|) (s := Finset.univ) (g := φ) fun a _ b _ hab => hφ hab]
    symm
    refine Finset.sum_subset (fun α hα => ?_) fun α _ hα => by rw [MvPolynomial.notMem_support_iff.mp hα, abs_zero]
    have h3 : ∑ j, α j ≤ N := by
      have := MvPolynomial.le_totalDegree hα
      rw [Finsupp.sum_fintype _ _ fun _ => rfl] at this
      exact this.trans hP
    have h4 : (α : Fin n → ℕ) ∈ Set.range e := by rw [hrange]; exact h3
    obtain ⟨t, ht⟩ := h4
    exact Finset.mem_image.mpr ⟨t, Finset.mem_univ t, by simp only [φ, ht]; exact Finsupp.equivFunOnFinite.symm_apply_apply α⟩
  refine ⟨fun t => P.coeff (φ t), fun r hr hc M X hX => ?_⟩
  obtain ⟨f, df, h3, -, h4⟩ := hall _ r hr hc m k s V1 V2 h1 h2 M X
  refine ⟨f, h3, fun i => (h4 P hP (fun t => rfl) i).1.trans (mul_le_mul_of_nonneg_left ?_ ?_)⟩
  · have hs1 : 1 ≤ Real.sqrt m := by
      rw [Real.one_le_sqrt]
      exact_mod_cast hm
    have hμ : ∀ j, ∑ l, |X i l| * |V1 l j| ≤ Real.sqrt m := fun j => by
      have hcol : ∑ l, V1 l j ^ 2 = 1 := by
        have := congrFun (congrFun ho j) j
        rw [Matrix.mul_apply, Matrix.one_apply_eq] at this
        simpa only [Matrix.transpose_apply, ← sq] using this
      refine (Finset.sum_le_sum fun l _ => mul_le_of_le_one_left (abs_nonneg (V1 l j)) (hX i l)).trans (Real.le_sqrt_of_sq_le ?_)
      have := sq_sum_le_card_mul_sum_sq (s := Finset.univ) (f := fun l : Fin m => |V1 l j|)
      rw [show ∑ l, |V1 l j| ^ 2 = 1 by simpa only [sq_abs] using hcol] at this
      simpa using this
    rw [← hsum, Finset.mul_sum]
    refine Finset.sum_le_sum fun t _ => ?_
    rw [mul_comm]
    refine mul_le_mul_of_nonneg_right ?_ (abs_nonneg _)
    have hdeg : ∑ j, e t j ≤ N := by
      have : e t ∈ {α : Fin n → ℕ | ∑ j, α j ≤ N} := by rw [← hrange]; exact ⟨t, rfl⟩
      exact this
    refine (Finset.prod_le_prod (fun j _ => pow_nonneg (Finset.sum_nonneg fun l _ => mul_nonneg (abs_nonneg _) (abs_nonneg _)) _) fun j _ =>
      pow_le_pow_left₀ (Finset.sum_nonneg fun l _ => mul_nonneg (abs_nonneg _) (abs_nonneg _)) (hμ j) _).trans ?_
    rw [Finset.prod_pow_eq_pow_sum]
    exact pow_le_pow_right₀ hs1 hdeg
  · have := one_le_pow ((N + n).choose n + 3 * n + m * N)
    unfold u at this
    linarith

/-- A library that keeps the contract, orthonormal eigenvectors, and the surface `1 + 2 y` of the active variable `y = (3 x_1 + 4 x_2) / 5`. -/
example : ∃ (fl : Fl) (s : Subspaces) (r : PolyApprox), FlOK fl ∧ s.W1 = some (NpMat.of (Matrix.of ![![3 / 5], ![4 / 5]] : Matrix (Fin 2) (Fin 1) ℝ)) ∧
    s.W2 = some (NpMat.of (Matrix.of ![![-4 / 5], ![3 / 5]] : Matrix (Fin 2) (Fin 1) ℝ)) ∧
    (Matrix.of ![![3 / 5], ![4 / 5]] : Matrix (Fin 2) (Fin 1) ℝ).transpose * (Matrix.of ![![3 / 5], ![4 / 5]] : Matrix (Fin 2) (Fin 1) ℝ) = 1 ∧
    r.N = 1 ∧ r.poly_weights = some (NpVec.of ![(1 : ℝ), 2]) ∧ (1 + 1).choose 1 = 2 ∧
    (MvPolynomial.C 1 + MvPolynomial.C 2 * MvPolynomial.X 0 : MvPolynomial (Fin 1) ℝ).totalDegree ≤ 1 := by
  obtain ⟨fl, hfl⟩ := fl_exists
  refine ⟨fl, { W1 := some _, W2 := some _ }, { N := 1, poly_weights := some _ }, hfl, rfl, rfl, ?_, rfl, rfl, rfl, ?_⟩
  · ext i j
    fin_cases i; fin_cases j
    simp [Matrix.mul_apply, Fin.sum_univ_two]
    norm_num
  · refine (MvPolynomial.totalDegree_add _ _).trans (max_le (by simp) ((MvPolynomial.totalDegree_mul _ _).trans ?_))
    simp

end Props
