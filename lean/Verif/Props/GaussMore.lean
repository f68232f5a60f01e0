import Verif.Props.Tensor
import Verif.Proofs.JacobiPoly

/-!
# Properties C94 and C95: Gauss-Jacobi rules, symmetry and range of the nodes
-/

open Py Spec Polynomial Model.Quadrature Proofs.Quadrature MeasureTheory ProbabilityTheory

namespace Props

/-! ## C94 -/

section jacobi

open Proofs.JacobiPoly

variable {l r a b : ℝ}

theorem jacobi_table {N : ℕ} (hN : 1 ≤ N) (l r a b : ℝ) : ∃ ab, r_jacobi (.int N) l r a b = .ok ab ∧ ab.rows = N + 1 ∧ ab.cols = 2 ∧
    (∀ k ≤ N, ab.get k 0 = aJ ((l + r) / 2) ((r - l) / 2) a b k) ∧ ∀ k, 1 ≤ k → k ≤ N → ab.get k 1 = bJ ((r - l) / 2) a b k := by
  obtain ⟨ab, h1, h2, h3, h4, -, h6⟩ := C20_jacobi hN l r a b
  refine ⟨ab, h1, h2, h3, fun k hk => ?_, fun k hk1 hk => ?_⟩
  · rw [h4 k hk, aJ, dJ, jacobiA]
    split_ifs <;> ring
  · rw [h6 k hk1 hk, bJ, jacobiB]
    split_ifs <;> rfl

/-- C94: the monic polynomials generated by `r_jacobi(N, l, r, a, b)` are orthogonal on [l, r] with respect to the weight
`(r-x)^a (x-l)^b`. -/
theorem C94_orthogonal {N : ℕ} (hN : 1 ≤ N) (hlr : l < r) (ha : -1 < a) (hb : -1 < b) : ∃ ab, r_jacobi (.int N) l r a b = .ok ab ∧
    ab.rows = N + 1 ∧ ab.cols = 2 ∧ ∀ k ≤ N + 1, ∀ p : ℝ[X], p.degree < k →
      ∫ x in l..r, (p * monicPoly (fun k => ab.get k 0) (fun k => ab.get k 1) k).eval x * ((r - x) ^ a * (x - l) ^ b) = 0 := by
  obtain ⟨ab, h1, h2, h3, h4, h5⟩ := jacobi_table hN l r a b
  refine ⟨ab, h1, h2, h3, fun k hk p hp => ?_⟩
  rw [monicPoly_congr (a' := aJ ((l + r) / 2) ((r - l) / 2) a b) (b' := bJ ((r - l) / 2) a b) k (fun j hj => h4 j (by omega))
    (fun j hj hjk => h5 j hj (by omega))]
  exact orth_poly (jacL hlr ha hb) (jacL_jac hlr ha hb) k p hp

/-- A rule with positive weights that is exact for degree `2N-1` has its nodes in the interior of the interval. -/
theorem nodes_inside {N : ℕ} {e w : Fin N → ℝ} (he : Function.Injective e) (hw : ∀ i, 0 < w i) (hlr : l < r) (ha : -1 < a) (hb : -1 < b)
    {c : ℝ} (hc : 0 < c) (hex : ∀ p : ℝ[X], p.natDegree < 2 * N → ∑ i, w i * p.eval (e i) = c * jacL hlr ha hb p) (i : Fin N) :
    l < e i ∧ e i < r := by
  have key : ∀ q : ℝ[X], q.natDegree ≤ 1 → (∀ x ∈ Set.Ioo l r, 0 < q.eval x) → 0 < q.eval (e i) := by
    intro q hq hpos
    set P : ℝ[X] := ∏ j ∈ Finset.univ.erase i, (X - C (e j)) with hP
    have hPd : P.natDegree = N - 1 := by
      rw [hP, natDegree_prod_of_monic _ _ fun j _ => monic_X_sub_C _]
      simp
    have hN := i.pos
    have hd : (q * P ^ 2).natDegree < 2 * N := by
      have := natDegree_mul_le (p := q) (q := P ^ 2)
      have h2 := natDegree_pow_le (p := P) (n := 2)
      omega
    have h1 := hex _ hd
    rw [Finset.sum_eq_single i (fun j _ hj => by
      rw [eval_mul, eval_pow, hP, eval_prod, Finset.prod_eq_zero (Finset.mem_erase.mpr ⟨hj, Finset.mem_univ j⟩) (by simp)]
      simp) (fun h => absurd (Finset.mem_univ i) h)] at h1
    have hP0 : P ≠ 0 := (monic_prod_of_monic _ _ fun j _ => monic_X_sub_C _).ne_zero
    have h2 : 0 < jacL hlr ha hb (q * P ^ 2) := by
      rw [jacL_apply]
      have hwt : ∀ x ∈ Set.Ioo l r, 0 < wt l r a b x := fun x hx =>
        mul_pos (Real.rpow_pos_of_pos (sub_pos.mpr hx.2) _) (Real.rpow_pos_of_pos (sub_pos.mpr hx.1) _)
      have hnull : volume (P.rootSet ℝ) = 0 := (P.rootSet_finite ℝ).measure_zero _
      refine (intervalIntegral.integral_pos_iff_support_of_nonneg_ae' ?_ (poly_integrable hlr ha hb _)).mpr ⟨hlr, ?_⟩
      · rw [Set.uIoc_of_le hlr.le, ← restrict_Ioo_eq_restrict_Ioc]
        refine (ae_restrict_mem measurableSet_Ioo).mono fun x hx => ?_
        change 0 ≤ eval x (q * P ^ 2) * wt l r a b x
        rw [eval_mul, eval_pow]
        exact mul_nonneg (mul_nonneg (hpos x hx).le (sq_nonneg _)) (hwt x hx).le
      · have hsub : Set.Ioo l r \ P.rootSet ℝ ⊆ Function.support (fun x => eval x (q * P ^ 2) * wt l r a b x) ∩ Set.Ioc l r := by
          rintro x ⟨hx, hx2⟩
          refine ⟨?_, hx.1, hx.2.le⟩
          have hPx : eval x P ≠ 0 := fun h => hx2 (by rw [mem_rootSet]; exact ⟨hP0, by simpa using h⟩)
          rw [Function.mem_support, eval_mul, eval_pow]
          exact mul_ne_zero (mul_ne_zero (hpos x hx).ne' (pow_ne_zero 2 hPx)) (hwt x hx).ne'
        refine lt_of_lt_of_le ?_ (measure_mono hsub)
        rw [measure_diff_null hnull, Real.volume_Ioo]
        exact ENNReal.ofReal_pos.mpr (sub_pos.mpr hlr)
    have h3 : 0 < w i * eval (e i) (q * P ^ 2) := by
      rw [h1]
      exact mul_pos hc h2
    rw [eval_mul, eval_pow] at h3
    have h4 := (pos_iff_pos_of_mul_pos h3).mp (hw i)
    by_contra hneg
    push Not at hneg
    have := mul_nonpos_of_nonpos_of_nonneg hneg (sq_nonneg (eval (e i) P))
    linarith
  have h1 := key (X - C l) (natDegree_X_sub_C l).le fun x hx => by simpa using hx.1
  have h2 := key (C r - X) (by rw [← natDegree_neg, neg_sub]; exact (natDegree_X_sub_C r).le) fun x hx => by simpa using hx.2
  simp only [eval_sub, eval_X, eval_C, sub_pos] at h1 h2
  exact ⟨h1, h2⟩

/-- C94: eigenvalues of the Jacobi matrix and squared first components of its unit eigenvectors are the Gauss-Jacobi rule: `N` different nodes
inside (l, r), positive weights, exact for degree `2N-1`. -/
theorem C94_rule {N : ℕ} (hN : 2 ≤ N) (hlr : l < r) (ha : -1 < a) (hb : -1 < b) : ∃ (ab : NpMat) (J : Matrix (Fin N) (Fin N) ℝ),
    r_jacobi (.int N) l r a b = .ok ab ∧ jacobi_matrix (.mat ab) = .ok (.mat (NpMat.of J)) ∧ J.transpose = J ∧
    ∀ e V, IsEig J e V → Function.Injective e ∧ (∀ i, l < e i ∧ e i < r) ∧ (∀ i, 0 < V ⟨0, by omega⟩ i ^ 2) ∧
      ∀ p : ℝ[X], p.natDegree ≤ 2 * N - 1 → ∑ i, V ⟨0, by omega⟩ i ^ 2 * p.eval (e i)
        = (∫ x in l..r, p.eval x * ((r - x) ^ a * (x - l) ^ b)) / ∫ x in l..r, (r - x) ^ a * (x - l) ^ b := by
  obtain ⟨ab, h1, h2, h3, h4, h5⟩ := jacobi_table (show 1 ≤ N by omega) l r a b
  have hs : (r - l) / 2 ≠ 0 := by
    intro h
    linarith
  refine ⟨ab, _, h1, jacobi_matrix_eq hN h2 h3, Proofs.GaussRule.tridiag_symm _ _ _, fun e V hE => ?_⟩
  set B : ℕ → ℝ := fun k => if k = 0 then 1 else bJ ((r - l) / 2) a b k with hB
  have hBp : ∀ k, 1 ≤ k → 0 < B k := by
    intro k hk
    rw [hB]
    beta_reduce
    rw [if_neg (by omega)]
    exact bJ_pos hs ha hb k hk
  have hB0 : ∀ k, 0 ≤ B k := by
    intro k
    rcases Nat.eq_zero_or_pos k with rfl | hk
    · simp [hB]
    · exact (hBp k hk).le
  rw [tridiag_congr (a' := aJ ((l + r) / 2) ((r - l) / 2) a b) (b' := B) (fun k hk => h4 k hk.le)
    (fun k hk hkN => by rw [h5 k hk hkN.le, hB]; simp only [if_neg (show ¬ k = 0 by omega)])] at hE
  have hL1 := jacL_one_pos hlr ha hb
  have hinj := Proofs.EigSymm.tridiag_simple hBp hE
  have hpos := Proofs.EigSymm.weight_pos hBp (show 0 < N by omega) hE
  have hg : ∀ p : ℝ[X], p.natDegree < 2 * N → ∑ i, V ⟨0, by omega⟩ i ^ 2 * p.eval (e i) = (jacL hlr ha hb 1)⁻¹ * jacL hlr ha hb p := by
    intro p hp
    refine Proofs.EigSymm.gauss hB0 hBp (by omega) hE ((jacL hlr ha hb 1)⁻¹ • jacL hlr ha hb) ?_ (fun k => ?_) p hp
    · rw [LinearMap.smul_apply, smul_eq_mul, inv_mul_cancel₀ hL1.ne']
    · rw [LinearMap.smul_apply, monicPoly_congr (a' := aJ ((l + r) / 2) ((r - l) / 2) a b) (b' := bJ ((r - l) / 2) a b) _ (fun _ _ => rfl)
        (fun j hj _ => by rw [hB]; simp only [if_neg (show ¬ j = 0 by omega)])]
      have := jacL_jac hlr ha hb k
      rw [jac] at this
      rw [this, smul_zero]
  refine ⟨hinj, nodes_inside hinj hpos hlr ha hb (inv_pos.mpr hL1) hg, hpos, fun p hp => ?_⟩
  rw [hg p (by omega), jacL_apply, jacL_apply, inv_mul_eq_div]
  simp only [eval_one, one_mul]
  rfl

/-- A case with the weight `sqrt(1-x)/sqrt(x)` on [0,1]. -/
example : ∃ (ab : NpMat) (J : Matrix (Fin 3) (Fin 3) ℝ) (e : Fin 3 → ℝ) (V : Matrix (Fin 3) (Fin 3) ℝ), r_jacobi (.int 3) 0 1 (1 / 2) (-1 / 2) = .ok ab ∧
    jacobi_matrix (.mat ab) = .ok (.mat (NpMat.of J)) ∧ IsEig J e V ∧ ∀ i, 0 < e i ∧ e i < 1 := by
  obtain ⟨ab, J, h1, h2, h3, h4⟩ := C94_rule (N := 3) (l := 0) (r := 1) (a := 1 / 2) (b := -1 / 2) (by norm_num) one_pos (by norm_num) (by norm_num)
  obtain ⟨e, V, hV, -⟩ := Proofs.EigSymm.exists_isEig h3
  exact ⟨ab, J, e, V, h1, h2, hV, (h4 e V hV).2.1⟩

end jacobi

/-! ## C95 -/

/-- Gauss rules are unique. -/
theorem gauss_unique {N : ℕ} {y y' w w' : Fin N → ℝ} {L : ℝ[X] → ℝ} (hy : StrictMono y) (hy' : StrictMono y') (hw' : ∀ i, 0 < w' i)
    (h : ∀ p : ℝ[X], p.natDegree < 2 * N → ∑ i, w i * p.eval (y i) = L p)
    (h' : ∀ p : ℝ[X], p.natDegree < 2 * N → ∑ i, w' i * p.eval (y' i) = L p) : y' = y ∧ w' = w := by
  have hmem : ∀ i, y' i ∈ Set.range y := by
    intro i
    set P : ℝ[X] := ∏ j, (X - C (y j)) with hP
    set Q : ℝ[X] := ∏ j ∈ Finset.univ.erase i, (X - C (y' j)) with hQ
    have hPd : P.natDegree = N := by
      rw [hP, natDegree_prod_of_monic _ _ fun j _ => monic_X_sub_C _]
      simp
    have hQd : Q.natDegree = N - 1 := by
      rw [hQ, natDegree_prod_of_monic _ _ fun j _ => monic_X_sub_C _]
      simp
    have hN := i.pos
    have hd : (P * Q).natDegree < 2 * N := by
      have := natDegree_mul_le (p := P) (q := Q)
      omega
    have h1 := (h' _ hd).trans (h _ hd).symm
    rw [Finset.sum_eq_single i (fun j _ hj => by
        have hz : eval (y' j) Q = 0 := by
          rw [hQ, eval_prod, Finset.prod_eq_zero (Finset.mem_erase.mpr ⟨hj, Finset.mem_univ j⟩) (by simp)]
        rw [eval_mul, hz, mul_zero, mul_zero]) (fun h => absurd (Finset.mem_univ i) h),
      Finset.sum_eq_zero (fun j _ => by
        rw [eval_mul, hP, eval_prod, Finset.prod_eq_zero (Finset.mem_univ j) (by simp)]
        simp), eval_mul] at h1
    have h2 : eval (y' i) Q ≠ 0 := by
      rw [hQ, eval_prod, Finset.prod_ne_zero_iff]
      intro j hj
      rw [eval_sub, eval_X, eval_C, sub_ne_zero]
      exact fun h0 => (Finset.mem_erase.mp hj).1 (hy'.injective h0).symm
    have h3 : eval (y' i) P = 0 := by
      rcases mul_eq_zero.mp h1 with h4 | h4
      · exact absurd h4 (hw' i).ne'
      · exact (mul_eq_zero.mp h4).resolve_right h2
    rw [hP, eval_prod, Finset.prod_eq_zero_iff] at h3
    obtain ⟨j, -, hj⟩ := h3
    rw [eval_sub, eval_X, eval_C, sub_eq_zero] at hj
    exact ⟨j, hj.symm⟩
  have hyy : y' = y := by
    choose g hg using hmem
    have hgm : StrictMono g := fun i j hij => by
      have := hy' hij
      rw [← hg i, ← hg j] at this
      exact hy.lt_iff_lt.mp this
    have hid : g = id := by
      have h1 := Subsingleton.elim (hgm.orderIsoOfSurjective g (Finite.surjective_of_injective hgm.injective)) (OrderIso.refl _)
      funext i
      exact congrArg (fun f : Fin N ≃o Fin N => f i) h1
    funext i
    rw [← hg i, hid, id]
  refine ⟨hyy, funext fun i => ?_⟩
  subst hyy
  set Q : ℝ[X] := ∏ j ∈ Finset.univ.erase i, (X - C (y' j)) with hQ
  have hQd : Q.natDegree = N - 1 := by
    rw [hQ, natDegree_prod_of_monic _ _ fun j _ => monic_X_sub_C _]
    simp
  have hN := i.pos
  have hz : ∀ j, j ≠ i → eval (y' j) Q = 0 := fun j hj => by
    rw [hQ, eval_prod, Finset.prod_eq_zero (Finset.mem_erase.mpr ⟨hj, Finset.mem_univ j⟩) (by simp)]
  have h1 := (h' Q (by omega)).trans (h Q (by omega)).symm
  rw [Finset.sum_eq_single i (fun j _ hj => by rw [hz j hj, mul_zero]) (fun h => absurd (Finset.mem_univ i) h),
    Finset.sum_eq_single i (fun j _ hj => by rw [hz j hj, mul_zero]) (fun h => absurd (Finset.mem_univ i) h)] at h1
  have h2 : eval (y' i) Q ≠ 0 := by
    rw [hQ, eval_prod, Finset.prod_ne_zero_iff]
    intro j hj
    rw [eval_sub, eval_X, eval_C, sub_ne_zero]
    exact fun h0 => (Finset.mem_erase.mp hj).1 (hy'.injective h0).symm
  exact mul_right_cancel₀ h2 h1

/-- Both densities are even. -/
theorem LOf_even (q : QuadType) (hq : q = .hermite ∨ q = .legendre) (p : ℝ[X]) : LOf q (p.comp (-X)) = LOf q p := by
  rcases hq with rfl | rfl
  · rw [gaussL_def, gaussL_def]
    simp only [eval_comp, eval_neg, eval_X]
    have h := gaussianReal_map_neg (μ := 0) (v := 1)
    rw [neg_zero] at h
    have h2 := MeasureTheory.integral_map (μ := gaussianReal 0 1) (φ := fun y : ℝ => -y) (f := fun y => p.eval y) measurable_neg.aemeasurable
      p.continuous.aestronglyMeasurable
    rw [h] at h2
    exact h2.symm
  · rw [unifL_def, unifL_def]
    simp only [eval_comp, eval_neg, eval_X]
    rw [intervalIntegral.integral_comp_neg (fun t => p.eval t), neg_neg]

/-- C95: the rules are symmetric: opposite nodes with equal weights. -/
theorem C95_symmetric {lib : Lib} (h : LibOK lib) {q : QuadType} (hq : q = .hermite ∨ q = .legendre) {N : ℕ} (hN : 1 ≤ N) {r : Rule}
    (hr : g1d lib (.int N) q = .ok r) : ∃ x w : Fin N → ℝ, IsCol r.x x ∧ IsCol r.w w ∧ (∀ i, x i.rev = -x i) ∧ (∀ i, w i.rev = w i) ∧
      ∀ f : ℝ → ℝ, (∀ t, f (-t) = -f t) → ∑ i, w i * f (x i) = 0 := by
  obtain ⟨y, x, w, hx, hw, h1, h2, h3, h4, h5, -⟩ := g1d_full h (by rcases hq with rfl | rfl <;> simp) hN hr
  have hu := gauss_unique (y := y) (y' := fun i => -y i.rev) (w := w) (w' := fun i => w i.rev) (L := LOf q) h1
    (fun i j hij => neg_lt_neg (h1 (Fin.rev_lt_rev.mpr hij))) (fun i => h4 _) h5 (fun p hp => by
      have hd : (p.comp (-X)).natDegree < 2 * N := by rwa [natDegree_comp, natDegree_neg, natDegree_X, mul_one]
      rw [← LOf_even q hq p, ← h5 _ hd, ← Equiv.sum_comp Fin.revPerm fun i => w i * eval (y i) (p.comp (-X))]
      simp [eval_comp])
  have hy : ∀ i, y i.rev = -y i := fun i => by
    rw [← congrFun hu.1 i, neg_neg]
  have hxs : ∀ i, x i.rev = -x i := by
    intro i
    by_cases hs : |y i| < 1e-12
    · rw [h3 i hs, h3 i.rev (by rwa [hy, abs_neg]), neg_zero]
    · have e1 := (h2 i).resolve_right fun h => hs h.2
      have e2 := (h2 i.rev).resolve_right fun h => hs (by rw [← abs_neg, ← hy]; exact h.2)
      rw [e1, e2, hy]
  have hws : ∀ i, w i.rev = w i := congrFun hu.2
  refine ⟨x, w, hx, hw, hxs, hws, fun f hf => ?_⟩
  have e : ∑ i, w i * f (x i) = -∑ i, w i * f (x i) := by
    conv_lhs => rw [← Equiv.sum_comp Fin.revPerm]
    rw [← Finset.sum_neg_distrib]
    refine Finset.sum_congr rfl fun i _ => ?_
    rw [Fin.revPerm_apply, hxs, hws, hf, mul_neg]
  linarith

/-- C95: the Gauss-Legendre nodes lie inside (-1, 1). -/
theorem C95_inside {lib : Lib} (h : LibOK lib) {N : ℕ} (hN : 1 ≤ N) {r : Rule} (hr : gl1d lib (.int N) = .ok r) :
    ∃ x : Fin N → ℝ, IsCol r.x x ∧ ∀ i, -1 < x i ∧ x i < 1 := by
  obtain ⟨y, x, w, hx, hw, h1, h2, h3, h4, h5, -⟩ := g1d_full h (by simp) hN hr
  refine ⟨x, hx, fun i => ?_⟩
  have hy := nodes_inside (l := -1) (r := 1) (a := 0) (b := 0) h1.injective h4 (by norm_num) (by norm_num) (by norm_num) (c := 1 / 2) (by norm_num)
    (fun p hp => by
      rw [h5 p hp, unifL_def, Proofs.JacobiPoly.jacL_apply]
      simp only [Proofs.JacobiPoly.wt, Real.rpow_zero, mul_one]
      ring) i
  rcases h2 i with hi | ⟨hi, -⟩
  · rw [hi]
    exact hy
  · rw [hi]
    norm_num

/-- C95: the nodes of `gauss_legendre` lie inside the cube. -/
theorem C95_cube {lib : Lib} (h : LibOK lib) (ns : List ℤ) {r : Rule} (hr : gauss_legendre lib (.list (ns.map .int)) = .ok r)
    (i : Fin r.x.rows) (j : Fin r.x.cols) : -1 < r.x.val i j ∧ r.x.val i j < 1 := by
  obtain ⟨rs, hrs, hT⟩ := gauss_tensor (fun _ _ h => colRule_g1d h) _ r hr
  rw [List.forall₂_map_left_iff] at hrs
  have h1 : ∀ n ri, gl1d lib (.int n) = .ok ri → ∀ xw ∈ points1 ri, -1 < xw.1 ∧ xw.1 < 1 := by
    intro n ri hri xw hxw
    rcases le_or_gt n 1 with hn | hn
    · rw [gl1d, g1d_one lib _ hn] at hri
      obtain rfl := Except.ok.inj hri
      obtain ⟨k, rfl⟩ := (List.mem_ofFn' _ _).mp hxw
      have e : (NpMat.of (col fun _ : Fin 1 => (0 : ℝ))).get k 0 = 0 := NpMat.get_of (col fun _ : Fin 1 => (0 : ℝ)) k 0
      change -1 < (NpMat.of (col fun _ : Fin 1 => (0 : ℝ))).get k 0 ∧ (NpMat.of (col fun _ : Fin 1 => (0 : ℝ))).get k 0 < 1
      rw [e]
      norm_num
    · obtain ⟨N, rfl⟩ : ∃ N : ℕ, n = N := ⟨n.toNat, by omega⟩
      obtain ⟨x, hx, hin⟩ := C95_inside h (by omega) hri
      obtain ⟨k, rfl⟩ := (List.mem_ofFn' _ _).mp hxw
      obtain ⟨rx, rw⟩ := ri
      dsimp only at hx
      subst hx
      have e : (NpMat.of (Matrix.of fun i (_ : Fin 1) => x i)).get k 0 = x k := NpMat.get_of (Matrix.of fun i (_ : Fin 1) => x i) k 0
      change -1 < (NpMat.of (Matrix.of fun i (_ : Fin 1) => x i)).get k 0 ∧ (NpMat.of (Matrix.of fun i (_ : Fin 1) => x i)).get k 0 < 1
      rw [e]
      exact hin k
  have hpt : ∀ ri ∈ rs, ∀ xw ∈ points1 ri, -1 < xw.1 ∧ xw.1 < 1 := by
    clear hT hr
    induction hrs with
    | nil => simp
    | cons h2 _ ih =>
      intro ri hri
      rcases List.mem_cons.mp hri with rfl | hri
      · exact h1 _ _ h2
      · exact ih ri hri
  have hmem : (List.ofFn (fun j : Fin r.x.cols => r.x.val i j), r.w.get i 0) ∈ points r := (List.mem_ofFn' _ _).mpr ⟨i, rfl⟩
  rw [hT.pts] at hmem
  obtain ⟨c, hc, hfst, -⟩ := tensor_mem hmem
  dsimp only at hfst
  have hj : r.x.val i j ∈ List.ofFn (fun j : Fin r.x.cols => r.x.val i j) := (List.mem_ofFn' _ _).mpr ⟨j, rfl⟩
  rw [hfst] at hj
  obtain ⟨xw, hxw, hval⟩ := List.mem_map.mp hj
  rw [← hval]
  rw [List.forall₂_map_right_iff] at hc
  clear hT hrs hmem hfst hj hval
  induction hc with
  | nil => cases hxw
  | cons h2 _ ih =>
    rcases List.mem_cons.mp hxw with rfl | hxw
    · exact hpt _ List.mem_cons_self _ h2
    · exact ih (fun ri hri => hpt ri (List.mem_cons_of_mem _ hri)) hxw

/-- The hypotheses can be met for every size. -/
example : ∃ lib : Lib, LibOK lib ∧ ∀ N : ℕ, 1 ≤ N → ∃ r, gl1d lib (.int N) = .ok r ∧ ∃ x : Fin N → ℝ, IsCol r.x x ∧ ∀ i, -1 < x i ∧ x i < 1 := by
  obtain ⟨lib, h1, h2⟩ := quadLib_exists
  refine ⟨lib, h1, fun N hN => ?_⟩
  obtain ⟨r, hr⟩ := g1d_ok (q := .legendre) (by simp) h2 N
  exact ⟨r, hr, C95_inside h1 hN hr⟩

example : ∃ (lib : Lib) (r : Rule), LibOK lib ∧ gauss_legendre lib (.list ([2, 3].map .int)) = .ok r ∧
    ∀ (i : Fin r.x.rows) (j : Fin r.x.cols), -1 < r.x.val i j ∧ r.x.val i j < 1 := by
  obtain ⟨lib, h1, h2⟩ := quadLib_exists
  obtain ⟨-, r, hr⟩ := (C24_cases lib).2.2.2.2.2 h2 [2, 3]
  exact ⟨lib, r, h1, hr, C95_cube h1 [2, 3] hr⟩

end Props
