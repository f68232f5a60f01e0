import Verif.Proofs.Index
import Verif.Spec.Tensor
import Verif.Props.Quadrature

/-!
# Property C24: tensor-product rules
-/

open Py Spec Model.Quadrature Proofs.Quadrature

namespace Props

/-- The (node, weight) pairs of a one-dimensional rule. -/
noncomputable def points1 (r : Rule) : List (ℝ × ℝ) := List.ofFn fun i : Fin r.x.rows => (r.x.get i 0, r.w.get i 0)

/-- The (row, weight) pairs of a rule. -/
noncomputable def points (r : Rule) : List (List ℝ × ℝ) :=
  List.ofFn fun i : Fin r.x.rows => (List.ofFn fun j : Fin r.x.cols => r.x.val i j, r.w.get i 0)

/-- Nodes and weights are columns of the same length. -/
def ColRule (r : Rule) : Prop := r.x.cols = 1 ∧ r.w.cols = 1 ∧ r.w.rows = r.x.rows

theorem colRule_g1d {lib : Lib} {N : Num} {q : QuadType} {r : Rule} (h : g1d lib N q = .ok r) : ColRule r := by
  have heig : ∀ {n : ℕ} (J : Matrix (Fin n) (Fin n) ℝ), eigRule lib J = .ok r → ColRule r := by
    intro n J hJ
    unfold eigRule at hJ
    split at hJ
    · cases hJ
    · obtain rfl := Except.ok.inj hJ
      exact ⟨rfl, rfl, rfl⟩
  unfold g1d at h
  split at h
  · split at h
    · unfold jacobiRule at h
      split at h
      · split at h
        · exact heig _ h
        · cases h
      · cases h
      · cases h
    · cases h
  · obtain rfl := Except.ok.inj h
    exact ⟨rfl, rfl, rfl⟩

/-- The loop state after some dimensions: the first column is all ones. -/
structure Inv (r : Rule) (rs : List Rule) : Prop where
  cols : r.x.cols = rs.length + 1
  wrows : r.w.rows = r.x.rows
  wcols : r.w.cols = 1
  pts : points r = (tensor (rs.map points1)).map fun pv => (1 :: pv.1, pv.2)

theorem hstack_of {R a b : ℕ} (A : Matrix (Fin R) (Fin a) ℝ) (B : Matrix (Fin R) (Fin b) ℝ) :
    NpMat.hstack ⟨R, a, A⟩ ⟨R, b, B⟩ = .ok ⟨R, a + b, Np.hstack A B⟩ := dif_pos rfl

theorem points_step {r ri r' : Rule} (hi : ColRule ri) (hw : r.w.rows = r.x.rows) (hwc : r.w.cols = 1)
    (h : tensorStep r ri = .ok r') :
    r'.x.cols = r.x.cols + 1 ∧ r'.w.rows = r'.x.rows ∧ r'.w.cols = 1 ∧
      points r' = (points r).flatMap fun pv => (points1 ri).map fun xw => (pv.1 ++ [xw.1], pv.2 * xw.2) := by
  obtain ⟨⟨R, c, x⟩, ⟨R', c', w⟩⟩ := r
  obtain ⟨⟨k, c1, xi⟩, ⟨k', c1', wi⟩⟩ := ri
  obtain ⟨h1, h2, h3⟩ := hi
  dsimp only at *
  subst h1 h2 h3 hw hwc
  have hx : r' = ⟨⟨R' * k', c * 1 + 1 * 1, Np.hstack (Np.kron x (Np.ones k' 1)) (Np.kron (Np.ones R' 1) xi)⟩,
      ⟨R' * k', 1 * 1, Np.kron w wi⟩⟩ := by
    have h' : tensorStep ⟨⟨R', c, x⟩, ⟨R', 1, w⟩⟩ ⟨⟨k', 1, xi⟩, ⟨k', 1, wi⟩⟩
        = .ok ⟨⟨R' * k', c * 1 + 1 * 1, Np.hstack (Np.kron x (Np.ones k' 1)) (Np.kron (Np.ones R' 1) xi)⟩,
          ⟨R' * k', 1 * 1, Np.kron w wi⟩⟩ := by
      change (NpMat.hstack ⟨R' * k', c * 1, Np.kron x (Np.ones k' 1)⟩ ⟨R' * k', 1 * 1, Np.kron (Np.ones R' 1) xi⟩
        >>= fun x => (.ok (Rule.mk x _) : Except Err Rule)) = _
      rw [hstack_of]
      rfl
    rw [h'] at h
    exact (Except.ok.inj h).symm
  subst hx
  refine ⟨by dsimp only; omega, rfl, rfl, ?_⟩
  simp only [points, points1]
  rw [List.ofFn_mul, List.flatMap_def, List.map_ofFn]
  congr 2
  funext i
  simp only [Function.comp, List.map_ofFn]
  congr 1
  funext j
  have hij : (⟨(i : ℕ) * k' + j, by
      calc (i : ℕ) * k' + j < (i + 1) * k' := (Nat.add_lt_add_left j.2 _).trans_eq (by ring)
        _ ≤ _ := Nat.mul_le_mul_right _ i.2⟩ : Fin (R' * k')) = finProdFinEquiv (i, j) := by
    apply Fin.ext
    simp only [finProdFinEquiv_apply_val]
    ring
  rw [hij]
  refine Prod.ext ?_ ?_
  · change List.ofFn (Fin.append _ _) = _
    rw [List.ofFn_fin_append]
    congr 1
    · rw [List.ofFn_congr (Nat.mul_one c)]
      congr 1
      funext l
      have hl : Fin.cast (Nat.mul_one c).symm l = finProdFinEquiv (l, (0 : Fin 1)) := by
        apply Fin.ext
        simp [finProdFinEquiv_apply_val]
      rw [hl]
      erw [Proofs.Index.kron_apply]
      simp [Np.ones]
    · rw [List.ofFn_succ]
      simp only [List.ofFn_zero]
      congr 1
      have hl : (0 : Fin (1 * 1)) = finProdFinEquiv ((0 : Fin 1), (0 : Fin 1)) := rfl
      erw [hl, Proofs.Index.kron_apply]
      simp only [Np.ones, Matrix.of_apply, one_mul]
      exact (NpMat.get_of xi j 0).symm
  · change (NpMat.of (Np.kron w wi)).get _ _ = (NpMat.of w).get i 0 * (NpMat.of wi).get j 0
    have h1 := NpMat.get_of w i 0
    have h2 := NpMat.get_of wi j 0
    have h3 := NpMat.get_of (Np.kron w wi) (finProdFinEquiv (i, j)) (finProdFinEquiv ((0 : Fin 1), (0 : Fin 1)))
    rw [Proofs.Index.kron_apply, ← hij] at h3
    exact h3.trans (congrArg₂ (· * ·) h1.symm h2.symm)

theorem tensorStep_ok (r ri : Rule) : ∃ r', tensorStep r ri = .ok r' := by
  obtain ⟨⟨R, c, x⟩, ⟨R', c', w⟩⟩ := r
  obtain ⟨⟨k, c1, xi⟩, ⟨k', c1', wi⟩⟩ := ri
  change ∃ r' : Rule, (NpMat.hstack ⟨R * k, c * c1, Np.kron x (Np.ones k c1)⟩ ⟨R * k, 1 * c1, Np.kron (Np.ones R 1) xi⟩
    >>= fun x => (.ok (Rule.mk x _) : Except Err Rule)) = Except.ok r'
  rw [hstack_of]
  exact ⟨_, rfl⟩

variable {rule : Num → Except Err Rule}

theorem loop_inv (hcol : ∀ n r, rule n = .ok r → ColRule r) (ns : List Num) : ∀ (r0 : Rule) (rs0 : List Rule), Inv r0 rs0 →
    ∀ r, ns.foldlM (fun r n => do tensorStep r (← rule n)) r0 = Except.ok r →
      ∃ rs, List.Forall₂ (fun n ri => rule n = .ok ri) ns rs ∧ Inv r (rs0 ++ rs) := by
  induction ns with
  | nil =>
    intro r0 rs0 h0 r h
    obtain rfl := Except.ok.inj h
    exact ⟨[], .nil, by simpa using h0⟩
  | cons n ns ih =>
    intro r0 rs0 h0 r h
    rw [List.foldlM_cons] at h
    cases hn : rule n with
    | error e => rw [hn] at h; cases h
    | ok ri =>
      rw [hn] at h
      have hi := hcol n ri hn
      obtain ⟨r1, hr1⟩ := tensorStep_ok r0 ri
      obtain ⟨k1, k2, k3, k4⟩ := points_step hi h0.wrows h0.wcols hr1
      change (tensorStep r0 ri >>= _) = _ at h
      rw [hr1] at h
      have hinv : Inv r1 (rs0 ++ [ri]) := by
        refine ⟨by simp [k1, h0.cols], k2, k3, ?_⟩
        rw [k4, h0.pts, List.map_append, List.map_cons, List.map_nil, tensor_concat, List.flatMap_map, List.map_flatMap]
        simp [Function.comp_def]
      obtain ⟨rs, hrs, hI⟩ := ih r1 _ hinv r h
      exact ⟨ri :: rs, .cons hn hrs, by simpa using hI⟩

/-- Each row of the result is a combination of one-dimensional nodes with the product weight, in order. -/
structure IsTensor (r : Rule) (rs : List Rule) : Prop where
  cols : r.x.cols = rs.length
  wrows : r.w.rows = r.x.rows
  wcols : r.w.cols = 1
  pts : points r = tensor (rs.map points1)

theorem loop_tensor (hcol : ∀ n r, rule n = .ok r → ColRule r) (ns : List Num) (r : Rule)
    (h : tensorLoop rule ns = .ok r) : ∃ rs, List.Forall₂ (fun n ri => rule n = .ok ri) ns rs ∧ IsTensor r rs := by
  let one : NpMat := NpMat.of (Matrix.of fun (_ _ : Fin 1) => 1)
  have h0 : Inv ⟨one, one⟩ [] := ⟨rfl, rfl, rfl, by simp [points, tensor, one, NpMat.of, NpMat.get]⟩
  unfold tensorLoop at h
  cases hf : (ns.foldlM (fun r n => do tensorStep r (← rule n)) (⟨one, one⟩ : Rule) : Except Err Rule) with
  | error e => 
    change ((ns.foldlM (fun r n => do tensorStep r (← rule n)) (⟨one, one⟩ : Rule) : Except Err Rule) >>= _) = _ at h
    rw [hf] at h
    cases h
  | ok r1 =>
    change ((ns.foldlM (fun r n => do tensorStep r (← rule n)) (⟨one, one⟩ : Rule) : Except Err Rule) >>= _) = _ at h
    rw [hf] at h
    obtain rfl := Except.ok.inj h
    obtain ⟨rs, hrs, hI⟩ := loop_inv hcol ns _ _ h0 r1 hf
    rw [List.nil_append] at hI
    refine ⟨rs, hrs, ?_, hI.wrows, hI.wcols, ?_⟩
    · change r1.x.cols - 1 = _
      rw [hI.cols]
      rfl
    · have hp := hI.pts
      have hc := hI.cols
      have : points ⟨r1.x.dropCol, r1.w⟩ = (points r1).map fun pv => (pv.1.tail, pv.2) := by
        simp only [points, List.map_ofFn]
        congr 1
        funext i
        refine Prod.ext ?_ rfl
        obtain ⟨⟨R, c, x⟩, w⟩ := r1
        dsimp only at hc
        subst hc
        simp only [Function.comp, List.ofFn_succ, List.tail_cons]
        rfl
      rw [this, hp, List.map_map]
      simp [Function.comp_def]

theorem gauss_tensor (hcol : ∀ n r, rule n = .ok r → ColRule r) (ns : List Num) (r : Rule)
    (h : gauss rule (.list ns) = .ok r) : ∃ rs, List.Forall₂ (fun n ri => rule n = .ok ri) ns rs ∧ IsTensor r rs := by
  match ns, h with
  | [], h => exact loop_tensor hcol [] r h
  | [n], h =>
    change rule n = .ok r at h
    obtain ⟨h1, h2, h3⟩ := hcol n r h
    refine ⟨[r], .cons h .nil, h1, h3, h2, ?_⟩
    obtain ⟨⟨R, c, x⟩, w⟩ := r
    dsimp only at h1
    subst h1
    simp only [List.map_cons, List.map_nil, tensor, mul_one, points, points1, List.ofFn_succ, List.ofFn_zero]
    rw [← List.map_eq_flatMap, List.map_ofFn]
    congr 1
    funext i
    refine Prod.ext ?_ rfl
    simp only [Function.comp]
    congr 1
    exact (NpMat.get_of x i 0).symm
  | n :: m :: ns, h => exact loop_tensor hcol (n :: m :: ns) r h

/-! ## C24 -/

/-- C24: the rows of the tensor rule are all combinations of the one-dimensional nodes, in order with the last
dimension fastest, each with the product weight; there is one column per dimension. -/
theorem C24_tensor (lib : Lib) (ns : List Num) (r : Rule) :
    (gauss_hermite lib (.list ns) = .ok r → ∃ rs, List.Forall₂ (fun n ri => gh1d lib n = .ok ri) ns rs ∧ IsTensor r rs) ∧
    (gauss_legendre lib (.list ns) = .ok r → ∃ rs, List.Forall₂ (fun n ri => gl1d lib n = .ok ri) ns rs ∧ IsTensor r rs) :=
  ⟨gauss_tensor (fun _ _ h => colRule_g1d h) ns r, gauss_tensor (fun _ _ h => colRule_g1d h) ns r⟩

theorem isTensor_count {r : Rule} {rs : List Rule} (h : IsTensor r rs) : r.x.rows = (rs.map fun ri => ri.x.rows).prod := by
  have h1 := congrArg List.length h.pts
  rw [tensor_length, List.map_map] at h1
  simpa [points, points1, Function.comp_def] using h1

theorem points1_isCol {r : Rule} {N : ℕ} {x w : Fin N → ℝ} (hx : IsCol r.x x) (hw : IsCol r.w w) :
    points1 r = List.ofFn fun i => (x i, w i) := by
  obtain ⟨rx, rw⟩ := r
  dsimp only at hx hw
  subst hx hw
  simp only [points1]
  refine congrArg List.ofFn (funext fun i => Prod.ext ?_ ?_)
  · exact NpMat.get_of (Matrix.of fun i (_ : Fin 1) => x i) i 0
  · exact NpMat.get_of (Matrix.of fun i (_ : Fin 1) => w i) i 0

/-- One-dimensional rules: number of nodes, positive weights, sum one. -/
theorem g1d_points {lib : Lib} (h : LibOK lib) {q : QuadType} (hq : q = .hermite ∨ q = .legendre) {N : ℤ} {r : Rule}
    (hr : g1d lib (.int N) q = .ok r) :
    r.x.rows = max 1 N.toNat ∧ (∀ xw ∈ points1 r, 0 < xw.2) ∧ ((points1 r).map Prod.snd).sum = 1 := by
  have key : ∀ {n : ℕ} {x w : Fin n → ℝ}, IsCol r.x x → IsCol r.w w → (∀ i, 0 < w i) → ∑ i, w i = 1 →
      r.x.rows = n ∧ (∀ xw ∈ points1 r, 0 < xw.2) ∧ ((points1 r).map Prod.snd).sum = 1 := by
    intro n x w hx hw hpos hsum
    refine ⟨by rw [hx]; rfl, ?_, ?_⟩
    · rw [points1_isCol hx hw]
      intro xw hxw
      obtain ⟨i, rfl⟩ := (List.mem_ofFn' _ _).mp hxw
      exact hpos i
    · rw [points1_isCol hx hw, List.map_ofFn, List.sum_ofFn]
      exact hsum
  rcases le_or_gt N 1 with hN | hN
  · obtain ⟨r', h1, hx, hw⟩ := (C23_one lib q).1 N hN
    rw [hr] at h1
    obtain rfl := Except.ok.inj h1
    rw [show max 1 N.toNat = 1 by omega]
    exact key hx hw (fun _ => one_pos) (by simp)
  · obtain ⟨n, rfl⟩ : ∃ n : ℕ, N = n := ⟨N.toNat, by omega⟩
    obtain ⟨x, w, hx, hw, hpos, hsum, _⟩ := C23_rule h hq (by omega) hr
    rw [show max 1 ((n : ℤ)).toNat = n by omega]
    exact key hx hw hpos hsum

theorem tensor_consequences {lib : Lib} (h : LibOK lib) {q : QuadType} (hq : q = .hermite ∨ q = .legendre) (ns : List ℤ)
    {r : Rule} (hr : gauss (fun n => g1d lib n q) (.list (ns.map .int)) = .ok r) :
    r.x.rows = (ns.map fun n => max 1 n.toNat).prod ∧ r.x.cols = ns.length ∧
    (∀ i : Fin r.x.rows, 0 < r.w.get i 0) ∧ ∑ i : Fin r.x.rows, r.w.get i 0 = 1 := by
  obtain ⟨rs, hrs, hT⟩ := gauss_tensor (fun _ _ h => colRule_g1d h) _ r hr
  rw [List.forall₂_map_left_iff] at hrs
  have hall : List.Forall₂ (fun n ri => ri.x.rows = max 1 n.toNat ∧ (∀ xw ∈ points1 ri, 0 < xw.2) ∧
      ((points1 ri).map Prod.snd).sum = 1) ns rs := hrs.imp fun n ri hri => g1d_points h hq hri
  have hpt : ∀ ri ∈ rs, (∀ xw ∈ points1 ri, 0 < xw.2) ∧ ((points1 ri).map Prod.snd).sum = 1 := by
    clear hT hrs hr
    induction hall with
    | nil => simp
    | cons h1 _ ih =>
      intro ri hri
      rcases List.mem_cons.mp hri with rfl | hri
      · exact h1.2
      · exact ih ri hri
  refine ⟨?_, ?_, ?_, ?_⟩
  · rw [isTensor_count hT]
    congr 1
    clear hT hrs hpt hr
    induction hall with
    | nil => rfl
    | cons h1 _ ih => rw [List.map_cons, List.map_cons, h1.1, ih]
  · rw [hT.cols, hall.length_eq]
  · intro i
    have hmem : (List.ofFn (fun j : Fin r.x.cols => r.x.val i j), r.w.get i 0) ∈ points r :=
      (List.mem_ofFn' _ _).mpr ⟨i, rfl⟩
    rw [hT.pts] at hmem
    obtain ⟨c, hc, _, hprod⟩ := tensor_mem hmem
    dsimp only at hprod
    rw [hprod]
    refine List.prod_pos fun a ha => ?_
    obtain ⟨xw, hxw, rfl⟩ := List.mem_map.mp ha
    rename_i hfst
    clear hfst hprod hmem ha
    rw [List.forall₂_map_right_iff] at hc
    clear hT hrs hall hr i
    induction hc with
    | nil => cases hxw
    | cons h1 _ ih =>
      rcases List.mem_cons.mp hxw with rfl | hxw
      · exact (hpt _ List.mem_cons_self).1 _ h1
      · exact ih (fun ri hri => hpt ri (List.mem_cons_of_mem _ hri)) hxw
  · have h1 : ∑ i : Fin r.x.rows, r.w.get i 0 = ((points r).map Prod.snd).sum := by
      rw [points, List.map_ofFn, List.sum_ofFn]
      rfl
    rw [h1, hT.pts, sum_weights, List.map_map]
    apply List.prod_eq_one
    intro a ha
    obtain ⟨ri, hri, rfl⟩ := List.mem_map.mp ha
    exact (hpt ri hri).2

/-- C24: number of rows and columns, positive weights, sum one. -/
theorem C24_weights {lib : Lib} (h : LibOK lib) (ns : List ℤ) {r : Rule}
    (hr : gauss_hermite lib (.list (ns.map .int)) = .ok r ∨ gauss_legendre lib (.list (ns.map .int)) = .ok r) :
    r.x.rows = (ns.map fun n => max 1 n.toNat).prod ∧ r.x.cols = ns.length ∧
    (∀ i : Fin r.x.rows, 0 < r.w.get i 0) ∧ ∑ i : Fin r.x.rows, r.w.get i 0 = 1 := by
  rcases hr with hr | hr
  · exact tensor_consequences h (.inl rfl) ns hr
  · exact tensor_consequences h (.inr rfl) ns hr

/-- C24: the quadrature sum of a product of univariate functions is the product of the one-dimensional sums. -/
theorem C24_product (lib : Lib) (ns : List Num) (r : Rule) (fs : List (ℝ → ℝ)) (hf : fs.length = ns.length) :
    (gauss_hermite lib (.list ns) = .ok r → ∃ rs, List.Forall₂ (fun n ri => gh1d lib n = .ok ri) ns rs ∧
      ∑ i : Fin r.x.rows, r.w.get i 0 * prodFun fs (List.ofFn fun j => r.x.val i j)
        = (List.zipWith (fun ri f => ∑ i : Fin ri.x.rows, ri.w.get i 0 * f (ri.x.get i 0)) rs fs).prod) ∧
    (gauss_legendre lib (.list ns) = .ok r → ∃ rs, List.Forall₂ (fun n ri => gl1d lib n = .ok ri) ns rs ∧
      ∑ i : Fin r.x.rows, r.w.get i 0 * prodFun fs (List.ofFn fun j => r.x.val i j)
        = (List.zipWith (fun ri f => ∑ i : Fin ri.x.rows, ri.w.get i 0 * f (ri.x.get i 0)) rs fs).prod) := by
  have key : ∀ rs, rs.length = ns.length → IsTensor r rs →
      ∑ i : Fin r.x.rows, r.w.get i 0 * prodFun fs (List.ofFn fun j => r.x.val i j)
        = (List.zipWith (fun ri f => ∑ i : Fin ri.x.rows, ri.w.get i 0 * f (ri.x.get i 0)) rs fs).prod := by
    intro rs hlen hT
    have h1 : ∑ i : Fin r.x.rows, r.w.get i 0 * prodFun fs (List.ofFn fun j => r.x.val i j) = quad (points r) (prodFun fs) := by
      rw [points, quad, List.map_ofFn, List.sum_ofFn]
      rfl
    rw [h1, hT.pts, quad_tensor _ _ (by simp [hlen, hf]), List.zipWith_map_left]
    congr 1
    congr 1
    funext ri f
    rw [points1, quad, List.map_ofFn, List.sum_ofFn]
    rfl
  constructor
  · intro h
    obtain ⟨rs, h1, h2⟩ := (C24_tensor lib ns r).1 h
    exact ⟨rs, h1, key rs h1.length_eq.symm h2⟩
  · intro h
    obtain ⟨rs, h1, h2⟩ := (C24_tensor lib ns r).2 h
    exact ⟨rs, h1, key rs h1.length_eq.symm h2⟩

theorem foldlM_ok {f : Num → Except Err Rule} (ns : List Num) (hok : ∀ n ∈ ns, ∃ r, f n = .ok r) : ∀ r0 : Rule,
    ∃ r, (ns.foldlM (fun r n => do tensorStep r (← f n)) r0 : Except Err Rule) = .ok r := by
  induction ns with
  | nil => exact fun r0 => ⟨r0, rfl⟩
  | cons n ns ih =>
    intro r0
    obtain ⟨ri, hri⟩ := hok n List.mem_cons_self
    obtain ⟨r1, hr1⟩ := tensorStep_ok r0 ri
    obtain ⟨r, hr⟩ := ih (fun m hm => hok m (List.mem_cons_of_mem _ hm)) r1
    refine ⟨r, ?_⟩
    rw [List.foldlM_cons, hri]
    change (tensorStep r0 ri >>= _) = _
    rw [hr1]
    exact hr

/-- C24: an integer gives the one-dimensional rule; a float or an object that is not a list raises `TypeError`;
`gauss_hermite_design` returns the nodes; lists of integers succeed when `eig` does. -/
theorem C24_cases (lib : Lib) : (∀ n, gauss_hermite lib (.num (.int n)) = gh1d lib (.int n) ∧
      gauss_legendre lib (.num (.int n)) = gl1d lib (.int n)) ∧
    (∀ x, gauss_hermite lib (.num (.float x)) = .error .typeError ∧ gauss_legendre lib (.num (.float x)) = .error .typeError) ∧
    (gauss_hermite lib .other = .error .typeError ∧ gauss_legendre lib .other = .error .typeError) ∧
    (∀ N r, gauss_hermite lib N = .ok r → gauss_hermite_design lib N = .ok r.x) ∧
    (∀ N e, gauss_hermite lib N = .error e → gauss_hermite_design lib N = .error e) ∧
    ((∀ {n : ℕ} (A : Matrix (Fin n) (Fin n) ℝ), A.transpose = A → ∃ eV, lib.eig A = .ok eV) → ∀ ns : List ℤ,
      (∃ r, gauss_hermite lib (.list (ns.map .int)) = .ok r) ∧ ∃ r, gauss_legendre lib (.list (ns.map .int)) = .ok r) := by
  refine ⟨fun n => ⟨rfl, rfl⟩, fun x => ⟨rfl, rfl⟩, ⟨rfl, rfl⟩, fun N r h => ?_, fun N e h => ?_, fun heig ns => ?_⟩
  · rw [gauss_hermite_design, h]; rfl
  · rw [gauss_hermite_design, h]; rfl
  · have key : ∀ q : QuadType, q ≠ .other → ∃ r, gauss (fun n => g1d lib n q) (.list (ns.map .int)) = .ok r := by
      intro q hq
      have hloop : ∃ r, tensorLoop (fun n => g1d lib n q) (ns.map .int) = .ok r := by
        obtain ⟨r, hr⟩ := foldlM_ok (f := fun n => g1d lib n q) (ns.map .int) (fun n hn => by
          obtain ⟨k, _, rfl⟩ := List.mem_map.mp hn
          exact g1d_ok hq heig k) ⟨NpMat.of (Matrix.of fun (_ _ : Fin 1) => 1), NpMat.of (Matrix.of fun (_ _ : Fin 1) => 1)⟩
        refine ⟨⟨r.x.dropCol, r.w⟩, ?_⟩
        unfold tensorLoop
        change ((ns.map Num.int).foldlM (fun r n => do tensorStep r (← g1d lib n q)) _ >>= _) = Except.ok _
        rw [hr]
        rfl
      match ns, hloop with
      | [], hloop => exact hloop
      | [n], _ => exact g1d_ok hq heig n
      | _ :: _ :: _, hloop => exact hloop
    exact ⟨key .hermite (by simp), key .legendre (by simp)⟩

example : ∃ lib : Lib, LibOK lib ∧ ∃ r, gauss_hermite lib (.list [.int 2, .int 3]) = .ok r := by
  obtain ⟨lib, h1, h2⟩ := quadLib_exists
  exact ⟨lib, h1, ((C24_cases lib).2.2.2.2.2 h2 [2, 3]).1⟩

end Props
