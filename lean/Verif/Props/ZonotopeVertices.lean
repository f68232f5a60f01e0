import Mathlib.Analysis.Convex.Extreme
import Verif.Proofs.GeneralPosition
import Verif.Props.ZonotopeHull

/-!
# Properties C90 and C91: the vertices of the zonotope, their number, and the warning
-/

open Py Model.Domains Model.Subspaces Model.QPSolver Spec

namespace Props

variable {S E : Type} {m n : ℕ}

/-! ## C90 -/

theorem sum_swap (W1 : Matrix (Fin m) (Fin n) ℝ) (z : Fin n → ℝ) (x : Fin m → ℝ) :
    ∑ j, (∑ i, W1 i j * x i) * z j = ∑ i, (∑ j, W1 i j * z j) * x i := by
  simp only [Finset.sum_mul]
  rw [Finset.sum_comm]
  exact Finset.sum_congr rfl fun i _ => Finset.sum_congr rfl fun j _ => by ring

/-- A sign vector is the only point of the cube that maximises the product with its direction. -/
theorem sign_unique_max {p : Fin m → ℝ} {x u : Fin m → ℝ} (hx : ∀ i, (0 < p i ∧ x i = 1) ∨ (p i < 0 ∧ x i = -1)) (hu : u ∈ cube m) :
    ∑ i, p i * u i ≤ ∑ i, p i * x i ∧ (∑ i, p i * u i = ∑ i, p i * x i → u = x) := by
  have hterm : ∀ i ∈ Finset.univ, p i * u i ≤ p i * x i := fun i _ => by
    obtain ⟨h1, h2⟩ := hu i
    rcases hx i with ⟨h3, h4⟩ | ⟨h3, h4⟩ <;> rw [h4]
    · exact mul_le_mul_of_nonneg_left h2 h3.le
    · exact mul_le_mul_of_nonpos_left h1 h3.le
  refine ⟨Finset.sum_le_sum hterm, fun h => funext fun i => ?_⟩
  have := (Finset.sum_eq_sum_iff_of_le hterm).mp h i (Finset.mem_univ _)
  rcases hx i with ⟨h3, -⟩ | ⟨h3, -⟩
  · exact mul_left_cancel₀ h3.ne' this
  · exact mul_left_cancel₀ h3.ne this

/-- Different sign vectors have different images, and no other point of the cube has the same image. -/
theorem sign_image_unique {W1 : Matrix (Fin m) (Fin n) ℝ} {x u : Fin m → ℝ} (hx : x ∈ signVectors W1) (hu : u ∈ cube m)
    (h : ∀ j, ∑ i, W1 i j * u i = ∑ i, W1 i j * x i) : u = x := by
  obtain ⟨z, hz⟩ := hx
  refine (sign_unique_max hz hu).2 ?_
  rw [← sum_swap, ← sum_swap]
  exact Finset.sum_congr rfl fun j _ => by rw [h]

theorem sign_cube {W1 : Matrix (Fin m) (Fin n) ℝ} {x : Fin m → ℝ} (hx : x ∈ signVectors W1) : x ∈ cube m := by
  obtain ⟨z, hz⟩ := hx
  intro i
  rcases hz i with ⟨-, h⟩ | ⟨-, h⟩ <;> rw [h] <;> norm_num

/-- The image of a sign vector is a vertex of the zonotope. -/
theorem sign_extreme {W1 : Matrix (Fin m) (Fin n) ℝ} {x : Fin m → ℝ} (hx : x ∈ signVectors W1) :
    (fun j => ∑ i, W1 i j * x i) ∈ (zonotope W1).extremePoints ℝ := by
  rw [mem_extremePoints_iff_left]
  refine ⟨⟨x, sign_cube hx, fun _ => rfl⟩, ?_⟩
  rintro y1 ⟨x1, h1, hy1⟩ y2 ⟨x2, h2, hy2⟩ ⟨a, b, ha, hb, hab, he⟩
  obtain ⟨z, hz⟩ := hx
  obtain ⟨m1, u1⟩ := sign_unique_max hz h1
  obtain ⟨m2, -⟩ := sign_unique_max hz h2
  have hv : ∑ j, (a * y1 j + b * y2 j) * z j = ∑ i, (∑ j, W1 i j * z j) * x i := by
    rw [← sum_swap]
    refine Finset.sum_congr rfl fun j _ => ?_
    have := congrFun he j
    simp only [Pi.add_apply, Pi.smul_apply, smul_eq_mul] at this
    rw [this]
  have hv' : ∑ j, (a * y1 j + b * y2 j) * z j = a * ∑ i, (∑ j, W1 i j * z j) * x1 i + b * ∑ i, (∑ j, W1 i j * z j) * x2 i := by
    rw [← sum_swap, ← sum_swap, Finset.mul_sum, Finset.mul_sum, ← Finset.sum_add_distrib]
    refine Finset.sum_congr rfl fun j _ => ?_
    rw [hy1, hy2]
    ring
  have heq : ∑ i, (∑ j, W1 i j * z j) * x1 i = ∑ i, (∑ j, W1 i j * z j) * x i := by
    refine le_antisymm m1 (le_of_not_gt fun hlt => ?_)
    have h3 := mul_lt_mul_of_pos_left hlt ha
    have h4 := mul_le_mul_of_nonneg_left m2 hb.le
    have h5 : a * ∑ i, (∑ j, W1 i j * z j) * x i + b * ∑ i, (∑ j, W1 i j * z j) * x i = ∑ i, (∑ j, W1 i j * z j) * x i := by
      rw [← add_mul, hab, one_mul]
    linarith
  funext j
  rw [hy1, u1 heq]

/-- Without zero rows, the vertices of the zonotope are the images of the sign vectors. -/
theorem extreme_iff (W1 : Matrix (Fin m) (Fin n) ℝ) (hrow : ∀ i, ∃ j, W1 i j ≠ 0) (y : Fin n → ℝ) :
    y ∈ (zonotope W1).extremePoints ℝ ↔ ∃ x ∈ signVectors W1, y = fun j => ∑ i, W1 i j * x i := by
  constructor
  · intro hy
    have hfin := Proofs.SignVectors.finite W1
    let e := hfin.toFinset.equivFin.symm
    have he : ∀ a, (e a).1 ∈ signVectors W1 := fun a => hfin.mem_toFinset.mp (e a).2
    have hhull := hull_eq_zonotope W1 hrow (fun a => (e a).1) (fun a j => ∑ i, (e a).1 i * W1 i j) (fun a j => rfl)
      (fun a => sign_cube (he a)) fun x hx => ⟨e.symm ⟨x, hfin.mem_toFinset.mpr hx⟩, by simp⟩
    rw [← hhull] at hy
    obtain ⟨a, rfl⟩ := extremePoints_convexHull_subset hy
    exact ⟨_, he a, funext fun j => Finset.sum_congr rfl fun i _ => mul_comm _ _⟩
  · rintro ⟨x, hx, rfl⟩
    exact sign_extreme hx

theorem ncard_extreme (W1 : Matrix (Fin m) (Fin n) ℝ) (hrow : ∀ i, ∃ j, W1 i j ≠ 0) :
    ((zonotope W1).extremePoints ℝ).ncard = (signVectors W1).ncard := by
  have h : (zonotope W1).extremePoints ℝ = (fun (x : Fin m → ℝ) (j : Fin n) => ∑ i, W1 i j * x i) '' signVectors W1 := by
    ext y
    rw [extreme_iff W1 hrow, Set.mem_image]
    exact exists_congr fun x => and_congr_right fun _ => eq_comm
  rw [h]
  refine Set.InjOn.ncard_image fun x hx y hy hxy => ?_
  exact sign_image_unique hy (sign_cube hx) fun j => congrFun hxy j

theorem GeneralPosition.row_ne {W1 : Matrix (Fin m) (Fin n) ℝ} (hg : GeneralPosition W1) (hn : 1 ≤ n) (i : Fin m) : ∃ j, W1 i j ≠ 0 := by
  by_contra h
  push Not at h
  have := (hg {i} (by simpa using hn)).ne_zero ⟨i, Finset.mem_singleton_self i⟩
  exact this (funext h)

/-- C90: a zonotope has at most `nzv` vertices, and exactly `nzv` if and only if the rows of `W1` are in general position. -/
theorem C90_count (W1 : Matrix (Fin m) (Fin n) ℝ) (hm : 1 ≤ m) (hrow : ∀ i, ∃ j, W1 i j ≠ 0) :
    ∃ N, nzv (.int m) (.int n) = .ok N ∧ ((zonotope W1).extremePoints ℝ).ncard ≤ N ∧
      (((zonotope W1).extremePoints ℝ).ncard = N ↔ GeneralPosition W1) := by
  refine ⟨_, C50_formula m n hm, ?_, ?_⟩
  all_goals
    rw [ncard_extreme W1 hrow]
    obtain ⟨k, rfl⟩ : ∃ k, m = k + 1 := ⟨m - 1, by omega⟩
    simp only [Nat.add_sub_cancel]
  · exact Proofs.SignVectors.ncard_le W1
  · exact Proofs.GeneralPosition.ncard_eq_iff W1

/-- C90: rows of `vertY` that belong to rows of `vertX` without zeros are vertices of the zonotope, all different, and each is the image of
no other point of the cube than its row of `vertX`. -/
theorem C90_rows {lib : Model.Domains.Lib} (hu : UniqueOK lib) (rng : Rng S) (W1 : Matrix (Fin m) (Fin n) ℝ) (Nsamples maxcount : ℕ)
    (hm : 1 ≤ m) (w w' : S × Files × Out × E) (v : Verts m n)
    (h : (zonotope_vertices lib rng W1 Nsamples maxcount).run w = (.ok v, w')) (a : Fin v.num) (ha : ∀ i, v.X a i ≠ 0) :
    v.Y a ∈ (zonotope W1).extremePoints ℝ ∧ (∀ b, v.Y b = v.Y a → b = a) ∧
      ∀ u ∈ cube m, (∀ j, ∑ i, W1 i j * u i = v.Y a j) → u = v.X a := by
  obtain ⟨v', r, N, h1, -, -, -, hinj, -, -, hsign, hY, -⟩ := C51_rows hu rng W1 Nsamples maxcount hm w
  rw [h] at h1
  have hv := Except.ok.inj (Prod.mk.inj h1).1
  subst hv
  have hmem : v.X a ∈ signVectors W1 := by
    obtain ⟨z, -, hz⟩ := hsign a
    exact row_mem_signVectors ⟨z, hz⟩ ha
  have hY' : ∀ b j, v.Y b j = ∑ i, W1 i j * v.X b i := fun b j => by
    rw [hY]
    exact Finset.sum_congr rfl fun i _ => mul_comm _ _
  have huniq : ∀ u ∈ cube m, (∀ j, ∑ i, W1 i j * u i = v.Y a j) → u = v.X a := fun u hu' he =>
    sign_image_unique hmem hu' fun j => by rw [he, hY']
  refine ⟨?_, fun b hb => ?_, huniq⟩
  · have := sign_extreme hmem
    convert this using 1
    funext j
    exact hY' a j
  · have hb' : v.X b ∈ cube m := by
      obtain ⟨z, -, hz⟩ := hsign b
      exact sign_row_cube ⟨z, hz⟩
    have := huniq _ hb' fun j => by rw [← hY', hb]
    exact (hinj a b this.symm ha).symm

/-! ## C91 -/

/-- The rows of the result, when no product of a draw is zero. -/
theorem run_facts {lib : Model.Domains.Lib} (hu : UniqueOK lib) (rng : Rng S) (W1 : Matrix (Fin m) (Fin n) ℝ) (Nsamples maxcount : ℕ)
    (hm : 1 ≤ m) (w w' : S × Files × Out × E) (v : Verts m n)
    (h : (zonotope_vertices lib rng W1 Nsamples maxcount).run w = (.ok v, w'))
    (hz : ∀ q ≤ maxcount + 1, ∀ b i, ∑ j, W1 i j * (rng.normal Nsamples n (rounds rng Nsamples n q w.1)).1 b j ≠ 0) :
    (∀ a i, v.X a i ≠ 0) ∧ Set.range (fun a => v.Y a) ⊆ (zonotope W1).extremePoints ℝ ∧ Function.Injective fun a => v.Y a := by
  have h0 : ∀ a i, v.X a i ≠ 0 := by
    obtain ⟨v', r, N, h1, -, hr, -, -, -, -, hsign, -, -⟩ := C51_rows hu rng W1 Nsamples maxcount hm w
    rw [h] at h1
    have hv := Except.ok.inj (Prod.mk.inj h1).1
    subst hv
    intro a i
    obtain ⟨z, ⟨q, hq, b, hsb⟩, hz'⟩ := hsign a
    have hne : ∑ j, W1 i j * z j ≠ 0 := by
      rcases hsb with hsb | hsb
      · simp only [hsb]
        exact hz q (by omega) b i
      · simp only [hsb, mul_neg, Finset.sum_neg_distrib]
        exact neg_ne_zero.mpr (hz q (by omega) b i)
    rw [hz']
    exact fun h => hne (Real.sign_eq_zero_iff.mp h)
  refine ⟨h0, ?_, fun a b hab => ?_⟩
  · rintro _ ⟨a, rfl⟩
    exact (C90_rows hu rng W1 Nsamples maxcount hm w w' v h a (h0 a)).1
  · exact (C90_rows hu rng W1 Nsamples maxcount hm w w' v h b (h0 b)).2.1 a hab

/-- C91 fails for every matrix that is not in general position: whatever is drawn and found, the loop runs to the end (`maxcount + 2` draws) and
the warning is printed. -/
theorem C91_always_warns {lib : Model.Domains.Lib} (hu : UniqueOK lib) (rng : Rng S) (W1 : Matrix (Fin m) (Fin n) ℝ) (Nsamples maxcount : ℕ)
    (hm : 1 ≤ m) (w w' : S × Files × Out × E) (v : Verts m n)
    (h : (zonotope_vertices lib rng W1 Nsamples maxcount).run w = (.ok v, w'))
    (hz : ∀ q ≤ maxcount + 1, ∀ b i, ∑ j, W1 i j * (rng.normal Nsamples n (rounds rng Nsamples n q w.1)).1 b j ≠ 0) (hg : ¬ GeneralPosition W1) :
    ∃ N, nzv (.int m) (.int n) = .ok N ∧ v.num < N ∧ w'.2.2.1 = w.2.2.1 ++ [(v.num, N)] ∧
      w'.1 = rounds rng Nsamples n (maxcount + 2) w.1 := by
  obtain ⟨N, hN, hle, -, hall⟩ := C51_complete hu rng W1 Nsamples maxcount hm w w' v h hz
  obtain ⟨v', r, N', h1, hN', hr, hr', -⟩ := C51_rows hu rng W1 Nsamples maxcount hm w
  have hNN : N = N' := by
    rw [C50_formula m n hm] at hN
    rw [hN']
    exact (Except.ok.inj hN).symm
  subst hNN
  have h0 := (run_facts hu rng W1 Nsamples maxcount hm w w' v h hz).1
  rw [h] at h1
  have hv := Except.ok.inj (Prod.mk.inj h1).1
  subst hv
  have hlt : v.num < N := by
    refine lt_of_le_of_ne hle fun heq => hg ?_
    obtain ⟨k, rfl⟩ : ∃ k, m = k + 1 := ⟨m - 1, by omega⟩
    refine (Proofs.GeneralPosition.ncard_eq_iff W1).mp (le_antisymm (Proofs.SignVectors.ncard_le W1) ?_)
    have hr : signVectors W1 = Set.range fun a : Fin v.num => v.X a := by
      ext x
      exact hall heq x
    have hinj : Function.Injective fun a : Fin v.num => v.X a := by
      obtain ⟨v'', _, _, h2, -, -, -, hi, -⟩ := C51_rows hu rng W1 Nsamples maxcount hm w
      rw [h] at h2
      have hv := Except.ok.inj (Prod.mk.inj h2).1
      subst hv
      exact fun a b hab => hi a b hab (h0 a)
    rw [hr, ← Set.image_univ, Set.ncard_image_of_injective _ hinj, Set.ncard_univ, Nat.card_eq_fintype_card, Fintype.card_fin, heq, hN']
    simp
  refine ⟨N, hN, hlt, ?_, ?_⟩
  · rw [(Prod.mk.inj h1).2]
    simp only [if_pos hlt]
  · rw [(Prod.mk.inj h1).2, hr' hlt]

/-- C91, the part that holds: in general position the warning is printed exactly when a vertex is missing. -/
theorem C91_general_position_partial {lib : Model.Domains.Lib} (hu : UniqueOK lib) (rng : Rng S) (W1 : Matrix (Fin m) (Fin n) ℝ)
    (Nsamples maxcount : ℕ) (hm : 1 ≤ m) (hn : 1 ≤ n) (w w' : S × Files × Out × E) (v : Verts m n)
    (h : (zonotope_vertices lib rng W1 Nsamples maxcount).run w = (.ok v, w'))
    (hz : ∀ q ≤ maxcount + 1, ∀ b i, ∑ j, W1 i j * (rng.normal Nsamples n (rounds rng Nsamples n q w.1)).1 b j ≠ 0) (hg : GeneralPosition W1) :
    w'.2.2.1 = w.2.2.1 ↔ Set.range (fun a => v.Y a) = (zonotope W1).extremePoints ℝ := by
  obtain ⟨N, hN, hle, hwarn, -⟩ := C51_complete hu rng W1 Nsamples maxcount hm w w' v h hz
  obtain ⟨-, hsub, hinj⟩ := run_facts hu rng W1 Nsamples maxcount hm w w' v h hz
  obtain ⟨N', hN', -, hcount⟩ := C90_count W1 hm (GeneralPosition.row_ne hg hn)
  have hNN : N' = N := Except.ok.inj (hN'.symm.trans hN)
  subst hNN
  have hcard : (Set.range fun a => v.Y a).ncard = v.num := by
    rw [← Set.image_univ, Set.ncard_image_of_injective _ hinj, Set.ncard_univ, Nat.card_eq_fintype_card, Fintype.card_fin]
  have hc := hcount.mpr hg
  rw [hwarn]
  constructor
  · intro heq
    have hfin : ((zonotope W1).extremePoints ℝ).Finite := by
      have : (zonotope W1).extremePoints ℝ = (fun (x : Fin m → ℝ) (j : Fin n) => ∑ i, W1 i j * x i) '' signVectors W1 := by
        ext y
        rw [extreme_iff W1 (GeneralPosition.row_ne hg hn), Set.mem_image]
        exact exists_congr fun x => and_congr_right fun _ => eq_comm
      rw [this]
      exact (Proofs.SignVectors.finite W1).image _
    exact Set.eq_of_subset_of_ncard_le hsub (by rw [hcard, hc, heq]) hfin
  · intro heq
    rw [← hcard, heq, hc]

/-- The square: its rows are in general position, so the hypotheses of `C90_count` and `C91_general_position_partial` can be met. -/
example : GeneralPosition (1 : Matrix (Fin 2) (Fin 2) ℝ) ∧ (∀ i, ∃ j, (1 : Matrix (Fin 2) (Fin 2) ℝ) i j ≠ 0) ∧
    nzv (.int (2 : ℕ)) (.int (2 : ℕ)) = .ok 4 := by
  have hrow : ∀ i, ∃ j, (1 : Matrix (Fin 2) (Fin 2) ℝ) i j ≠ 0 := fun i => ⟨i, by simp⟩
  refine ⟨fun s _ => ?_, hrow, C50_full 2 2 (by omega) le_rfl⟩
  have h : LinearIndependent ℝ fun i : Fin 2 => (1 : Matrix (Fin 2) (Fin 2) ℝ) i := by
    rw [Fintype.linearIndependent_iff]
    intro g hg i
    have := congrFun hg i
    fin_cases i <;> simpa [Fin.sum_univ_two] using this
  exact h.comp _ Subtype.val_injective

/-- A matrix with orthonormal columns and parallel rows. -/
noncomputable def parallelW1 : Matrix (Fin 4) (Fin 2) ℝ := !![3/5, 0; 4/5, 0; 0, 3/5; 0, 4/5]

/-- A generator that counts its draws; in every one row `a` has the signs of the binary digits of `a`. -/
noncomputable def digitRng : Rng ℕ :=
  ⟨fun _ => 0, fun r c s => (Matrix.of fun (a : Fin r) (j : Fin c) => if ((a : ℕ) / 2 ^ (j : ℕ)) % 2 = 0 then (1 : ℝ) else -1, s + 1),
    fun _ _ s => (0, s), fun _ s => (0, s)⟩

theorem parallel_not_general : ¬ GeneralPosition parallelW1 := by
  intro h
  have := h {0, 1} (by decide)
  rw [Fintype.linearIndependent_iff] at this
  have h1 := this (fun i => if i.1 = 0 then 4 else -3) (by
    funext j
    rw [Finset.sum_apply, Finset.sum_coe_sort {0, 1} fun i : Fin 4 => (((if i = 0 then 4 else -3 : ℝ) • parallelW1 i) j)]
    rw [Finset.sum_pair (by decide)]
    fin_cases j <;> simp [parallelW1]; norm_num) ⟨0, by decide⟩
  norm_num at h1

theorem parallel_products (s : ℕ) (N : ℕ) (b : Fin N) (i : Fin 4) : ∑ j, parallelW1 i j * (digitRng.normal N 2 s).1 b j ≠ 0 := by
  rw [Fin.sum_univ_two]
  have h : ∀ j : Fin 2, (digitRng.normal N 2 s).1 b j = 1 ∨ (digitRng.normal N 2 s).1 b j = -1 := fun j => by
    change (if _ then (1 : ℝ) else -1) = 1 ∨ (if _ then (1 : ℝ) else -1) = -1
    split_ifs
    · exact .inl rfl
    · exact .inr rfl
  rcases h 0 with h0 | h0 <;> rcases h 1 with h1 | h1 <;> rw [h0, h1] <;> fin_cases i <;> simp [parallelW1]

theorem rounds_digit (N n r s : ℕ) : rounds digitRng N n r s = s + r := by
  induction r generalizing s with
  | zero => rfl
  | succ r ih =>
    change rounds digitRng N n r (s + 1) = _
    rw [ih]
    omega

/-- C91 fails: all vertices are found in the first draw, and still 100002 draws are made and the warning is printed. -/
theorem C91_refuted {lib : Model.Domains.Lib} (hu : UniqueOK lib) (w : ℕ × Files × Out × E) :
    parallelW1.transpose * parallelW1 = 1 ∧ ∃ v w', (zonotope_vertices lib digitRng parallelW1).run w = (.ok v, w') ∧
      Set.range (fun a => v.Y a) = (zonotope parallelW1).extremePoints ℝ ∧ v.num < 8 ∧ w'.2.2.1 = w.2.2.1 ++ [(v.num, 8)] ∧ w'.1 = w.1 + 100002 := by
  refine ⟨?_, ?_⟩
  · ext i j
    fin_cases i <;> fin_cases j <;> simp [parallelW1, Matrix.mul_apply, Fin.sum_univ_four] <;> norm_num
  obtain ⟨v, r, N, h, -, -, -, -, -, -, -, hY, hfirst, -⟩ := C51_rows hu digitRng parallelW1 10000 100000 (by omega) w
  obtain ⟨N', hN', hlt, hout, hst⟩ := C91_always_warns hu digitRng parallelW1 10000 100000 (by omega) w _ v h
    (fun q _ b i => parallel_products _ _ b i) parallel_not_general
  have h8 : N' = 8 := by
    rw [C50_formula 4 2 (by omega)] at hN'
    exact (Except.ok.inj hN').symm
  subst h8
  refine ⟨v, _, h, ?_, hlt, hout, by rw [hst, rounds_digit]⟩
  refine Set.Subset.antisymm (run_facts hu digitRng parallelW1 10000 100000 (by omega) w _ v h fun q _ b i => parallel_products _ _ b i).2.1 ?_
  have hrow : ∀ i, ∃ j, parallelW1 i j ≠ 0 := fun i => by
    fin_cases i
    · exact ⟨0, by simp [parallelW1]⟩
    · exact ⟨0, by simp [parallelW1]⟩
    · exact ⟨1, by simp [parallelW1]⟩
    · exact ⟨1, by simp [parallelW1]⟩
  intro y hy
  obtain ⟨x, ⟨z, hz⟩, rfl⟩ := (extreme_iff parallelW1 hrow y).mp hy
  -- the row of the draw with the same signs
  obtain ⟨b, hb⟩ : ∃ b : Fin 10000, ∀ i, Real.sign (∑ j, parallelW1 i j * (digitRng.normal 10000 2 w.1).1 b j) = x i := by
    have key : ∀ (b : Fin 10000) (s0 s1 : ℝ), (digitRng.normal 10000 2 w.1).1 b 0 = s0 → (digitRng.normal 10000 2 w.1).1 b 1 = s1 →
        ∀ i, ∑ j, parallelW1 i j * (digitRng.normal 10000 2 w.1).1 b j = parallelW1 i 0 * s0 + parallelW1 i 1 * s1 := by
      rintro b s0 s1 h0 h1 i
      rw [Fin.sum_univ_two, h0, h1]
    have hx : x 0 = x 1 ∧ x 2 = x 3 ∧ (x 0 = 1 ∨ x 0 = -1) ∧ (x 2 = 1 ∨ x 2 = -1) := by
      have h0 := hz 0
      have h1 := hz 1
      have h2 := hz 2
      have h3 := hz 3
      simp only [Fin.sum_univ_two, parallelW1] at h0 h1 h2 h3
      simp at h0 h1 h2 h3
      refine ⟨?_, ?_, ?_, ?_⟩
      · rcases h0 with ⟨a, b⟩ | ⟨a, b⟩ <;> rcases h1 with ⟨c, d⟩ | ⟨c, d⟩ <;> first | (rw [b, d]; done) | (exfalso; linarith)
      · rcases h2 with ⟨a, b⟩ | ⟨a, b⟩ <;> rcases h3 with ⟨c, d⟩ | ⟨c, d⟩ <;> first | (rw [b, d]; done) | (exfalso; linarith)
      · exact h0.imp And.right And.right
      · exact h2.imp And.right And.right
    obtain ⟨e1, e2, e3, e4⟩ := hx
    have hp : Real.sign (3 / 5 : ℝ) = 1 ∧ Real.sign (4 / 5 : ℝ) = 1 ∧ Real.sign (-(3 / 5) : ℝ) = -1 ∧ Real.sign (-(4 / 5) : ℝ) = -1 :=
      ⟨Real.sign_of_pos (by norm_num), Real.sign_of_pos (by norm_num), Real.sign_of_neg (by norm_num), Real.sign_of_neg (by norm_num)⟩
    rcases e3 with e3 | e3 <;> rcases e4 with e4 | e4
    · refine ⟨0, fun i => ?_⟩
      rw [key 0 1 1 (by simp [digitRng]) (by simp [digitRng])]
      fin_cases i <;> simp [parallelW1, hp, ← e1, ← e2, e3, e4]
    · refine ⟨2, fun i => ?_⟩
      rw [key 2 1 (-1) (by simp [digitRng]) (by simp [digitRng])]
      fin_cases i <;> simp [parallelW1, hp, ← e1, ← e2, e3, e4]
    · refine ⟨1, fun i => ?_⟩
      rw [key 1 (-1) 1 (by simp [digitRng]) (by simp [digitRng])]
      fin_cases i <;> simp [parallelW1, hp, ← e1, ← e2, e3, e4]
    · refine ⟨3, fun i => ?_⟩
      rw [key 3 (-1) (-1) (by simp [digitRng]) (by simp [digitRng])]
      fin_cases i <;> simp [parallelW1, hp, ← e1, ← e2, e3, e4]
  obtain ⟨a, ha⟩ := hfirst 0 (Nat.zero_le _) b
  refine ⟨a, ?_⟩
  funext j
  refine (hY a j).trans ?_
  exact Finset.sum_congr rfl fun i _ => by rw [show v.X a i = x i from (ha i).trans (hb i), mul_comm]

end Props
