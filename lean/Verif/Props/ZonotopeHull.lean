import Mathlib.Algebra.Module.Submodule.Union
import Mathlib.Analysis.Convex.Topology
import Mathlib.Analysis.LocallyConvex.Separation
import Verif.Props.Designs
import Verif.Props.Zonotope

/-!
# Properties C52, C53 and C54: the domain of the active variables
-/

open Py Model.Domains Model.Subspaces Model.QPSolver Spec

namespace Props

variable {S E : Type} {m n : ℕ}

/-! ## C52 -/

/-- A map without zero rows has arguments without zero products. -/
theorem exists_generic (W1 : Matrix (Fin m) (Fin n) ℝ) (h : ∀ i, ∃ j, W1 i j ≠ 0) : ∃ z : Fin n → ℝ, ∀ i, ∑ j, W1 i j * z j ≠ 0 := by
  obtain ⟨f, hf⟩ := Module.exists_dual_forall_apply_ne_zero (K := ℝ) (fun i : Fin m => (W1 i : Fin n → ℝ))
    fun i h0 => by
      obtain ⟨j, hj⟩ := h i
      exact hj (congrFun h0 j)
  refine ⟨fun j => f (fun l => if j = l then 1 else 0), fun i => ?_⟩
  have := hf i
  rw [LinearMap.pi_apply_eq_sum_univ f] at this
  simpa using this

/-- Near every direction there is one without zero products. -/
theorem exists_generic_near (W1 : Matrix (Fin m) (Fin n) ℝ) (h : ∀ i, ∃ j, W1 i j ≠ 0) (θ : Fin n → ℝ) {V : ℕ}
    (d : Fin V → Fin n → ℝ) (hd : ∀ a, 0 < ∑ j, d a j * θ j) :
    ∃ θ' : Fin n → ℝ, (∀ i, ∑ j, W1 i j * θ' j ≠ 0) ∧ ∀ a, 0 < ∑ j, d a j * θ' j := by
  obtain ⟨η, hη⟩ := exists_generic W1 h
  have hlin : ∀ (c : Fin n → ℝ) (ε : ℝ), ∑ j, c j * (θ j + ε * η j) = ∑ j, c j * θ j + ε * ∑ j, c j * η j := fun c ε => by
    rw [Finset.mul_sum, ← Finset.sum_add_distrib]
    exact Finset.sum_congr rfl fun j _ => by ring
  -- the forbidden steps
  have hbad : (Set.range fun i : Fin m => -(∑ j, W1 i j * θ j) / ∑ j, W1 i j * η j).Finite := Set.finite_range _
  -- the admissible steps
  have hgood : ∃ δ > 0, ∀ ε, 0 < ε → ε < δ → ∀ a, 0 < ∑ j, d a j * (θ j + ε * η j) := by
    have h1 : ∀ a, ∃ δ > 0, ∀ ε, 0 < ε → ε < δ → 0 < ∑ j, d a j * (θ j + ε * η j) := by
      intro a
      refine ⟨(∑ j, d a j * θ j) / (|∑ j, d a j * η j| + 1), div_pos (hd a) (by positivity), fun ε h0 hε => ?_⟩
      rw [hlin]
      have hpos : (0 : ℝ) < |∑ j, d a j * η j| + 1 := by positivity
      rw [lt_div_iff₀ hpos] at hε
      have := neg_abs_le (∑ j, d a j * η j)
      nlinarith
    choose δ hδ hδ' using h1
    rcases Nat.eq_zero_or_pos V with hV | hV
    · subst hV
      exact ⟨1, one_pos, fun ε _ _ a => a.elim0⟩
    · have : Nonempty (Fin V) := ⟨⟨0, hV⟩⟩
      obtain ⟨a0, ha0⟩ := Finite.exists_min δ
      exact ⟨δ a0, hδ a0, fun ε h0 hε a => hδ' a ε h0 (lt_of_lt_of_le hε (ha0 a))⟩
  obtain ⟨δ, hδ, hδ'⟩ := hgood
  obtain ⟨ε, hε, hnot⟩ := ((Set.Ioo_infinite hδ).diff hbad).nonempty
  refine ⟨fun j => θ j + ε * η j, fun i h0 => hnot ⟨i, ?_⟩, hδ' ε hε.1 hε.2⟩
  rw [hlin] at h0
  have := hη i
  field_simp
  linarith

/-- The support of the zonotope is attained at a sign vector. -/
theorem zonotope_support (W1 : Matrix (Fin m) (Fin n) ℝ) (θ : Fin n → ℝ) (hθ : ∀ i, ∑ j, W1 i j * θ j ≠ 0) :
    ∃ x ∈ signVectors W1, ∀ y ∈ zonotope W1, ∑ j, y j * θ j ≤ ∑ j, (∑ i, W1 i j * x i) * θ j := by
  have hsw : ∀ x : Fin m → ℝ, ∑ j, (∑ i, W1 i j * x i) * θ j = ∑ i, (∑ j, W1 i j * θ j) * x i := fun x => by
    simp only [Finset.sum_mul]
    rw [Finset.sum_comm]
    exact Finset.sum_congr rfl fun i _ => Finset.sum_congr rfl fun j _ => by ring
  refine ⟨fun i => Real.sign (∑ j, W1 i j * θ j), row_mem_signVectors ⟨θ, fun i => rfl⟩ fun i h => hθ i (Real.sign_eq_zero_iff.mp h), ?_⟩
  rintro y ⟨x, hx, hy⟩
  simp only [hy]
  rw [hsw, hsw]
  refine Finset.sum_le_sum fun i _ => ?_
  rw [mul_sign]
  calc (∑ j, W1 i j * θ j) * x i ≤ |(∑ j, W1 i j * θ j) * x i| := le_abs_self _
    _ = |∑ j, W1 i j * θ j| * |x i| := abs_mul _ _
    _ ≤ |∑ j, W1 i j * θ j| := mul_le_of_le_one_right (abs_nonneg _) (abs_le.mpr (hx i))

theorem zonotope_convex (W1 : Matrix (Fin m) (Fin n) ℝ) : Convex ℝ (zonotope W1) := by
  rintro y ⟨x, hx, hy⟩ y' ⟨x', hx', hy'⟩ a b ha hb hab
  refine ⟨fun i => a * x i + b * x' i, fun i => ?_, fun j => ?_⟩
  · obtain ⟨h1, h2⟩ := hx i
    obtain ⟨h3, h4⟩ := hx' i
    constructor <;> nlinarith
  · simp only [Pi.add_apply, Pi.smul_apply, smul_eq_mul, hy, hy', Finset.mul_sum, ← Finset.sum_add_distrib]
    exact Finset.sum_congr rfl fun i _ => by ring

/-- The images of all sign vectors, and of other points of the cube, span the zonotope. -/
theorem hull_eq_zonotope (W1 : Matrix (Fin m) (Fin n) ℝ) (hrow : ∀ i, ∃ j, W1 i j ≠ 0) {V : ℕ} (X : Fin V → Fin m → ℝ)
    (Y : Fin V → Fin n → ℝ) (hY : ∀ a j, Y a j = ∑ i, X a i * W1 i j) (hcube : ∀ a, X a ∈ cube m)
    (hall : ∀ x ∈ signVectors W1, ∃ a, X a = x) : convexHull ℝ (Set.range Y) = zonotope W1 := by
  refine Set.Subset.antisymm (convexHull_min ?_ (zonotope_convex W1)) fun y hy => ?_
  · rintro _ ⟨a, rfl⟩
    exact ⟨X a, hcube a, fun j => by rw [hY]; exact Finset.sum_congr rfl fun i _ => mul_comm _ _⟩
  · by_contra hnot
    obtain ⟨f, u, h1, h2⟩ := geometric_hahn_banach_closed_point (convex_convexHull ℝ _)
      (Set.Finite.isClosed_convexHull _ (Set.finite_range Y)) hnot
    have hf : ∀ z : Fin n → ℝ, f z = ∑ j, z j * f (fun l => if j = l then 1 else 0) := fun z => by
      have := LinearMap.pi_apply_eq_sum_univ f.toLinearMap z
      simpa using this
    obtain ⟨θ', hg, hs⟩ := exists_generic_near W1 hrow (fun j => f (fun l => if j = l then 1 else 0)) (fun a j => y j - Y a j) fun a => by
      have h3 := h1 (Y a) (subset_convexHull ℝ _ ⟨a, rfl⟩)
      simp only [sub_mul, Finset.sum_sub_distrib]
      rw [← hf, ← hf]
      linarith
    obtain ⟨x, hx, hmax⟩ := zonotope_support W1 θ' hg
    obtain ⟨a, rfl⟩ := hall x hx
    have h3 := hmax y hy
    have h4 := hs a
    simp only [sub_mul, Finset.sum_sub_distrib] at h4
    have h5 : ∑ j, (∑ i, W1 i j * X a i) * θ' j = ∑ j, Y a j * θ' j := by
      refine Finset.sum_congr rfl fun j _ => ?_
      rw [hY]
      congr 1
      exact Finset.sum_congr rfl fun i _ => mul_comm _ _
    rw [h5] at h3
    linarith

theorem sign_row_cube {W1 : Matrix (Fin m) (Fin n) ℝ} {x : Fin m → ℝ} (h : ∃ z : Fin n → ℝ, ∀ i, x i = Real.sign (∑ j, W1 i j * z j)) :
    x ∈ cube m := by
  obtain ⟨z, hz⟩ := h
  intro i
  rw [hz]
  rcases Real.sign_apply_eq (∑ j, W1 i j * z j) with h | h | h <;> rw [h] <;> norm_num

/-- C52: without a warning, the hull of the vertices is the set of active variables of the cube. -/
theorem C52_hull {lib : Model.Domains.Lib} (hu : UniqueOK lib) (rng : Rng S) (W1 : Matrix (Fin m) (Fin n) ℝ) (hrow : ∀ i, ∃ j, W1 i j ≠ 0)
    (Nsamples maxcount : ℕ) (hm : 1 ≤ m) (w w' : S × Files × Out × E) (v : Verts m n)
    (h : (zonotope_vertices lib rng W1 Nsamples maxcount).run w = (.ok v, w'))
    (hz : ∀ q ≤ maxcount + 1, ∀ b i, ∑ j, W1 i j * (rng.normal Nsamples n (rounds rng Nsamples n q w.1)).1 b j ≠ 0) (hwarn : w'.2.2.1 = w.2.2.1) :
    convexHull ℝ (Set.range fun a => v.Y a) = zonotope W1 := by
  obtain ⟨N, -, -, h1, h2⟩ := C51_complete hu rng W1 Nsamples maxcount hm w w' v h hz
  obtain ⟨v', r, N', h3, -, -, -, -, -, -, hsign, hY, -⟩ := C51_rows hu rng W1 Nsamples maxcount hm w
  rw [h] at h3
  have hv := Except.ok.inj (Prod.mk.inj h3).1
  subst hv
  refine hull_eq_zonotope W1 hrow (fun a => v.X a) (fun a => v.Y a) hY (fun a => ?_) fun x hx => ?_
  · obtain ⟨z, -, hz'⟩ := hsign a
    exact sign_row_cube ⟨z, hz'⟩
  · exact (h2 (h1.mp hwarn) x).mp hx

/-- Whatever was found, the hull of the vertices lies in the set of active variables. -/
theorem C52_inside {lib : Model.Domains.Lib} (hu : UniqueOK lib) (rng : Rng S) (W1 : Matrix (Fin m) (Fin n) ℝ)
    (Nsamples maxcount : ℕ) (hm : 1 ≤ m) (w w' : S × Files × Out × E) (v : Verts m n)
    (h : (zonotope_vertices lib rng W1 Nsamples maxcount).run w = (.ok v, w')) :
    convexHull ℝ (Set.range fun a => v.Y a) ⊆ zonotope W1 := by
  obtain ⟨v', r, N', h3, -, -, -, -, -, -, hsign, hY, -⟩ := C51_rows hu rng W1 Nsamples maxcount hm w
  rw [h] at h3
  have hv := Except.ok.inj (Prod.mk.inj h3).1
  subst hv
  refine convexHull_min ?_ (zonotope_convex W1)
  rintro _ ⟨a, rfl⟩
  obtain ⟨z, -, hz'⟩ := hsign a
  exact ⟨v.X a, sign_row_cube ⟨z, hz'⟩, fun j => by
    beta_reduce; rw [hY]; exact Finset.sum_congr rfl fun i _ => mul_comm _ _⟩

/-- The hypotheses of C51 and C52 are met: two rows, all of `nzv(2, 1) = 2`, no warning. -/
example : ∃ (lib : Model.Domains.Lib) (rng : Rng Unit) (W1 : Matrix (Fin 2) (Fin 1) ℝ) (v : Verts 2 1), UniqueOK lib ∧
    (∀ i, ∃ j, W1 i j ≠ 0) ∧ (∀ s b i, ∑ j, W1 i j * (rng.normal 1 1 s).1 b j ≠ 0) ∧
    (zonotope_vertices lib rng W1 1 0).run ((), [], [], ()) = (.ok v, ((), [], [], ())) := by
  classical
  let lib : Model.Domains.Lib := ⟨⟨false, fun _ => ⟨false, 0⟩, fun _ => ⟨false, 0⟩, fun _ => ⟨false, 0⟩⟩, fun l => l.dedup, fun _ => .ok ⟨0, 0⟩⟩
  let rng : Rng Unit := ⟨fun _ => (), fun r c _ => (Matrix.of fun _ _ => 1, ()), fun r c _ => (0, ()), fun n _ => (0, ())⟩
  let W1 : Matrix (Fin 2) (Fin 1) ℝ := Matrix.of fun i _ => (i : ℕ) + 1
  have hu : UniqueOK lib := fun l => ⟨List.nodup_dedup l, fun x => List.mem_dedup⟩
  have hz : ∀ s b i, ∑ j, W1 i j * (rng.normal 1 1 s).1 b j ≠ 0 := by
    intro s b i
    rw [Fin.sum_univ_one]
    change ((i : ℕ) + 1 : ℝ) * 1 ≠ 0
    positivity
  obtain ⟨v, r, N, h1, hN, -, -, -, -, hneg, hsign, -, hdraw, -⟩ := C51_rows hu rng W1 1 0 (by omega) ((), [], [], ())
  refine ⟨lib, rng, W1, v, hu, fun i => ⟨0, ?_⟩, hz, ?_⟩
  · change ((i : ℕ) + 1 : ℝ) ≠ 0
    positivity
  · have hnum : ¬ v.num < N := by
      have hN2 : N = 2 := by rw [hN]; simp
      rw [hN2]
      intro hlt
      obtain ⟨b, hb⟩ := hdraw 0 (Nat.zero_le _) 0
      obtain ⟨c, hc⟩ := hneg b
      have hbc : b = c := by
        ext
        omega
      subst hbc
      have h2 := hb 0
      have h3 := hc 0
      have h4 : v.X b 0 = 0 := by linarith
      rw [h4] at h2
      exact hz () 0 0 (Real.sign_eq_zero_iff.mp h2.symm)
    rw [h1, if_neg hnum]
    rfl

/-! ## C53 -/

/-- Contract of `ConvexHull`: its equations describe the hull of the points. -/
def ConvexHullOK (lib : Model.Domains.Lib) : Prop := ∀ {V n : ℕ} (Y : Matrix (Fin V) (Fin n) ℝ) (h : Hull n),
  lib.convexHull Y = .ok h → HullEquations Y h.equations

/-- A hull with equations: the square. -/
theorem hullEquations_square : ∃ (Y : Matrix (Fin 4) (Fin 2) ℝ) (h : Hull 2), HullEquations Y h.equations ∧ h.F = 4 := by
  let Y : Matrix (Fin 4) (Fin 2) ℝ := !![1, 1; 1, -1; -1, 1; -1, -1]
  refine ⟨Y, ⟨4, !![1, 0, -1; -1, 0, -1; 0, 1, -1; 0, -1, -1]⟩, fun x => ?_, rfl⟩
  have h1 : convexHull ℝ (Set.range fun a => Y a) = zonotope (1 : Matrix (Fin 2) (Fin 2) ℝ) := by
    refine hull_eq_zonotope 1 (fun i => ⟨i, by simp⟩) (fun a => Y a) (fun a => Y a) (fun a j => ?_) (fun a i => ?_) fun x hx => ?_
    · simp [Matrix.one_apply]
    · fin_cases a <;> fin_cases i <;> norm_num [Y]
    · have h2 : ∀ i, x i = 1 ∨ x i = -1 := fun i => by
        obtain ⟨z, hz⟩ := hx
        rcases hz i with ⟨-, h⟩ | ⟨-, h⟩
        · exact Or.inl h
        · exact Or.inr h
      rcases h2 0 with h3 | h3 <;> rcases h2 1 with h4 | h4
      · exact ⟨0, funext fun i => by fin_cases i <;> simp [Y, h3, h4]⟩
      · exact ⟨1, funext fun i => by fin_cases i <;> simp [Y, h3, h4]⟩
      · exact ⟨2, funext fun i => by fin_cases i <;> simp [Y, h3, h4]⟩
      · exact ⟨3, funext fun i => by fin_cases i <;> simp [Y, h3, h4]⟩
  rw [h1]
  constructor
  · rintro ⟨z, hz, hx⟩ k
    have h2 := hz 0
    have h3 := hz 1
    have e : ∀ j, x j = z j := fun j => by rw [hx]; simp [Matrix.one_apply]
    fin_cases k <;> simp [Fin.sum_univ_two, e] <;> linarith [h2.1, h2.2, h3.1, h3.2]
  · intro h
    refine ⟨x, fun i => ?_, fun j => by simp [Matrix.one_apply]⟩
    have h2 := h 0
    have h3 := h 1
    have h4 := h 2
    have h5 := h 3
    simp [Fin.sum_univ_two] at h2 h3 h4 h5
    fin_cases i <;> constructor <;> simp <;> linarith

open Classical in
/-- A library whose `ConvexHull` finds the equations of every hull that has some. -/
theorem convexHullOK_exists : ∃ lib : Model.Domains.Lib, UniqueOK lib ∧ ConvexHullOK lib ∧
    ∃ (Y : Matrix (Fin 4) (Fin 2) ℝ) (h : Hull 2), lib.convexHull Y = .ok h := by
  refine ⟨⟨⟨false, fun _ => ⟨false, 0⟩, fun _ => ⟨false, 0⟩, fun _ => ⟨false, 0⟩⟩, fun l => l.dedup,
    fun {V n} Y => if h : ∃ h : Hull n, HullEquations Y h.equations then .ok h.choose else .error .exception⟩,
    fun l => ⟨List.nodup_dedup l, fun x => List.mem_dedup⟩, fun {V n} Y h hY => ?_, ?_⟩
  · dsimp only at hY
    split_ifs at hY with he
    rw [← Except.ok.inj hY]
    exact he.choose_spec
  · obtain ⟨Y, h, he, -⟩ := hullEquations_square
    exact ⟨Y, _, dif_pos ⟨h, he⟩⟩

/-- The dictionary of constraints of a symmetric set of points describes its hull. -/
theorem constraints_iff {V : ℕ} {Y : Matrix (Fin V) (Fin n) ℝ} {h : Hull n} (heq : HullEquations Y h.equations)
    (hsym : ∀ a, ∃ b, ∀ j, Y b j = -Y a j) (x : Fin n → ℝ) :
    (∀ i, 0 ≤ (constraintsOf h).func x i) ↔ x ∈ convexHull ℝ (Set.range fun a => Y a) := by
  have hneg : ∀ x, x ∈ convexHull ℝ (Set.range fun a => Y a) → -x ∈ convexHull ℝ (Set.range fun a => Y a) := by
    intro x hx
    have hs : (Set.range fun a => Y a) = -(Set.range fun a => Y a) := by
      ext y
      simp only [Set.mem_neg, Set.mem_range]
      constructor
      · rintro ⟨a, rfl⟩
        obtain ⟨b, hb⟩ := hsym a
        exact ⟨b, funext hb⟩
      · rintro ⟨a, ha⟩
        obtain ⟨b, hb⟩ := hsym a
        refine ⟨b, funext fun j => ?_⟩
        rw [hb, ha]
        simp
    rw [hs, convexHull_neg]
    simpa using hx
  have h1 : (∀ i, 0 ≤ (constraintsOf h).func x i) ↔ -x ∈ convexHull ℝ (Set.range fun a => Y a) := by
    rw [heq]
    have e : ∀ i : Fin h.F, (constraintsOf h).func x i = -(∑ j, h.equations i (Fin.castSucc j) * (-x) j + h.equations i (Fin.last n)) := by
      intro i
      simp only [constraintsOf, Matrix.mulVec, dotProduct, Matrix.submatrix_apply, id, Pi.neg_apply, mul_neg, Finset.sum_neg_distrib]
      ring
    constructor
    · intro h2 i
      have := h2 i
      rw [e i] at this
      linarith
    · intro h2 i
      have := h2 i
      rw [e i]
      linarith
  rw [h1]
  exact ⟨fun h2 => by simpa using hneg _ h2, hneg x⟩

/-- What a boundary says about `W1`. -/
inductive BoundaryOf : NpMat → Boundary → Prop
  /-- one active variable: the interval -/
  | interval {m : ℕ} (W1 : Matrix (Fin m) (Fin 1) ℝ) :
    BoundaryOf (NpMat.of W1) ⟨m, 1, ⟨2, (interval_endpoints W1).1, (interval_endpoints W1).2⟩, none, none⟩
  /-- more: symmetric vertices `Y = X W1`, signs of `W1 z`, and constraints that describe their hull -/
  | zonotope {m n : ℕ} (W1 : Matrix (Fin m) (Fin n) ℝ) (v : Verts m n) (h : Hull n) (c : Constraints n)
    (sign : ∀ a, ∃ z : Fin n → ℝ, ∀ i, v.X a i = Real.sign (∑ j, W1 i j * z j))
    (neg : ∀ a, ∃ b, ∀ i, v.X b i = -v.X a i) (img : ∀ a j, v.Y a j = ∑ i, v.X a i * W1 i j)
    (eqs : HullEquations v.Y h.equations)
    (con : ∀ x, (∀ i, 0 ≤ c.func x i) ↔ x ∈ convexHull ℝ (Set.range fun a => v.Y a)) :
    BoundaryOf (NpMat.of W1) ⟨m, n, v, some h, some c⟩

theorem boundary_run {lib : Model.Domains.Lib} (hu : UniqueOK lib) (hh : ConvexHullOK lib) (rng : Rng S) (W1 : NpMat) (hm : 1 ≤ W1.rows)
    (w w' : S × Files × Out × E) (b : Boundary) (h : (boundary lib rng W1).run w = (.ok b, w')) : BoundaryOf W1 b := by
  obtain ⟨m, n, W1⟩ := W1
  have key : n ≠ 1 → ((do
      let v ← zonotope_vertices lib rng W1
      let h ← PyM.lift (lib.convexHull v.Y)
      return (⟨m, n, v, some h, some (constraintsOf h)⟩ : Boundary)) : PyM (S × Files × Out × E) Boundary).run w = (.ok b, w') →
      BoundaryOf ⟨m, n, W1⟩ b := by
    intro _ h
    obtain ⟨v, r, N, h1, -, -, -, -, -, hneg, hsign, hY, -⟩ := C51_rows hu rng W1 10000 100000 hm w
    rw [PyM.run_bind_ok h1] at h
    cases hc : lib.convexHull v.Y with
    | error e =>
      rw [hc] at h
      exact absurd (Prod.mk.inj h).1 (by simp [PyM.lift])
    | ok H =>
      rw [hc, PyM.run_bind_ok (PyM.run_lift _ _)] at h
      have hb := Except.ok.inj (Prod.mk.inj h).1
      rw [← hb]
      refine BoundaryOf.zonotope W1 v H (constraintsOf H) (fun a => ?_) hneg hY (hh _ _ hc) fun x => constraints_iff (hh _ _ hc) (fun a => ?_) x
      · obtain ⟨z, -, hz⟩ := hsign a
        exact ⟨z, hz⟩
      · obtain ⟨b, hb⟩ := hneg a
        refine ⟨b, fun j => ?_⟩
        rw [hY, hY]
        simp only [hb, neg_mul, Finset.sum_neg_distrib]
  unfold boundary at h
  split at h
  · rename_i m' W1' heq
    cases heq
    have hb := Except.ok.inj (Prod.mk.inj h).1
    rw [← hb]
    exact .interval _
  · rename_i m' n' W1' hne heq
    cases heq
    exact key (fun h1 => by subst h1; exact hne _ rfl HEq.rfl) h

/-- C53: the constraints of a domain hold exactly on the hull of its vertices. -/
theorem C53_constraints {lib : Model.Domains.Lib} (hu : UniqueOK lib) (hh : ConvexHullOK lib) (rng : Rng S) (W1 : NpMat) (hm : 1 ≤ W1.rows)
    (w w' : S × Files × Out × E) (b : Boundary) (h : (boundary lib rng W1).run w = (.ok b, w')) (c : Constraints b.n)
    (hc : b.constraints = some c) (x : Fin b.n → ℝ) : (∀ i, 0 ≤ c.func x i) ↔ x ∈ convexHull ℝ (Set.range fun a => b.verts.Y a) := by
  have hb := boundary_run hu hh rng W1 hm w w' b h
  cases hb with
  | interval => cases hc
  | zonotope W1 v H c' _ _ _ _ con =>
    cases hc
    exact con x

/-- C53: their Jacobian is the derivative of an affine function. -/
theorem C53_jacobian (h : Hull n) (x y : Fin n → ℝ) (i : Fin h.F) :
    (constraintsOf h).func y i = (constraintsOf h).func x i + ∑ j, (constraintsOf h).jac x i j * (y j - x j) := by
  simp only [constraintsOf, Matrix.mulVec, dotProduct, mul_sub, Finset.sum_sub_distrib]
  ring

/-! ## C54 -/

/-- C54: no domain without a computed `Subspaces`. -/
theorem C54_uncomputed (lib : Model.Domains.Lib) (rng : Rng S) (w : S × Files × Out × E) (s : Subspaces) (hs : s.W1 = none) :
    (boundedInit lib rng none).run w = (.error .typeError, w) ∧ unboundedInit none = .error .typeError ∧
    (boundedInit lib rng (some s)).run w = (.error .valueError, w) ∧ unboundedInit (some s) = .error .valueError := by
  refine ⟨rfl, rfl, ?_, ?_⟩
  · simp only [boundedInit, hs]
    rfl
  · simp only [unboundedInit, hs]

/-- C54: a new domain has the shape and the boundary of the current `W1`. -/
theorem C54_init {lib : Model.Domains.Lib} (hu : UniqueOK lib) (hh : ConvexHullOK lib) (rng : Rng S) (s : Subspaces) (W1 : NpMat)
    (hs : s.W1 = some W1) (hm : 1 ≤ W1.rows) (w w' : S × Files × Out × E) (d : Domain)
    (h : (boundedInit lib rng (some s)).run w = (.ok d, w')) :
    d.m = W1.rows ∧ d.n = W1.cols ∧ (∃ b, d.bnd = some b ∧ BoundaryOf W1 b) ∧
      unboundedInit (some s) = .ok ⟨W1.rows, W1.cols, none⟩ := by
  simp only [boundedInit, hs] at h
  rcases hb : (boundary lib rng W1).run w with ⟨r, w1⟩
  cases r with
  | error e =>
    rw [PyM.run_bind_error hb] at h
    exact absurd (Prod.mk.inj h).1 (by simp)
  | ok b =>
    rw [PyM.run_bind_ok hb] at h
    have hd := Except.ok.inj (Prod.mk.inj h).1
    rw [← hd]
    exact ⟨rfl, rfl, ⟨b, rfl, boundary_run hu hh rng W1 hm w w1 b hb⟩, by simp only [unboundedInit, hs]⟩

/-- C54: after any history, `compute_boundary` stores the boundary of the current `W1`, whatever was stored before. -/
theorem C54_recompute {lib : Model.Domains.Lib} (hu : UniqueOK lib) (hh : ConvexHullOK lib) (rng : Rng S) (s : Subspaces) (W1 : NpMat)
    (hs : s.W1 = some W1) (hm : 1 ≤ W1.rows) (w w' : S × Files × Out × E) (d d' : Domain)
    (h : (compute_boundary lib rng s d).run w = (.ok d', w')) :
    (∃ b, d'.bnd = some b ∧ BoundaryOf W1 b) ∧ d'.m = d.m ∧ d'.n = d.n := by
  simp only [compute_boundary, hs] at h
  rcases hb : (boundary lib rng W1).run w with ⟨r, w1⟩
  cases r with
  | error e =>
    rw [PyM.run_bind_error hb] at h
    exact absurd (Prod.mk.inj h).1 (by simp)
  | ok b =>
    rw [PyM.run_bind_ok hb] at h
    have hd := Except.ok.inj (Prod.mk.inj h).1
    rw [← hd]
    exact ⟨⟨b, rfl, boundary_run hu hh rng W1 hm w w1 b hb⟩, rfl, rfl⟩

/-- C54: a limit of `compute_boundary`: after another partition the sizes `m` and `n` of the domain are stale. -/
theorem C54_stale (lib : Model.Domains.Lib) (rng : Rng S) (w : S × Files × Out × E) : ∃ (s : Subspaces) (W1 : NpMat) (d d' : Domain) (b : Boundary),
    s.W1 = some W1 ∧ (compute_boundary lib rng s d).run w = (.ok d', w) ∧ d'.bnd = some b ∧ d'.n ≠ b.n := by
  let W1 : NpMat := NpMat.of (Matrix.of fun (i : Fin 2) (_ : Fin 1) => if i = 0 then (1 : ℝ) else 0)
  exact ⟨{ W1 := some W1 }, W1, ⟨2, 2, none⟩, _, _, rfl, rfl, rfl, by
    change (2 : ℕ) ≠ 1
    norm_num⟩

end Props
