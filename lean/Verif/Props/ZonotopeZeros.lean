import Verif.Props.ZonotopeHull

/-!
# Property C87: vertices when an input has no influence

A zero row of `W1` makes zeros in the sign rows.  `np.sign` returns 0.0 and `-X` has -0.0, and `unique_rows` compares bytes.
-/

open Py Model.Domains Model.Subspaces Model.QPSolver Spec

namespace Props

variable {S E : Type} {m n : ℕ}

/-- A matrix with orthonormal columns and a zero row. -/
noncomputable def zeroRowW1 : Matrix (Fin 4) (Fin 2) ℝ := !![2/3, 2/3; 2/3, -1/3; 1/3, -2/3; 0, 0]

/-- A generator that draws (1, 0), (-1, 0), (0, 1), (0, -1). -/
def axesRng : Rng Unit :=
  ⟨fun _ => (), fun _ _ _ => (Matrix.of fun a j =>
    if (a : ℕ) = 0 ∧ (j : ℕ) = 0 ∨ (a : ℕ) = 2 ∧ (j : ℕ) = 1 then 1
    else if (a : ℕ) = 1 ∧ (j : ℕ) = 0 ∨ (a : ℕ) = 3 ∧ (j : ℕ) = 1 then -1 else 0, ()), fun _ _ _ => (0, ()), fun _ _ => (0, ())⟩

/-- The eight rows of bytes. -/
def zeroRowList : List (Fin 4 → Sg) :=
  [![.pos, .pos, .pos, .pzero], ![.neg, .neg, .neg, .pzero], ![.pos, .neg, .neg, .pzero], ![.neg, .pos, .pos, .pzero],
   ![.pos, .pos, .pos, .nzero], ![.neg, .neg, .neg, .nzero], ![.pos, .neg, .neg, .nzero], ![.neg, .pos, .pos, .nzero]]

theorem zeroRow_signs : signRows zeroRowW1 (axesRng.normal 4 2 ()).1
    = [![.pos, .pos, .pos, .pzero], ![.neg, .neg, .neg, .pzero], ![.pos, .neg, .neg, .pzero], ![.neg, .pos, .pos, .pzero]] := by
  have h : ∀ a : Fin 4, (fun i => Sg.of (((axesRng.normal 4 2 ()).1 * zeroRowW1.transpose) a i))
      = (![![.pos, .pos, .pos, .pzero], ![.neg, .neg, .neg, .pzero], ![.pos, .neg, .neg, .pzero], ![.neg, .pos, .pos, .pzero]] : Fin 4 → Fin 4 → Sg) a := by
    intro a
    funext i
    fin_cases a <;> fin_cases i <;>
      simp [Matrix.mul_apply, Fin.sum_univ_two, axesRng, zeroRowW1, Sg.of] <;> norm_num
  unfold signRows Np.rows
  rw [List.map_map]
  exact (List.map_congr_left fun a _ => h a).trans rfl

theorem zeroRow_run {lib : Model.Domains.Lib} (hu : UniqueOK lib) (maxcount : ℕ) (w : Unit × Files × Out × E) :
    ∃ X : List (Fin 4 → Sg), X.Perm zeroRowList ∧ (zonotope_vertices lib axesRng zeroRowW1 4 maxcount).run w
      = (.ok ⟨X.length, Matrix.of (fun a i => (X.get a i).val) * zeroRowW1, Matrix.of fun a i => (X.get a i).val⟩, w) := by
  let U := lib.unique (signRows zeroRowW1 (axesRng.normal 4 2 ()).1)
  let X := lib.unique (U ++ U.map fun x i => (x i).flip)
  have hU : U.Perm _ := (List.perm_ext_iff_of_nodup (hu _).1 (by rw [zeroRow_signs]; decide)).mpr (hu _).2
  have hX : X.Perm zeroRowList := by
    refine (List.perm_ext_iff_of_nodup (hu _).1 (by decide)).mpr fun x => ?_
    rw [(hu _).2]
    have h1 := (hU.append (hU.map fun x i => (x i).flip)).mem_iff (a := x)
    rw [h1, zeroRow_signs]
    have h2 : (([![.pos, .pos, .pos, .pzero], ![.neg, .neg, .neg, .pzero], ![.pos, .neg, .neg, .pzero], ![.neg, .pos, .pos, .pzero]] : List (Fin 4 → Sg)) ++
        List.map (fun (x : Fin 4 → Sg) i => (x i).flip) [![.pos, .pos, .pos, .pzero], ![.neg, .neg, .neg, .pzero], ![.pos, .neg, .neg, .pzero],
          ![.neg, .pos, .pos, .pzero]]).Perm zeroRowList := by decide
    exact h2.mem_iff
  have h8 : X.length = 8 := hX.length_eq
  refine ⟨X, hX, ?_⟩
  have hN : nzv (.int (4 : ℕ)) (.int (2 : ℕ)) = .ok 8 := by
    rw [C50_formula 4 2 (by omega)]
    rfl
  unfold zonotope_vertices
  rw [hN, PyM.run_bind_ok (PyM.run_lift _ _)]
  have hr : (zonoRound lib axesRng zeroRowW1 4).run w = (.ok X, w) := rfl
  rw [PyM.run_bind_ok hr]
  have hl : (zonoLoop lib axesRng zeroRowW1 4 maxcount 8 0 X).run w = (.ok X, w) := by
    unfold zonoLoop
    rw [if_neg (by omega)]
    rfl
  rw [PyM.run_bind_ok hl]
  unfold zonoFinish
  rw [if_neg (by omega)]
  rfl

/-- Every row of bytes has a twin with the other zero. -/
theorem zeroRow_twin : ∀ x ∈ zeroRowList, ∃ y ∈ zeroRowList, y ≠ x ∧ ∀ i, (y i).val = (x i).val := by
  intro x hx
  have h1 : ∀ x ∈ zeroRowList, x 3 = .pzero ∨ x 3 = .nzero := by decide
  have h2 : ∀ x ∈ zeroRowList, Function.update x 3 (x 3).flip ∈ zeroRowList := by decide
  refine ⟨_, h2 x hx, fun h => ?_, fun i => ?_⟩
  · have := congrFun h 3
    rw [Function.update_self] at this
    rcases h1 x hx with h | h <;> rw [h] at this <;> exact absurd this nofun
  · by_cases hi : i = 3
    · subst hi
      rw [Function.update_self]
      rcases h1 x hx with h | h <;> rw [h] <;> rfl
    · rw [Function.update_of_ne hi]

/-- C87 fails: `W1` has orthonormal columns and a zero row.  For these draws `zonotope_vertices` stops after the first round with
`nzv(4, 2) = 8` rows and no warning.  They are four vertices, each twice; there are six, and the hull is too small. -/
theorem C87_refuted {lib : Model.Domains.Lib} (hu : UniqueOK lib) (maxcount : ℕ) (w : Unit × Files × Out × E) :
    zeroRowW1.transpose * zeroRowW1 = 1 ∧
    ∃ v, (zonotope_vertices lib axesRng zeroRowW1 4 maxcount).run w = (.ok v, w) ∧ nzv (.int 4) (.int 2) = .ok v.num ∧
      (∀ a, ∃ b, b ≠ a ∧ v.X b = v.X a) ∧ (Set.range fun a => v.Y a).ncard = 4 ∧
      ∃ y ∈ zonotope zeroRowW1, y ∉ convexHull ℝ (Set.range fun a => v.Y a) := by
  refine ⟨?_, ?_⟩
  · ext i j
    fin_cases i <;> fin_cases j <;> simp [Matrix.mul_apply, Fin.sum_univ_four, zeroRowW1] <;> norm_num
  obtain ⟨X, hX, hrun⟩ := zeroRow_run hu maxcount w
  have hrow : ∀ y, (∃ x ∈ zeroRowList, y = fun j => ∑ i, (x i).val * zeroRowW1 i j) ↔
      y ∈ ({![5/3, -1/3], ![-5/3, 1/3], ![-1/3, 5/3], ![1/3, -5/3]} : Set (Fin 2 → ℝ)) := by
    intro y
    have e1 : (fun j => ∑ i, ((![.pos, .pos, .pos, .pzero] : Fin 4 → Sg) i).val * zeroRowW1 i j) = ![5/3, -1/3] := by
      funext j; fin_cases j <;> simp [Fin.sum_univ_four, zeroRowW1, Sg.val] <;> norm_num
    have e2 : (fun j => ∑ i, ((![.neg, .neg, .neg, .pzero] : Fin 4 → Sg) i).val * zeroRowW1 i j) = ![-5/3, 1/3] := by
      funext j; fin_cases j <;> simp [Fin.sum_univ_four, zeroRowW1, Sg.val] <;> norm_num
    have e3 : (fun j => ∑ i, ((![.pos, .neg, .neg, .pzero] : Fin 4 → Sg) i).val * zeroRowW1 i j) = ![-1/3, 5/3] := by
      funext j; fin_cases j <;> simp [Fin.sum_univ_four, zeroRowW1, Sg.val] <;> norm_num
    have e4 : (fun j => ∑ i, ((![.neg, .pos, .pos, .pzero] : Fin 4 → Sg) i).val * zeroRowW1 i j) = ![1/3, -5/3] := by
      funext j; fin_cases j <;> simp [Fin.sum_univ_four, zeroRowW1, Sg.val] <;> norm_num
    have e5 : (fun j => ∑ i, ((![.pos, .pos, .pos, .nzero] : Fin 4 → Sg) i).val * zeroRowW1 i j) = ![5/3, -1/3] := by
      funext j; fin_cases j <;> simp [Fin.sum_univ_four, zeroRowW1, Sg.val] <;> norm_num
    have e6 : (fun j => ∑ i, ((![.neg, .neg, .neg, .nzero] : Fin 4 → Sg) i).val * zeroRowW1 i j) = ![-5/3, 1/3] := by
      funext j; fin_cases j <;> simp [Fin.sum_univ_four, zeroRowW1, Sg.val] <;> norm_num
    have e7 : (fun j => ∑ i, ((![.pos, .neg, .neg, .nzero] : Fin 4 → Sg) i).val * zeroRowW1 i j) = ![-1/3, 5/3] := by
      funext j; fin_cases j <;> simp [Fin.sum_univ_four, zeroRowW1, Sg.val] <;> norm_num
    have e8 : (fun j => ∑ i, ((![.neg, .pos, .pos, .nzero] : Fin 4 → Sg) i).val * zeroRowW1 i j) = ![1/3, -5/3] := by
      funext j; fin_cases j <;> simp [Fin.sum_univ_four, zeroRowW1, Sg.val] <;> norm_num
    simp only [zeroRowList, List.mem_cons, List.not_mem_nil, or_false, exists_eq_or_imp, exists_eq_left, e1, e2, e3, e4, e5, e6, e7, e8,
      Set.mem_insert_iff, Set.mem_singleton_iff]
    tauto
  have hY : (Set.range fun a => (Matrix.of (fun a i => (X.get a i).val) * zeroRowW1) a)
      = {![5/3, -1/3], ![-5/3, 1/3], ![-1/3, 5/3], ![1/3, -5/3]} := by
    ext y
    rw [← hrow y]
    constructor
    · rintro ⟨a, rfl⟩
      exact ⟨_, hX.mem_iff.mp (List.get_mem X a), rfl⟩
    · rintro ⟨x, hx, rfl⟩
      obtain ⟨a, rfl⟩ := List.get_of_mem (hX.mem_iff.mpr hx)
      exact ⟨a, rfl⟩
  refine ⟨_, hrun, ?_, ?_, ?_, ?_⟩
  · change _ = Except.ok X.length
    rw [hX.length_eq]
    exact C50_formula 4 2 (by omega)
  · intro a
    obtain ⟨y, hy, hne, hval⟩ := zeroRow_twin _ (hX.mem_iff.mp (List.get_mem X a))
    obtain ⟨b, hb⟩ := List.get_of_mem (hX.mem_iff.mpr hy)
    refine ⟨b, fun h => hne (by rw [← hb, h]), funext fun i => ?_⟩
    change (X.get b i).val = (X.get a i).val
    rw [hb, hval]
  · rw [hY]
    have h : ({![5/3, -1/3], ![-5/3, 1/3], ![-1/3, 5/3], ![1/3, -5/3]} : Set (Fin 2 → ℝ))
        = (({![5/3, -1/3], ![-5/3, 1/3], ![-1/3, 5/3], ![1/3, -5/3]} : Finset (Fin 2 → ℝ)) : Set (Fin 2 → ℝ)) := by simp
    rw [h, Set.ncard_coe_finset]
    have hne : ∀ {a b c d : ℝ}, a ≠ c → (![a, b] : Fin 2 → ℝ) ≠ ![c, d] := fun h e => h (congrFun e 0)
    rw [Finset.card_insert_of_notMem, Finset.card_insert_of_notMem, Finset.card_insert_of_notMem, Finset.card_singleton] <;>
      simp only [Finset.mem_insert, Finset.mem_singleton, not_or] <;> (repeat' constructor) <;> exact hne (by norm_num)
  · refine ⟨![1, 1], ⟨![1, 1, -1, 0], fun i => ?_, fun j => ?_⟩, fun hc => ?_⟩
    · fin_cases i <;> norm_num
    · fin_cases j <;> simp [Fin.sum_univ_four, zeroRowW1] <;> norm_num
    · have hsub : convexHull ℝ (Set.range fun a => (Matrix.of (fun a i => (X.get a i).val) * zeroRowW1) a) ⊆ {y | y 0 + y 1 ≤ 4 / 3} := by
        rw [hY]
        refine convexHull_min ?_ (convex_halfSpace_le ⟨fun x y => by simp; ring, fun c x => by simp; ring⟩ _)
        rintro y (rfl | rfl | rfl | rfl) <;> simp <;> norm_num
      have h2 := hsub hc
      simp at h2
      norm_num at h2

/-- The part of C87 that holds: without a warning at least `nzv / 2` different rows were found. -/
theorem C87_half_partial {lib : Model.Domains.Lib} (hu : UniqueOK lib) (rng : Rng S) (W1 : Matrix (Fin m) (Fin n) ℝ) (Nsamples maxcount : ℕ)
    (hm : 1 ≤ m) (w w' : S × Files × Out × E) (v : Verts m n)
    (h : (zonotope_vertices lib rng W1 Nsamples maxcount).run w = (.ok v, w')) (hwarn : w'.2.2.1 = w.2.2.1) :
    ∃ N, nzv (.int m) (.int n) = .ok N ∧ N ≤ 2 * (Set.range fun a => v.X a).ncard := by
  classical
  obtain ⟨v', r, N, h1, hN, -, -, -, h3, -⟩ := C51_rows hu rng W1 Nsamples maxcount hm w
  rw [h] at h1
  have hv := Except.ok.inj (Prod.mk.inj h1).1
  subst hv
  refine ⟨N, by rw [C50_formula m n hm, hN], ?_⟩
  have hle : N ≤ v.num := by
    by_contra hc
    have h2 := (Prod.mk.inj h1).2
    rw [if_pos (by omega)] at h2
    rw [h2] at hwarn
    simp at hwarn
  refine hle.trans ?_
  have h4 : (Finset.univ : Finset (Fin v.num)).card ≤ 2 * (Finset.univ.image fun a => v.X a).card := by
    refine Finset.card_le_mul_card_image _ _ fun x _ => ?_
    by_contra hc
    obtain ⟨a, ha, b, hb, c, hc, hab, hac, hbc⟩ := Finset.two_lt_card.mp (not_le.mp hc)
    simp only [Finset.mem_filter, Finset.mem_univ, true_and] at ha hb hc
    rcases h3 a b c (ha.trans hb.symm) (hb.trans hc.symm) with h | h | h
    · exact hab h
    · exact hbc h
    · exact hac h.symm
  rw [Finset.card_univ, Fintype.card_fin] at h4
  rwa [← Set.ncard_coe_finset, Finset.coe_image, Finset.coe_univ, Set.image_univ] at h4

/-- The hypotheses are met by the case of `C87_refuted`, where the number of different rows is `nzv / 2`. -/
example {lib : Model.Domains.Lib} (hu : UniqueOK lib) (w : Unit × Files × Out × E) : ∃ v : Verts 4 2, ∃ N,
    (zonotope_vertices lib axesRng zeroRowW1 4 100000).run w = (.ok v, w) ∧ nzv (.int 4) (.int 2) = .ok N ∧ N ≤ 2 * (Set.range fun a => v.X a).ncard := by
  obtain ⟨-, v, h, -⟩ := C87_refuted hu 100000 w
  obtain ⟨N, h1, h2⟩ := C87_half_partial hu axesRng zeroRowW1 4 100000 (by omega) w w v h rfl
  exact ⟨v, N, h, h1, h2⟩

end Props
