import Verif.Proofs.PolyApprox
import Verif.Spec.LinAlg

/-! Lemmas about training. -/

open Py Model.ResponseSurfaces MvPolynomial Proofs.PolyApprox

namespace Proofs.PolyTrain

variable {m M N : ℕ}

/-- The multi-index `e_a + e_b`. -/
def pair (a b : Fin m) : Fin m → ℕ := Pi.single a 1 + Pi.single b 1

theorem pair_apply (a b k : Fin m) : pair a b k = (if k = a then 1 else 0) + (if k = b then 1 else 0) := by
  simp only [pair, Pi.add_apply, Pi.single_apply]

theorem pair_self_iff (a i j : Fin m) : pair i j = pair a a ↔ i = a ∧ j = a := by
  constructor
  · intro h
    have := congrFun h a
    simp only [pair_apply, if_true] at this
    by_cases h1 : a = i <;> by_cases h2 : a = j <;> simp [h1, h2] at this ⊢ <;> simp_all
  · rintro ⟨rfl, rfl⟩; rfl

theorem pair_comm (a b : Fin m) : pair a b = pair b a := add_comm _ _

theorem pair_iff (a b i j : Fin m) : pair i j = pair a b ↔ (i = a ∧ j = b) ∨ (i = b ∧ j = a) := by
  constructor
  · intro h
    by_cases hab : a = b
    · subst hab
      exact Or.inl ((pair_self_iff a i j).mp h)
    · have h1 := congrFun h a
      have h2 := congrFun h b
      simp only [pair_apply, if_true, hab, Ne.symm hab, if_false] at h1 h2
      by_cases e1 : a = i
      · subst e1
        by_cases e2 : b = j
        · exact Or.inl ⟨rfl, e2.symm⟩
        · simp [e2, Ne.symm hab] at h2
      · by_cases e2 : a = j
        · subst e2
          by_cases e3 : b = i
          · exact Or.inr ⟨e3.symm, rfl⟩
          · simp [e3, Ne.symm hab] at h2
        · simp [e1, e2] at h1
  · rintro (⟨rfl, rfl⟩ | ⟨rfl, rfl⟩)
    · rfl
    · exact pair_comm _ _

theorem sum_pair (a b : Fin m) : ∑ k, pair a b k = 2 := by
  simp [pair_apply, Finset.sum_add_distrib]

theorem filter_sum (α : Fin m → ℕ) : (((List.finRange m).filter fun k => α k ≠ 0).map α).sum = ∑ k, α k := by
  rw [← List.sum_ofFn, List.ofFn_eq_map]
  induction List.finRange m with
  | nil => rfl
  | cons a l ih =>
    rw [List.filter_cons]
    by_cases h : α a = 0
    · simp [h] at ih ⊢
      exact ih
    · simp [h] at ih ⊢
      exact ih

/-- The support of a multi-index of degree two. -/
theorem support_two (α : Fin m → ℕ) (h : ∑ k, α k = 2) :
    (∃ a, ((List.finRange m).filter fun k => α k ≠ 0) = [a] ∧ α = pair a a) ∨
    (∃ a b, a ≠ b ∧ ((List.finRange m).filter fun k => α k ≠ 0) = [a, b] ∧ α = pair a b) := by
  have hs := filter_sum α
  have hmem : ∀ k, k ∈ ((List.finRange m).filter fun k => α k ≠ 0) ↔ α k ≠ 0 := by
    intro k; simp
  have hnd : ((List.finRange m).filter fun k => α k ≠ 0).Nodup := (List.nodup_finRange m).filter _
  generalize ((List.finRange m).filter fun k => α k ≠ 0) = l at *
  have hz : ∀ k, k ∉ l → α k = 0 := fun k hk => by
    by_contra hne; exact hk ((hmem k).mpr hne)
  rw [h] at hs
  match l with
  | [] => simp at hs
  | [a] =>
    left
    refine ⟨a, rfl, ?_⟩
    simp at hs
    funext k
    rw [pair_apply]
    by_cases hk : k = a
    · subst hk; simp [hs]
    · simp [hk]
      exact hz k (by simp [hk])
  | [a, b] =>
    right
    have hab : a ≠ b := by simpa using hnd
    refine ⟨a, b, hab, rfl, ?_⟩
    have ha : α a ≠ 0 := (hmem a).mp (by simp)
    have hb : α b ≠ 0 := (hmem b).mp (by simp)
    simp at hs
    funext k
    rw [pair_apply]
    by_cases hk : k = a
    · subst hk; simp [hab]; omega
    · by_cases hk2 : k = b
      · subst hk2; simp [hk]; omega
      · simp [hk, hk2]
        exact hz k (by simp [hk, hk2])
  | a :: b :: c :: l =>
    exfalso
    have ha : α a ≠ 0 := (hmem a).mp (by simp)
    have hb : α b ≠ 0 := (hmem b).mp (by simp)
    have hc : α c ≠ 0 := (hmem c).mp (by simp)
    simp at hs
    omega

theorem degree_two (α : Fin m → ℕ) (h : ∑ k, α k = 2) : ∃ a b, α = pair a b := by
  rcases support_two α h with ⟨a, _, h⟩ | ⟨a, b, _, _, h⟩
  · exact ⟨a, a, h⟩
  · exact ⟨a, b, h⟩

open Classical in
theorem hessStep_eq (H : Matrix (Fin m) (Fin m) ℝ) (α : Fin m → ℕ) (h : ∑ k, α k = 2) (c : ℝ) :
    hessStep H α c = .ok (Matrix.of fun a b => if pair a b = α then (if a = b then 2 * c else c) else H a b) := by
  unfold hessStep
  rcases support_two α h with ⟨a, hf, rfl⟩ | ⟨a, b, hab, hf, rfl⟩
  · rw [hf]
    simp only
    congr 1
    ext i j
    rw [setEntry, Matrix.of_apply, Matrix.of_apply]
    by_cases hij : i = a ∧ j = a
    · rw [if_pos hij, if_pos ((pair_self_iff a i j).mpr hij), if_pos (hij.1.trans hij.2.symm)]
    · rw [if_neg hij, if_neg (fun h => hij ((pair_self_iff a i j).mp h))]
  · rw [hf]
    simp only
    congr 1
    ext i j
    simp only [setEntry, Matrix.of_apply]
    by_cases h1 : i = b ∧ j = a
    · rw [if_pos h1, if_pos ((pair_iff a b i j).mpr (Or.inr h1)), if_neg (by rw [h1.1, h1.2]; exact hab.symm)]
    · rw [if_neg h1]
      by_cases h2 : i = a ∧ j = b
      · rw [if_pos h2, if_pos ((pair_iff a b i j).mpr (Or.inl h2)), if_neg (by rw [h2.1, h2.2]; exact hab)]
      · rw [if_neg h2, if_neg]
        intro h
        rcases (pair_iff a b i j).mp h with h | h
        · exact h2 h
        · exact h1 h

open Classical in
theorem hessLoop_eq (I : List (Fin m → ℕ)) (hI : I.Nodup) (c : Fin I.length → ℝ) (is : List ℕ)
    (his : ∀ i ∈ is, ∃ α, I[i]? = some α ∧ ∑ k, α k = 2) (H : Matrix (Fin m) (Fin m) ℝ) :
    hessLoop I c is H = .ok (Matrix.of fun a b =>
      if ∃ i ∈ is, I[i]? = some (pair a b) then (if a = b then 2 else 1) * coeff (fin (pair a b)) (fitted I c) else H a b) := by
  induction is generalizing H with
  | nil => simp [hessLoop]; rfl
  | cons i is ih =>
    obtain ⟨α, hα, hd⟩ := his i List.mem_cons_self
    obtain ⟨hi, hget⟩ := List.getElem?_eq_some_iff.mp hα
    rw [hessLoop, dif_pos hi]
    have hg : I.get ⟨i, hi⟩ = α := hget
    rw [hg, hessStep_eq H α hd]
    simp only
    rw [ih fun j hj => his j (List.mem_cons_of_mem _ hj)]
    congr 1
    ext a b
    simp only [Matrix.of_apply]
    by_cases h1 : ∃ j ∈ is, I[j]? = some (pair a b)
    · have h3 : ∃ j ∈ i :: is, I[j]? = some (pair a b) := by
        obtain ⟨j, hj, h⟩ := h1
        exact ⟨j, List.mem_cons_of_mem _ hj, h⟩
      rw [if_pos h1, if_pos h3]
    · rw [if_neg h1]
      by_cases h2 : pair a b = α
      · have h3 : ∃ j ∈ i :: is, I[j]? = some (pair a b) := ⟨i, List.mem_cons_self, by rw [hα, h2]⟩
        rw [if_pos h2, if_pos h3, h2, ← hg, coeff_fitted I hI]
        split_ifs <;> ring
      · rw [if_neg h2, if_neg]
        rintro ⟨j, hj, h⟩
        rcases List.mem_cons.mp hj with rfl | hj
        · rw [hα] at h
          exact h2 (Option.some.inj h).symm
        · exact h1 ⟨j, hj, h⟩

theorem fin_single (k : Fin m) : fin (Pi.single k 1) = Finsupp.single k 1 := by
  ext l
  change (Pi.single k 1 : Fin m → ℕ) l = _
  rw [Pi.single_apply, Finsupp.single_apply]
  exact if_congr eq_comm rfl rfl

theorem fin_pair (a b : Fin m) : fin (pair a b) = Finsupp.single a 1 + Finsupp.single b 1 := by
  rw [← fin_single, ← fin_single]
  ext l
  rfl

theorem eval_zero (p : MvPolynomial (Fin m) ℝ) : eval (0 : Fin m → ℝ) p = coeff 0 p := by
  rw [← constantCoeff_eq]
  exact eval₂Hom_zero_apply (RingHom.id ℝ) p

theorem grad_zero (p : MvPolynomial (Fin m) ℝ) (k : Fin m) :
    eval (0 : Fin m → ℝ) (pderiv k p) = coeff (fin (Pi.single k 1)) p := by
  rw [eval_zero, coeff_pderiv, fin_single]
  simp

theorem hess_zero (p : MvPolynomial (Fin m) ℝ) (a b : Fin m) :
    eval (0 : Fin m → ℝ) (pderiv a (pderiv b p)) = (if a = b then 2 else 1) * coeff (fin (pair a b)) p := by
  rw [eval_zero, coeff_pderiv, coeff_pderiv, fin_pair]
  by_cases h : a = b
  · subst h
    simp
    ring
  · simp [h]

theorem degree_one (α : Fin m → ℕ) (h : ∑ k, α k = 1) : ∃ k, α = Pi.single k 1 := by
  have h1 : ∃ k, α k ≠ 0 := by
    by_contra hne
    push Not at hne
    simp [hne] at h
  obtain ⟨k, hk⟩ := h1
  refine ⟨k, ?_⟩
  have h2 := Finset.add_sum_erase Finset.univ α (Finset.mem_univ k)
  rw [h] at h2
  have h3 : ∑ l ∈ Finset.univ.erase k, α l = 0 := by omega
  funext l
  rw [Pi.single_apply]
  by_cases hl : l = k
  · subst hl
    rw [if_pos rfl]
    omega
  · rw [if_neg hl]
    exact (Finset.sum_eq_zero_iff.mp h3) l (Finset.mem_erase.mpr ⟨hl, Finset.mem_univ l⟩)

open Classical in
theorem coeff_monomial_fin (α β : Fin m → ℕ) (a : ℝ) : coeff (fin α) (monomial (fin β) a) = if β = α then a else 0 := by
  rw [coeff_monomial]
  exact if_congr ⟨fun h => fin_injective h, fun h => congrArg fin h⟩ rfl rfl

theorem coeff_of_degree (α β : Fin m → ℕ) (a : ℝ) (h : ∑ k, β k ≠ ∑ k, α k) : coeff (fin α) (monomial (fin β) a) = 0 := by
  classical
  rw [coeff_monomial_fin, if_neg]
  rintro rfl
  exact h rfl

theorem taylor_monomial (β : Fin m → ℕ) (a : ℝ) (h : ∑ k, β k ≤ 2) (x : Fin m → ℝ) :
    eval x (monomial (fin β) a) = eval 0 (monomial (fin β) a) + ∑ k, eval 0 (pderiv k (monomial (fin β) a)) * x k
      + 1 / 2 * ∑ k, ∑ l, eval 0 (pderiv k (pderiv l (monomial (fin β) a))) * x k * x l := by
  classical
  have h0 : (0 : Fin m →₀ ℕ) = fin (0 : Fin m → ℕ) := by ext l; rfl
  simp only [hess_zero]
  simp only [grad_zero]
  rw [eval_zero, h0, eval_monomial']
  rcases (by omega : ∑ k, β k = 0 ∨ ∑ k, β k = 1 ∨ ∑ k, β k = 2) with hd | hd | hd
  · have hβ : β = 0 := by
      funext k
      exact (Finset.sum_eq_zero_iff.mp hd) k (Finset.mem_univ k)
    have h1 : ∀ k, coeff (fin (Pi.single k 1)) (monomial (fin β) a) = 0 := fun k => coeff_of_degree _ _ _ (by simp [hβ])
    have h2 : ∀ k l, coeff (fin (pair k l)) (monomial (fin β) a) = 0 := fun k l => coeff_of_degree _ _ _ (by rw [sum_pair]; omega)
    simp only [h1, h2]
    rw [hβ, coeff_monomial, if_pos rfl]
    simp
  · obtain ⟨i, rfl⟩ := degree_one β hd
    have h1 : coeff (fin (0 : Fin m → ℕ)) (monomial (fin (Pi.single i 1)) a) = 0 := coeff_of_degree _ _ _ (by simp)
    have h2 : ∀ k l, coeff (fin (pair k l)) (monomial (fin (Pi.single i 1)) a) = 0 :=
      fun k l => coeff_of_degree _ _ _ (by rw [sum_pair]; omega)
    simp only [h1, h2, coeff_monomial_fin]
    rw [Finset.sum_eq_single i, if_pos rfl, Finset.prod_eq_single i]
    · simp
    · intro b _ hb; simp [hb]
    · simp
    · intro b _ hb
      rw [if_neg]
      · simp
      · intro h
        have := congrFun h i
        simp [Ne.symm hb] at this
    · simp
  · obtain ⟨i, j, rfl⟩ := degree_two β hd
    have h1 : coeff (fin (0 : Fin m → ℕ)) (monomial (fin (pair i j)) a) = 0 := coeff_of_degree _ _ _ (by rw [sum_pair]; simp)
    have h2 : ∀ k, coeff (fin (Pi.single k 1)) (monomial (fin (pair i j)) a) = 0 :=
      fun k => coeff_of_degree _ _ _ (by rw [sum_pair]; simp)
    have hprod : ∏ k, x k ^ pair i j k = x i * x j := by
      simp only [pair_apply, pow_add, Finset.prod_mul_distrib]
      simp [Finset.prod_ite_eq]
    simp only [h1, h2, coeff_monomial_fin, hprod]
    have h3 : ∀ k l, ((if k = l then (2 : ℝ) else 1) * if pair i j = pair k l then a else 0) * x k * x l
        = (if k = i then if l = j then a * x i * x j else 0 else 0)
          + (if k = j then if l = i then a * x i * x j else 0 else 0) := by
      intro k l
      by_cases hkl : pair i j = pair k l
      · rw [if_pos hkl]
        rcases (pair_iff k l i j).mp hkl with ⟨rfl, rfl⟩ | ⟨rfl, rfl⟩
        · by_cases h : i = j
          · subst h; simp; ring
          · simp [h]
        · by_cases h : i = j
          · subst h; simp; ring
          · simp [h, Ne.symm h]
            ring
      · rw [if_neg hkl]
        have e1 : ¬ (k = i ∧ l = j) := by rintro ⟨rfl, rfl⟩; exact hkl rfl
        have e2 : ¬ (k = j ∧ l = i) := by rintro ⟨rfl, rfl⟩; exact hkl (pair_comm _ _)
        by_cases a1 : k = i <;> by_cases a2 : l = j <;> by_cases a3 : k = j <;> by_cases a4 : l = i <;> simp_all
    simp only [h3, Finset.sum_add_distrib]
    simp
    ring

/-- Second-order expansion of a polynomial of degree at most two. -/
theorem taylor_two (p : MvPolynomial (Fin m) ℝ) (hp : p.totalDegree ≤ 2) (x : Fin m → ℝ) :
    eval x p = eval 0 p + ∑ k, eval 0 (pderiv k p) * x k
      + 1 / 2 * ∑ k, ∑ l, eval 0 (pderiv k (pderiv l p)) * x k * x l := by
  have key : ∀ S : Finset (Fin m →₀ ℕ), (∀ s ∈ S, ∑ k, s k ≤ 2) → ∀ q : MvPolynomial (Fin m) ℝ,
      q = ∑ s ∈ S, monomial s (coeff s p) →
      eval x q = eval 0 q + ∑ k, eval 0 (pderiv k q) * x k + 1 / 2 * ∑ k, ∑ l, eval 0 (pderiv k (pderiv l q)) * x k * x l := by
    intro S
    induction S using Finset.cons_induction with
    | empty => rintro - q rfl; simp
    | cons s S hs ih =>
      rintro hS q rfl
      have h1 := taylor_monomial (s : Fin m → ℕ) (coeff s p) (hS s (Finset.mem_cons_self s S)) x
      have h2 := ih (fun t ht => hS t (Finset.mem_cons_of_mem ht)) _ rfl
      rw [fin_coe] at h1
      simp only [Finset.sum_cons, map_add, add_mul, Finset.sum_add_distrib]
      rw [h1, h2]
      ring
  refine key p.support (fun s hs => ?_) p p.as_sum
  have := le_totalDegree hs
  rw [Finsupp.sum_fintype _ _ (fun _ => rfl)] at this
  exact this.trans hp

/-- What `train` leaves behind, for the coefficients `c`. -/
structure Trained (w w' : PolyApprox) (X : Matrix (Fin M) (Fin m) ℝ) (f : Fin M → ℝ) (weights : Option (Fin M → ℝ))
    (I : List (Fin m → ℕ)) (c : Fin I.length → ℝ) : Prop where
  hN : w'.N = w.N
  hX : w'.X = some (NpMat.of X)
  hf : w'.f = some (NpMat.of (colMat (applyWeights weights (monomials X I) f).2))
  hc : w'.poly_weights = some (NpVec.of c)
  hR : w'.Rsqr = some (1 - normSq ((applyWeights weights (monomials X I) f).1.mulVec c
    - (applyWeights weights (monomials X I) f).2) / (M * npVar (applyWeights weights (monomials X I) f).2))
  hg : w'.g = some (NpVec.of fun k => eval 0 (pderiv k (fitted I c)))
  hH : 1 < w.N → w'.H = some (NpMat.of (Matrix.of fun k l => eval 0 (pderiv k (pderiv l (fitted I c)))))

theorem trainMat_run (lib : Lib) (w : PolyApprox) (hm : 1 ≤ m) (hN : 1 ≤ w.N) (X : Matrix (Fin M) (Fin m) ℝ)
    (f : Fin M → ℝ) (weights : Option (Fin M → ℝ)) (hM : (w.N + m).choose m ≤ M) :
    ∃ I, index_set w.N m = .ok I ∧ I.Nodup ∧ (∀ α, α ∈ I ↔ ∑ k, α k ≤ w.N) ∧ I.length = (w.N + m).choose m ∧
      ∃ w', (trainMat lib w.N X f weights).run w = (.ok (), w') ∧
        Trained w w' X f weights I (lib.lstsq M I.length (applyWeights weights (monomials X I) f).1
          (applyWeights weights (monomials X I) f).2) := by
  obtain ⟨I, hI, hnd, hmem, -, hlen⟩ := Props.C25_enumerates w.N m hm
  obtain ⟨I', hI', h0, h1⟩ := Props.C25_first_rows w.N m hm
  obtain rfl : I = I' := Except.ok.inj (hI.symm.trans hI')
  refine ⟨I, hI, hnd, hmem, hlen, ?_⟩
  have hle : m + 1 ≤ I.length := by
    have := h1 hN ⟨m - 1, by omega⟩
    obtain ⟨h, -⟩ := List.getElem?_eq_some_iff.mp this
    simp only at h
    omega
  unfold trainMat
  rw [if_neg (by omega), polynomial_bases, hI]
  simp only
  generalize hc : lib.lstsq M I.length (applyWeights weights (monomials X I) f).1
          (applyWeights weights (monomials X I) f).2 = c
  rw [PyM.run_bind_ok (PyM.run_modify _ _), organize, dif_pos hle]
  have hg : (fun k : Fin m => c ⟨k + 1, by omega⟩) = fun k => eval 0 (pderiv k (fitted I c)) := by
    funext k
    obtain ⟨hlt, hk⟩ := List.getElem?_eq_some_iff.mp (h1 hN k)
    rw [grad_zero, ← hk]
    exact (coeff_fitted I hnd c ⟨k + 1, hlt⟩).symm
  rw [hg, PyM.run_bind_ok (PyM.run_modify _ _)]
  by_cases h2 : 1 < w.N
  · obtain ⟨I', hI', hcount, hquad⟩ := Props.C25_quadratic_rows w.N m hm h2
    obtain rfl : I = I' := Except.ok.inj (hI.symm.trans hI')
    have hloop : hessLoop I c (List.range' (m + 1) ((m + 1).choose 2)) (Np.zeros m m)
        = .ok (Matrix.of fun k l => eval 0 (pderiv k (pderiv l (fitted I c)))) := by
      rw [hessLoop_eq I hnd c]
      · congr 1
        ext a b
        rw [Matrix.of_apply, Matrix.of_apply, hess_zero, if_pos]
        have hin : pair a b ∈ I := (hmem _).mpr (by rw [sum_pair]; omega)
        obtain ⟨i, hi, hget⟩ := List.getElem_of_mem hin
        have hsome : I[i]? = some (pair a b) := List.getElem?_eq_some_iff.mpr ⟨hi, hget⟩
        refine ⟨i, ?_, hsome⟩
        rw [List.mem_range'_1]
        exact (hquad i _ hsome).mp (sum_pair a b)
      · intro i hi
        rw [List.mem_range'_1] at hi
        have hlt : i < I.length := by omega
        exact ⟨I[i], List.getElem?_eq_getElem hlt, (hquad i _ (List.getElem?_eq_getElem hlt)).mpr hi⟩
    rw [if_pos h2, hloop, PyM.run_bind_ok (PyM.run_lift _ _), PyM.run_modify]
    exact ⟨_, rfl, rfl, rfl, rfl, rfl, rfl, rfl, fun _ => rfl⟩
  · rw [if_neg h2]
    exact ⟨_, rfl, rfl, rfl, rfl, rfl, rfl, rfl, fun h => absurd h h2⟩

theorem train_eq (lib : Lib) (w : PolyApprox) (X : Matrix (Fin M) (Fin m) ℝ) (f : Fin M → ℝ) (weights : Option (Fin M → ℝ)) :
    (PolyApprox.train lib (.mat (NpMat.of X)) (.mat (NpMat.of (colMat f))) (weights.map NpVec.of)).run w
      = (trainMat lib w.N X f weights).run w := by
  have hp : Model.Misc.process_inputs_outputs (.mat (NpMat.of X)) (.mat (NpMat.of (colMat f)))
      = .ok ⟨NpMat.of X, NpMat.of (colMat f)⟩ := by
    simp [Model.Misc.process_inputs_outputs, Model.Misc.process_inputs]
  have hf : (fun i : Fin M => (NpMat.of (colMat f)).get i 0) = f := by
    funext i
    exact NpMat.get_of (colMat f) i 0
  unfold PolyApprox.train
  rw [PyM.run_bind_ok (PyM.run_get w), hp]
  cases weights with
  | none =>
    change (trainMat lib w.N X (fun i : Fin M => (NpMat.of (colMat f)).get i 0) none).run w = _
    rw [hf]
  | some v =>
    change (if h : M = M then trainMat lib w.N X (fun i : Fin M => (NpMat.of (colMat f)).get i 0)
      (some fun i => v (Fin.cast h.symm i)) else PyM.raise .valueError).run w = _
    rw [dif_pos rfl, hf]
    rfl

theorem train_run (lib : Lib) (w : PolyApprox) (hm : 1 ≤ m) (hN : 1 ≤ w.N) (X : Matrix (Fin M) (Fin m) ℝ)
    (f : Fin M → ℝ) (weights : Option (Fin M → ℝ)) (hM : (w.N + m).choose m ≤ M) :
    ∃ I, index_set w.N m = .ok I ∧ I.Nodup ∧ (∀ α, α ∈ I ↔ ∑ k, α k ≤ w.N) ∧ I.length = (w.N + m).choose m ∧
      ∃ w', (PolyApprox.train lib (.mat (NpMat.of X)) (.mat (NpMat.of (colMat f))) (weights.map NpVec.of)).run w = (.ok (), w') ∧
        Trained w w' X f weights I (lib.lstsq M I.length (applyWeights weights (monomials X I) f).1
          (applyWeights weights (monomials X I) f).2) := by
  rw [train_eq]
  exact trainMat_run lib w hm hN X f weights hM

end Proofs.PolyTrain
