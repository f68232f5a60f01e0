import Verif.Props.RoundedSubspace
import Verif.Props.Partition

/-!
# Property C129: the dimension of the active subspace in double precision
-/

open Py Matrix Model.Subspaces Spec
open scoped Matrix.Norms.L2Operator

namespace Props

variable {M m : ℕ} {rd : ℝ → ℝ}

/-- C129: without rounding the definition is that of C38. -/
theorem C129_exact {m : ℕ} (e : Fin m → ℝ) : Model.Rounded.eig_partition id e = eig_partition e := rfl

/-- Some maximum of the rounded gaps is found. -/
theorem Rounded.gap_first (rd : ℝ → ℝ) (hm : 2 ≤ m) (e : Fin m → ℝ) :
    ∃ (n : ℕ) (_ : 1 ≤ n) (h2 : n < m) (d : Fin (m - 1) → ℝ), Model.Rounded.eig_partition rd e = .ok (n, d) ∧
      ∀ k (_ : 1 ≤ k) (hk : k < m), |rd (e ⟨k, hk⟩ - e ⟨k - 1, by omega⟩)| ≤ |rd (e ⟨n, h2⟩ - e ⟨n - 1, by omega⟩)| := by
  obtain ⟨i, hi, hmax, -⟩ := Np.argmax_ok (fun i : Fin (m - 1) => |rd (e ⟨i + 1, by omega⟩ - e ⟨i, by omega⟩)|) (by omega)
  refine ⟨i + 1, by omega, by omega, fun i => |rd (e ⟨i + 1, by omega⟩ - e ⟨i, by omega⟩)|, ?_, fun k hk1 hk => ?_⟩
  · unfold Model.Rounded.eig_partition
    simp only
    rw [hi]
    rfl
  · have := hmax ⟨k - 1, by omega⟩
    simp only [Nat.sub_add_cancel hk1] at this
    exact this

/-- C129: eigenvalues within `δ` of descending ones whose gap after `n` exceeds every other gap by more than
`4 δ + (gap + 2 δ) / 2^52` lead to the dimension `n`, as the exact ones do. -/
theorem C129_dimension (hr : Rounding rd) {e e' : Fin m → ℝ} {δ : ℝ} (hδ : 0 ≤ δ) (he : ∀ j, |e j - e' j| ≤ δ) (ha : Antitone e') {n : ℕ} (hn : 1 ≤ n) (hnm : n < m)
    (hgap : ∀ k (_ : 1 ≤ k) (hk : k < m), k ≠ n →
      e' ⟨k - 1, by omega⟩ - e' ⟨k, hk⟩ + 4 * δ + (e' ⟨n - 1, by omega⟩ - e' ⟨n, hnm⟩ + 2 * δ) / 2 ^ 52 < e' ⟨n - 1, by omega⟩ - e' ⟨n, hnm⟩) :
    (∃ d, Model.Rounded.eig_partition rd e = .ok (n, d)) ∧ ∃ d, eig_partition e' = .ok (n, d) := by
  have hg0 : ∀ k (_ : 1 ≤ k) (hk : k < m), 0 ≤ e' ⟨k - 1, by omega⟩ - e' ⟨k, hk⟩ := by
    intro k h1 hk
    have : e' ⟨k, hk⟩ ≤ e' ⟨k - 1, by omega⟩ := ha (Fin.le_def.mpr (by simp))
    linarith
  -- the rounded gap is near the exact one
  have hnear : ∀ k (h1 : 1 ≤ k) (hk : k < m), |(|rd (e ⟨k, hk⟩ - e ⟨k - 1, by omega⟩)|) - (e' ⟨k - 1, by omega⟩ - e' ⟨k, hk⟩)|
      ≤ 2 * δ + (e' ⟨k - 1, by omega⟩ - e' ⟨k, hk⟩ + 2 * δ) / 2 ^ 53 := by
    intro k h1 hk
    set a := e ⟨k, hk⟩ - e ⟨k - 1, by omega⟩ with hadef
    set g := e' ⟨k - 1, by omega⟩ - e' ⟨k, hk⟩ with hgdef
    have b0 : 0 ≤ g := hg0 k h1 hk
    have b1 : |(-a) - g| ≤ 2 * δ := by
      have c1 := abs_le.mp (he ⟨k, hk⟩)
      have c2 := abs_le.mp (he ⟨k - 1, by omega⟩)
      rw [abs_le]
      constructor <;> rw [hadef, hgdef] <;> linarith [c1.1, c1.2, c2.1, c2.2]
    have b2 : |(|a|) - g| ≤ 2 * δ := by
      have := abs_abs_sub_abs_le_abs_sub (-a) g
      rw [abs_neg, abs_of_nonneg b0] at this
      exact this.trans b1
    have b3 : |a| ≤ g + 2 * δ := by linarith [(abs_le.mp b2).2]
    have b4 := Proofs.Rounding.error hr a
    have b5 := abs_abs_sub_abs_le_abs_sub (rd a) a
    have b6 : |rd a - a| ≤ (g + 2 * δ) / 2 ^ 53 := by
      refine b4.trans ?_
      gcongr
    have b7 := abs_sub_le (|rd a|) (|a|) g
    linarith
  constructor
  · obtain ⟨n', h1, h2, d, h3, h4⟩ := Rounded.gap_first rd (by omega : 2 ≤ m) e
    by_cases hnn : n' = n
    · subst hnn
      exact ⟨d, h3⟩
    · exfalso
      have c0 := h4 n hn hnm
      have c1 := (abs_le.mp (hnear n hn hnm)).1
      have c2 := (abs_le.mp (hnear n' h1 h2)).2
      have c3 := hgap n' h1 h2 hnn
      have c4 : e' ⟨n' - 1, by omega⟩ - e' ⟨n', h2⟩ ≤ e' ⟨n - 1, by omega⟩ - e' ⟨n, hnm⟩ := by
        have := hg0 n hn hnm
        have : 0 ≤ (e' ⟨n - 1, by omega⟩ - e' ⟨n, hnm⟩ + 2 * δ) / 2 ^ 52 := by positivity
        linarith
      have c5 : (e' ⟨n' - 1, by omega⟩ - e' ⟨n', h2⟩ + 2 * δ) / 2 ^ 53 ≤ (e' ⟨n - 1, by omega⟩ - e' ⟨n, hnm⟩ + 2 * δ) / 2 ^ 53 := by gcongr
      have c6 : (e' ⟨n - 1, by omega⟩ - e' ⟨n, hnm⟩ + 2 * δ) / 2 ^ 52 = 2 * ((e' ⟨n - 1, by omega⟩ - e' ⟨n, hnm⟩ + 2 * δ) / 2 ^ 53) := by ring
      linarith
  · obtain ⟨n', h1, h2, d, h3, -, h4, -⟩ := C38_gap (by omega : 2 ≤ m) e'
    by_cases hnn : n' = n
    · subst hnn
      exact ⟨d, h3⟩
    · exfalso
      have c0 := h4 n hn hnm
      rw [abs_of_nonneg (hg0 n hn hnm), abs_of_nonneg (hg0 n' h1 h2)] at c0
      have c3 := hgap n' h1 h2 hnn
      have := hg0 n hn hnm
      have : 0 ≤ (e' ⟨n - 1, by omega⟩ - e' ⟨n, hnm⟩ + 2 * δ) / 2 ^ 52 := by positivity
      linarith

/-- C129: from the gradients to the active subspace.  If the exact gap after `n` exceeds every other one by more than
`4 δ + (gap + 2 δ) / 2^52`, `δ` as in C127, the computed dimension is the exact one, and the computed directions have a projection of
length at most `δ / (gap - δ) + ε` on the exact inactive subspace. -/
theorem C129_active_subspace (hr : Rounding rd) {d : Model.Rounded.Dot} (hd : ∀ p n q A B, FloatDot rd A B (d p n q A B))
    {lib lib' : Model.Subspaces.Lib} (ha : ∀ (n : ℕ) (v : Fin n → ℝ), IsArgsort v (lib.argsort n v)) {ε : ℝ}
    (he : ∀ A : Matrix (Fin m) (Fin m) ℝ, StableEigh ε A (lib.eigh m A).1 (lib.eigh m A).2) (hε : 0 ≤ ε) (hl' : SubLibOK lib')
    (n : ℕ) (hn : 1 ≤ n) (hnm : n < m)
    (G : Matrix (Fin M) (Fin m) ℝ) (w : Fin M → ℝ) (hw : ∀ k, 0 ≤ w k) {γ δ : ℝ} (hγ : γ = (1 + 1 / 2 ^ 53) ^ (M + 1) - 1)
    (hδ : δ = (γ + ε * (1 + γ)) * ∑ k, w k * ∑ i, G k i ^ 2) :
    ∃ e W e' V, Model.Rounded.active_subspace rd d lib (.mat (.of G)) (wcol w) = .ok ⟨m, e, W⟩ ∧
      active_subspace lib' (.mat (.of G)) (wcol w) = .ok ⟨m, e', V⟩ ∧
      (2 * δ < e' ⟨n - 1, by omega⟩ - e' ⟨n, hnm⟩ →
      (∀ k (_ : 1 ≤ k) (hk : k < m), k ≠ n →
        e' ⟨k - 1, by omega⟩ - e' ⟨k, hk⟩ + 4 * δ + (e' ⟨n - 1, by omega⟩ - e' ⟨n, hnm⟩ + 2 * δ) / 2 ^ 52 < e' ⟨n - 1, by omega⟩ - e' ⟨n, hnm⟩) →
      (∃ t, Model.Rounded.eig_partition rd e = .ok (n, t)) ∧ (∃ t, eig_partition e' = .ok (n, t)) ∧
        ∀ c : Fin n → ℝ, ∑ i, c i ^ 2 ≤ 1 →
          Real.sqrt (∑ j : Fin (m - n), (∑ r, V r ⟨n + j, by omega⟩ * ∑ i, W r (Fin.castLE hnm.le i) * c i) ^ 2)
            ≤ δ / (e' ⟨n - 1, by omega⟩ - e' ⟨n, hnm⟩ - δ) + ε) := by
  obtain ⟨e, W, e', V, h1, h2, -, -, h3⟩ := C127_eigenvalues hr hd ha he hε hl' (by omega : 0 < m) G w hw hγ hδ
  obtain ⟨e1, W1, e1', V1, k1, k2, k3⟩ := C127_subspace hr hd ha he hε hl' n hn hnm G w hw hγ hδ
  obtain ⟨e2, V2, h4, hs⟩ := C34_posSemidef lib' hl' (by omega : 0 < m) _ (gradOuter_posSemidef G w hw)
  have hinj : ∀ {a b : Fin m → ℝ} {A B : Matrix (Fin m) (Fin m) ℝ}, (Except.ok ⟨m, a, A⟩ : Except Err EigPair) = .ok ⟨m, b, B⟩ → a = b ∧ A = B := by
    intro a b A B h
    have := Except.ok.inj h
    injection this with _ a b
    exact ⟨a, b⟩
  obtain ⟨rfl, rfl⟩ := hinj (k1.symm.trans h1)
  obtain ⟨rfl, rfl⟩ := hinj (k2.symm.trans h2)
  obtain ⟨rfl, rfl⟩ := hinj (h4.symm.trans ((active_subspace_eq lib' G w).symm.trans h2))
  have hδ0 : 0 ≤ δ := (abs_nonneg _).trans (h3 ⟨0, by omega⟩)
  refine ⟨e1, W1, e2, V2, h1, h2, fun hg hgap => ?_⟩
  obtain ⟨c1, c2⟩ := C129_dimension hr hδ0 h3 hs.anti hn hnm hgap
  exact ⟨c1, c2, (k3 hg).1⟩

/-- Eigenvalues 4, 1, 1/2 and an accuracy of `1/10`: the gaps are 3 and 1/2. -/
example : ∀ k (_ : 1 ≤ k) (hk : k < 3), k ≠ 1 →
    (![4, 1, 1 / 2] : Fin 3 → ℝ) ⟨k - 1, by omega⟩ - (![4, 1, 1 / 2] : Fin 3 → ℝ) ⟨k, hk⟩ + 4 * (1 / 10)
      + ((![4, 1, 1 / 2] : Fin 3 → ℝ) ⟨1 - 1, by omega⟩ - (![4, 1, 1 / 2] : Fin 3 → ℝ) ⟨1, by omega⟩ + 2 * (1 / 10)) / 2 ^ 52
      < (![4, 1, 1 / 2] : Fin 3 → ℝ) ⟨1 - 1, by omega⟩ - (![4, 1, 1 / 2] : Fin 3 → ℝ) ⟨1, by omega⟩ := by
  intro k h1 hk hne
  obtain rfl : k = 2 := by omega
  simp
  norm_num

end Props
