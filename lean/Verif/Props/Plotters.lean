import Mathlib.Analysis.Convex.Hull
import Mathlib.Tactic.Linarith
import Mathlib.Tactic.FinCases
import Mathlib.Tactic.Positivity
import Verif.Proofs.Plotters
import Verif.Props.ZonotopeHull

/-!
# C80-C84: the plots

What the plotting functions draw, where they save it, and what of it lies within the axis limits.
-/

open Py Spec Model.Plotters

namespace Props

/-! ## C80: files -/

/-- No plotting function writes a file unless asked to save, the only file names are the documented ones, and a dictionary given by the
caller never leads to a directory being made; whatever the arguments, also when an exception is raised. -/
theorem C80_eigenvalues (e : NpMat) (b : Option NpMat) (label : Option String) (t : String) (s : Bool) (mf fo : Option (List (String × String)))
    (w : Plt) : ∃ new, ((eigenvalues e b label (some ⟨some t, some s, mf, fo⟩)).run w).2.files = new ++ w.files ∧
      (∀ p ∈ new, s = true ∧ p.1 = "figs/evals_" ++ label.getD "Output" ++ t) ∧
      ((eigenvalues e b label (some ⟨some t, some s, mf, fo⟩)).run w).2.figsDir = w.figsDir := by
  obtain ⟨new, h1, h2, h3⟩ := eigenvalues_keeps e b label ⟨some t, some s, mf, fo⟩ w
  refine ⟨new, h1, fun p hp => ?_, h3⟩
  have := h2 p hp
  cases s <;> simp [Names] at this ⊢
  exact this

theorem C80_subspace_errors (e : NpMat) (label : Option String) (t : String) (s : Bool) (mf fo : Option (List (String × String)))
    (w : Plt) : ∃ new, ((subspace_errors e label (some ⟨some t, some s, mf, fo⟩)).run w).2.files = new ++ w.files ∧
      (∀ p ∈ new, s = true ∧ p.1 = "figs/subspace_" ++ label.getD "Output" ++ t) ∧
      ((subspace_errors e label (some ⟨some t, some s, mf, fo⟩)).run w).2.figsDir = w.figsDir := by
  obtain ⟨new, h1, h2, h3⟩ := subspace_errors_keeps e label ⟨some t, some s, mf, fo⟩ w
  refine ⟨new, h1, fun p hp => ?_, h3⟩
  have := h2 p hp
  cases s <;> simp [Names] at this ⊢
  exact this

theorem C80_eigenvectors (W : NpMat) (b : Option NpMat) (il : Option (List String)) (label : Option String) (t : String) (s : Bool)
    (mf fo : Option (List (String × String))) (w : Plt) :
    ∃ new, ((eigenvectors W b il label (some ⟨some t, some s, mf, fo⟩)).run w).2.files = new ++ w.files ∧
      (∀ p ∈ new, s = true ∧ p.1 = "figs/evecs_" ++ label.getD "Output" ++ t) ∧
      ((eigenvectors W b il label (some ⟨some t, some s, mf, fo⟩)).run w).2.figsDir = w.figsDir := by
  obtain ⟨new, h1, h2, h3⟩ := eigenvectors_keeps W b il label ⟨some t, some s, mf, fo⟩ w
  refine ⟨new, h1, fun p hp => ?_, h3⟩
  have := h2 p hp
  cases s <;> simp [Names] at this ⊢
  exact this

theorem C80_sufficient_summary (y f : NpMat) (label : Option String) (t : String) (s : Bool)
    (mf fo : Option (List (String × String))) (w : Plt) :
    ∃ new, ((sufficient_summary y f label (some ⟨some t, some s, mf, fo⟩)).run w).2.files = new ++ w.files ∧
      (∀ p ∈ new, s = true ∧ (p.1 = "figs/ssp1_" ++ label.getD "Output" ++ t ∨ p.1 = "figs/ssp2_" ++ label.getD "Output" ++ t)) ∧
      ((sufficient_summary y f label (some ⟨some t, some s, mf, fo⟩)).run w).2.figsDir = w.figsDir := by
  obtain ⟨new, h1, h2, h3⟩ := sufficient_summary_keeps y f label ⟨some t, some s, mf, fo⟩ w
  refine ⟨new, h1, fun p hp => ?_, h3⟩
  have := h2 p hp
  cases s <;> simp [Names] at this ⊢
  exact this

theorem C80_zonotope_2d_plot (hull delaunay : List (ℝ × ℝ) → Except Err Unit) (v : NpMat) (d y f : Option NpMat) (label : Option String)
    (t : String) (s : Bool) (mf fo : Option (List (String × String))) (w : Plt) :
    ∃ new, ((zonotope_2d_plot hull delaunay v d y f label (some ⟨some t, some s, mf, fo⟩)).run w).2.files = new ++ w.files ∧
      (∀ p ∈ new, s = true ∧ p.1 = "figs/zonotope_2d_" ++ label.getD "Output" ++ t) ∧
      ((zonotope_2d_plot hull delaunay v d y f label (some ⟨some t, some s, mf, fo⟩)).run w).2.figsDir = w.figsDir := by
  obtain ⟨new, h1, h2, h3⟩ := zonotope_2d_plot_keeps hull delaunay v d y f label ⟨some t, some s, mf, fo⟩ w
  refine ⟨new, h1, fun p hp => ?_, h3⟩
  have := h2 p hp
  cases s <;> simp [Names] at this ⊢
  exact this

/-- `plot_opts` makes the directory if figures are to be saved, and only then. -/
theorem C80_plot_opts (s : Bool) (t : String) (w : Plt) : ∃ o, (plot_opts s t).run w = (.ok o, { w with figsDir := s || w.figsDir }) ∧
    o.figtype = some t ∧ o.savefigs = some s := ⟨_, plot_opts_run s t w, rfl, rfl⟩

/-- Without `opts` the functions behave as with the dictionary of `plot_opts()`. -/
theorem C80_default (label : Option String) :
    (∀ e b, eigenvalues e b label none = (plot_opts true ".eps" >>= fun o => eigenvalues e b label (some o))) ∧
    (∀ e, subspace_errors e label none = (plot_opts true ".eps" >>= fun o => subspace_errors e label (some o))) ∧
    (∀ W b il, eigenvectors W b il label none = (plot_opts true ".eps" >>= fun o => eigenvectors W b il label (some o))) ∧
    (∀ y f, sufficient_summary y f label none = (plot_opts true ".eps" >>= fun o => sufficient_summary y f label (some o))) ∧
    ∀ hull delaunay v d y f, zonotope_2d_plot hull delaunay v d y f label none =
      (plot_opts true ".eps" >>= fun o => zonotope_2d_plot hull delaunay v d y f label (some o)) :=
  ⟨fun _ _ => rfl, fun _ => rfl, fun _ _ _ => rfl, fun _ _ => rfl, fun _ _ _ _ _ _ => rfl⟩

/-! ## C81: the figure is shown and saved, with the data -/

theorem curve_eq {k : ℕ} (v : Fin k → ℝ) : curve v = List.ofFn fun i => (((i + 1 : ℕ) : ℝ), v i) := by
  unfold curve
  push_cast
  rfl

/-- `eigenvalues` shows one figure with a curve through the eigenvalues over 1, 2, ..., on a logarithmic axis, and saves it. -/
theorem C81_eigenvalues {k : ℕ} (hk : 0 < k) (e : Matrix (Fin k) (Fin 1) ℝ) (label : Option String) (s : Bool) (t : String) (w : Plt) :
    ∃ fig, Reports (plot_opts s t >>= fun o => eigenvalues (.of e) none label (some o)) w s
        ("figs/evals_" ++ label.getD "Output" ++ t) fig ∧
      curvesOf fig = [(true, List.ofFn fun i => (((i + 1 : ℕ) : ℝ), e i 0))] ∧ bandsOf fig = [] ∧
      titlesOf fig = [label.getD "Output"] ∧ labelsOf fig = ["Index", "Eigenvalues"] := by
  obtain ⟨i, hlo, -⟩ := Np.amin_ok (Np.ravel e) (by simpa using hk)
  obtain ⟨j, hhi, -⟩ := Np.amax_ok (Np.ravel e) (by simpa using hk)
  refine ⟨_, reports_of_run (eigenvalues_run e hlo hhi label s t w), ?_, rfl, rfl, rfl⟩
  rw [← curve_eq]
  rfl

/-- With bootstrap ranges there is also a band between them. -/
theorem C81_eigenvalues_br {k : ℕ} (hk : 0 < k) (e : Matrix (Fin k) (Fin 1) ℝ) (b : Matrix (Fin k) (Fin 2) ℝ) (label : Option String) (s : Bool)
    (t : String) (w : Plt) :
    ∃ fig, Reports (plot_opts s t >>= fun o => eigenvalues (.of e) (some (.of b)) label (some o)) w s
        ("figs/evals_" ++ label.getD "Output" ++ t) fig ∧
      curvesOf fig = [(true, List.ofFn fun i => (((i + 1 : ℕ) : ℝ), e i 0))] ∧
      bandsOf fig = [List.ofFn fun i => (((i + 1 : ℕ) : ℝ), b i 0, b i 1)] ∧
      titlesOf fig = [label.getD "Output"] ∧ labelsOf fig = ["Index", "Eigenvalues"] := by
  obtain ⟨i, hlo, -⟩ := Np.amin_ok (fun i => b i 0) hk
  obtain ⟨j, hhi, -⟩ := Np.amax_ok (fun i => b i 1) hk
  refine ⟨_, reports_of_run (eigenvalues_run_br (n := 0) e b hlo hhi label s t w), ?_, ?_, rfl, rfl⟩
  · rw [← curve_eq]
    rfl
  · push_cast
    rfl

/-- `subspace_errors`: the means, between the bounds. -/
theorem C81_subspace_errors {k : ℕ} (hk : 0 < k) (b : Matrix (Fin k) (Fin 3) ℝ) (label : Option String) (s : Bool) (t : String) (w : Plt) :
    ∃ fig, Reports (plot_opts s t >>= fun o => subspace_errors (.of b) label (some o)) w s
        ("figs/subspace_" ++ label.getD "Output" ++ t) fig ∧
      curvesOf fig = [(true, List.ofFn fun i => (((i + 1 : ℕ) : ℝ), b i 1))] ∧
      bandsOf fig = [List.ofFn fun i => (((i + 1 : ℕ) : ℝ), b i 0, b i 2)] ∧
      titlesOf fig = [label.getD "Output"] ∧ labelsOf fig = ["Subspace dimension", "Subspace distance"] := by
  obtain ⟨i, hlo, -⟩ := Np.amin_ok (fun i => b i 0) hk
  refine ⟨_, reports_of_run (subspace_errors_run (n := 0) b hlo label s t w), ?_, ?_, rfl, rfl⟩
  · rw [← curve_eq]
    rfl
  · push_cast
    rfl

theorem curvesOf_append (a b : List Draw) : curvesOf (a ++ b) = curvesOf a ++ curvesOf b := List.filterMap_append

theorem bandsOf_append (a b : List Draw) : bandsOf (a ++ b) = bandsOf a ++ bandsOf b := List.filterMap_append

theorem panel_curves {m n : ℕ} (W : Matrix (Fin m) (Fin n) ℝ) (B : Option (Matrix (Fin m) (Fin (2 * n)) ℝ)) (il : Option (List String))
    (i : Fin n) (t : String) : curvesOf (panelDraws W B il i t) = [(false, List.ofFn fun j => (((j + 1 : ℕ) : ℝ), W j i))] := by
  rw [← curve_eq]
  rcases B with _ | B <;> rcases il with _ | il <;> rfl

theorem panel_bands {m n : ℕ} (W : Matrix (Fin m) (Fin n) ℝ) (B : Matrix (Fin m) (Fin (2 * n)) ℝ) (il : Option (List String))
    (i : Fin n) (t : String) : bandsOf (panelDraws W (some B) il i t) =
      [List.ofFn fun j => (((j + 1 : ℕ) : ℝ), B j ⟨2 * i, by omega⟩, B j ⟨2 * i + 1, by omega⟩)] := by
  push_cast
  rcases il with _ | il <;> rfl

theorem panel_bands_none {m n : ℕ} (W : Matrix (Fin m) (Fin n) ℝ) (il : Option (List String))
    (i : Fin n) (t : String) : bandsOf (panelDraws W none il i t) = [] := by
  rcases il with _ | il <;> rfl

theorem evecs_curves {m n : ℕ} (W : Matrix (Fin m) (Fin n) ℝ) (B : Option (Matrix (Fin m) (Fin (2 * n)) ℝ)) (il : Option (List String))
    (l : String) : curvesOf (evecsFig W B il l) =
      ((List.finRange n).take 4).map fun (i : Fin n) => (false, List.ofFn fun j => (((j + 1 : ℕ) : ℝ), W j i)) := by
  have hs : ∀ c l, curvesOf (Draw.subplot c :: l) = curvesOf l := fun c l => rfl
  have hy : ∀ c, curvesOf [Draw.ylabel c] = [] := fun c => rfl
  match n with
  | 0 => rfl
  | 1 => simp [evecsFig, curvesOf_append, panel_curves, hy, List.finRange_succ]
  | 2 => simp [evecsFig, curvesOf_append, panel_curves, hs, List.finRange_succ]
  | 3 => simp [evecsFig, curvesOf_append, panel_curves, hs, List.finRange_succ]
  | n + 4 =>
    simp [evecsFig, curvesOf_append, panel_curves, hs, List.finRange_succ]
    rfl

theorem evecs_bands {m n : ℕ} (W : Matrix (Fin m) (Fin n) ℝ) (B : Matrix (Fin m) (Fin (2 * n)) ℝ) (il : Option (List String))
    (l : String) : bandsOf (evecsFig W (some B) il l) =
      ((List.finRange n).take 4).map fun (i : Fin n) => List.ofFn fun j => (((j + 1 : ℕ) : ℝ), B j ⟨2 * i, by omega⟩, B j ⟨2 * i + 1, by omega⟩) := by
  have hs : ∀ c l, bandsOf (Draw.subplot c :: l) = bandsOf l := fun c l => rfl
  have hy : ∀ c, bandsOf [Draw.ylabel c] = [] := fun c => rfl
  match n with
  | 0 => rfl
  | 1 => simp only [evecsFig, bandsOf_append, panel_bands, hy]; rfl
  | 2 => simp only [evecsFig, List.append_assoc, List.cons_append, List.nil_append, bandsOf_append, panel_bands, hs]; rfl
  | 3 => simp only [evecsFig, List.append_assoc, List.cons_append, List.nil_append, bandsOf_append, panel_bands, hs]; rfl
  | n + 4 =>
    simp only [evecsFig, List.append_assoc, List.cons_append, List.nil_append, bandsOf_append, panel_bands, hs]
    simp [List.finRange_succ]
    funext j
    have h1 : 3 % (n + 4) = 3 := Nat.mod_eq_of_lt (by omega)
    have h2 : 2 % (n + 3) = 2 := Nat.mod_eq_of_lt (by omega)
    simp only [h1, h2]

theorem evecs_bands_none {m n : ℕ} (W : Matrix (Fin m) (Fin n) ℝ) (il : Option (List String))
    (l : String) : bandsOf (evecsFig W none il l) = [] := by
  have hs : ∀ c l, bandsOf (Draw.subplot c :: l) = bandsOf l := fun c l => rfl
  have hy : ∀ c, bandsOf [Draw.ylabel c] = [] := fun c => rfl
  match n with
  | 0 => rfl
  | 1 => simp only [evecsFig, bandsOf_append, panel_bands_none, hy]; rfl
  | 2 => simp only [evecsFig, List.append_assoc, List.cons_append, List.nil_append, bandsOf_append, panel_bands_none, hs]
  | 3 => simp only [evecsFig, List.append_assoc, List.cons_append, List.nil_append, bandsOf_append, panel_bands_none, hs]
  | n + 4 => simp only [evecsFig, List.append_assoc, List.cons_append, List.nil_append, bandsOf_append, panel_bands_none, hs]

theorem titlesOf_append (a b : List Draw) : titlesOf (a ++ b) = titlesOf a ++ titlesOf b := List.filterMap_append

theorem ticksOf_append (a b : List Draw) : ticksOf (a ++ b) = ticksOf a ++ ticksOf b := List.filterMap_append

theorem panel_titles {m n : ℕ} (W : Matrix (Fin m) (Fin n) ℝ) (B : Option (Matrix (Fin m) (Fin (2 * n)) ℝ)) (il : Option (List String))
    (i : Fin n) (t : String) : titlesOf (panelDraws W B il i t) = [t] := by
  rcases B with _ | B <;> rcases il with _ | il <;> rfl

theorem panel_ticks {m n : ℕ} (W : Matrix (Fin m) (Fin n) ℝ) (B : Option (Matrix (Fin m) (Fin (2 * n)) ℝ)) (il : Option (List String))
    (i : Fin n) (t : String) : ticksOf (panelDraws W B il i t) = il.toList := by
  rcases B with _ | B <;> rcases il with _ | il <;> rfl

/-- The title of a single panel is the label; several panels are numbered.  The names of the inputs are on the lowest panel of each column of
panels (one column for at most two eigenvectors, two columns for more). -/
theorem C81_eigenvectors_text {m n : ℕ} (hn : 0 < n) (W : Matrix (Fin m) (Fin n) ℝ) (B : Option (Matrix (Fin m) (Fin (2 * n)) ℝ))
    (il : Option (List String)) (label : Option String) (s : Bool) (t : String) (w : Plt) :
    ∃ fig, Reports (plot_opts s t >>= fun o => eigenvectors (.of W) (B.map .of) il label (some o)) w s
        ("figs/evecs_" ++ label.getD "Output" ++ t) fig ∧
      (n = 1 → titlesOf fig = [label.getD "Output"]) ∧
      (n ≠ 1 → titlesOf fig = ([", evec 1", ", evec 2", ", evec 3", ", evec 4"].take n).map fun q => label.getD "Output" ++ q) ∧
      (n ≤ 2 → ticksOf fig = il.toList) ∧ (2 < n → ticksOf fig = il.toList ++ il.toList) := by
  refine ⟨_, reports_of_run (eigenvectors_run hn W B il label s t w), ?_⟩
  have hs : ∀ c l, titlesOf (Draw.subplot c :: l) = titlesOf l := fun c l => rfl
  have hy : ∀ c, titlesOf [Draw.ylabel c] = [] := fun c => rfl
  have ks : ∀ c l, ticksOf (Draw.subplot c :: l) = ticksOf l := fun c l => rfl
  have ky : ∀ c, ticksOf [Draw.ylabel c] = [] := fun c => rfl
  match n, hn, W, B with
  | 1, _, W, B =>
    refine ⟨fun _ => ?_, fun h => absurd rfl h, fun _ => ?_, fun h => absurd h (by norm_num)⟩
    · simp only [evecsFig, titlesOf_append, panel_titles, hy, List.append_nil]
    · simp only [evecsFig, ticksOf_append, panel_ticks, ky, List.append_nil]
  | 2, _, W, B =>
    refine ⟨fun h => absurd h (by norm_num), fun _ => ?_, fun _ => ?_, fun h => absurd h (by norm_num)⟩
    · simp only [evecsFig, List.append_assoc, List.cons_append, List.nil_append, titlesOf_append, panel_titles, hs]
      rfl
    · simp only [evecsFig, List.append_assoc, List.cons_append, List.nil_append, ticksOf_append, panel_ticks, ks]
      rfl
  | 3, _, W, B =>
    refine ⟨fun h => absurd h (by norm_num), fun _ => ?_, fun h => absurd h (by norm_num), fun _ => ?_⟩
    · simp only [evecsFig, List.append_assoc, List.cons_append, List.nil_append, titlesOf_append, panel_titles, hs]
      rfl
    · simp only [evecsFig, List.append_assoc, List.cons_append, List.nil_append, ticksOf_append, panel_ticks, ks]
      rfl
  | n + 4, _, W, B =>
    refine ⟨fun h => absurd h (by omega), fun _ => ?_, fun h => absurd h (by omega), fun _ => ?_⟩
    · simp only [evecsFig, List.append_assoc, List.cons_append, List.nil_append, titlesOf_append, panel_titles, hs]
      rw [List.take_of_length_le (by simp)]
      rfl
    · simp only [evecsFig, List.append_assoc, List.cons_append, List.nil_append, ticksOf_append, panel_ticks, ks]
      rfl

/-- `eigenvectors` shows the first four eigenvectors, each with its own pair of bounds. -/
theorem C81_eigenvectors {m n : ℕ} (hn : 0 < n) (W : Matrix (Fin m) (Fin n) ℝ) (B : Matrix (Fin m) (Fin (2 * n)) ℝ) (il : Option (List String))
    (label : Option String) (s : Bool) (t : String) (w : Plt) :
    ∃ fig, Reports (plot_opts s t >>= fun o => eigenvectors (.of W) (some (.of B)) il label (some o)) w s
        ("figs/evecs_" ++ label.getD "Output" ++ t) fig ∧
      curvesOf fig = ((List.finRange n).take 4).map (fun i => (false, List.ofFn fun j => (((j + 1 : ℕ) : ℝ), W j i))) ∧
      bandsOf fig = ((List.finRange n).take 4).map fun (i : Fin n) =>
        List.ofFn fun j => (((j + 1 : ℕ) : ℝ), B j ⟨2 * i, by omega⟩, B j ⟨2 * i + 1, by omega⟩) :=
  ⟨_, reports_of_run (eigenvectors_run hn W (some B) il label s t w), evecs_curves _ _ _ _, evecs_bands _ _ _ _⟩

/-- Without bounds there is no band. -/
theorem C81_eigenvectors_plain {m n : ℕ} (hn : 0 < n) (W : Matrix (Fin m) (Fin n) ℝ) (il : Option (List String))
    (label : Option String) (s : Bool) (t : String) (w : Plt) :
    ∃ fig, Reports (plot_opts s t >>= fun o => eigenvectors (.of W) none il label (some o)) w s
        ("figs/evecs_" ++ label.getD "Output" ++ t) fig ∧
      curvesOf fig = ((List.finRange n).take 4).map (fun i => (false, List.ofFn fun j => (((j + 1 : ℕ) : ℝ), W j i))) ∧ bandsOf fig = [] :=
  ⟨_, reports_of_run (eigenvectors_run hn W none il label s t w), evecs_curves _ _ _ _, evecs_bands_none _ _ _⟩

/-- `sufficient_summary` with one active variable. -/
theorem C81_summary1 {M : ℕ} (y f : Matrix (Fin M) (Fin 1) ℝ) (label : Option String) (s : Bool) (t : String) (w : Plt) :
    ∃ fig, Reports (plot_opts s t >>= fun o => sufficient_summary (.of y) (.of f) label (some o)) w s
        ("figs/ssp1_" ++ label.getD "Output" ++ t) fig ∧ curvesOf fig = [(false, List.ofFn fun i => (y i 0, f i 0))] ∧
      labelsOf fig = ["Active variable", label.getD "Output"] :=
  ⟨_, reports_of_run (sufficient_summary_run1 y f label s t w), rfl, rfl⟩

/-- With two there is a second figure, with markers coloured by the responses. -/
theorem C81_summary2 {M : ℕ} (hM : 0 < M) (y : Matrix (Fin M) (Fin 2) ℝ) (f : Matrix (Fin M) (Fin 1) ℝ) (label : Option String) (s : Bool)
    (t : String) (w : Plt) :
    ∃ f1 f2 w', (plot_opts s t >>= fun o => sufficient_summary (.of y) (.of f) label (some o)).run w = (.ok (), w') ∧
      w'.shown = [f2, f1] ++ w.figures ++ w.shown ∧
      w'.files = (if s then [("figs/ssp2_" ++ label.getD "Output" ++ t, f2), ("figs/ssp1_" ++ label.getD "Output" ++ t, f1)] else []) ++ w.files ∧
      curvesOf f1 = [(false, List.ofFn fun i => (y i 0, f i 0))] ∧
      labelsOf f1 = ["Active variable", label.getD "Output"] ∧
      markersOf f2 = [(List.ofFn fun i => (y i 0, y i 1), List.ofFn fun i => f i 0)] ∧
      titlesOf f2 = [label.getD "Output"] ∧ labelsOf f2 = ["Active variable 1", "Active variable 2"] := by
  obtain ⟨_, h1, -⟩ := Np.amin_ok (fun i => f i 0) hM
  obtain ⟨_, h2, -⟩ := Np.amax_ok (fun i => f i 0) hM
  obtain ⟨_, h3, -⟩ := Np.amin_ok (fun i => y i 0) hM
  obtain ⟨_, h4, -⟩ := Np.amin_ok (fun i => y i 1) hM
  obtain ⟨_, h5, -⟩ := Np.amax_ok (fun i => y i 0) hM
  obtain ⟨_, h6, -⟩ := Np.amax_ok (fun i => y i 1) hM
  refine ⟨_, _, _, sufficient_summary_run2 y f h1 h2 h3 h4 h5 h6 label s t w, rfl, ?_, rfl, rfl, rfl, rfl, rfl⟩
  cases s <;> rfl

/-! ## C82: what is in the file of `zonotope_2d_plot` -/

/-- The arguments the checks of `zonotope_2d_plot` accept. -/
def GoodShapes (v : NpMat) (d y f : Option NpMat) : Prop :=
  v.cols = 2 ∧ (∀ d' ∈ d, d'.cols = 2) ∧ (∀ y' ∈ y, y'.cols = 2) ∧ y.isSome = f.isSome ∧ ∀ y' ∈ y, ∀ f' ∈ f, y'.rows = f'.rows

/-- With points, a run of `zonotope_2d_plot` on good arguments. -/
theorem zonotope_run_full {V K : ℕ} (hull delaunay : List (ℝ × ℝ) → Except Err Unit) (hV : 0 < V) (hK : 0 < K)
    (v : Matrix (Fin V) (Fin 2) ℝ) (d : Option NpMat) (y : Matrix (Fin K) (Fin 2) ℝ) (f : Matrix (Fin K) (Fin 1) ℝ)
    (hd2 : ∀ d' ∈ d, d'.cols = 2) (hh : hull (rowPairs (.of v)) = .ok ())
    (hd : ∀ d' ∈ d, delaunay (rowPairs d' ++ rowPairs (.of v)) = .ok ()) (label : Option String) (s : Bool) (t : String) (w : Plt) :
    ∃ xmin xmax vmin vmax, Np.amin (Np.ravel v) = .ok xmin ∧ Np.amax (Np.ravel v) = .ok xmax ∧
      (plot_opts s t >>= fun o => zonotope_2d_plot hull delaunay (.of v) d (some (.of y)) (some (.of f)) label (some o)).run w =
        (.ok (), afterZonotope w s ("figs/zonotope_2d_" ++ label.getD "Output" ++ t) (zonoFig v d
          [.points (rowPairs (.of y)) (List.ofFn fun i : Fin K => (NpMat.of f).get i 0) vmin vmax, .title (label.getD "Output")]
          xmin xmax)) := by
  obtain ⟨i, hlo, -⟩ := Np.amin_ok (Np.ravel v) (by omega)
  obtain ⟨j, hhi, -⟩ := Np.amax_ok (Np.ravel v) (by omega)
  obtain ⟨i', h1, -⟩ := Np.amin_ok (fun i : Fin K => (NpMat.of f).get i 0) hK
  obtain ⟨j', h2, -⟩ := Np.amax_ok (fun i : Fin K => (NpMat.of f).get i 0) hK
  have hc : ∀ w, (checkZonotope (.of v) d (some (.of y)) (some (.of f))).run w = (.ok (), w) :=
    fun w => checkZonotope_ok (v := .of v) (y := some (.of y)) (f := some (.of f)) rfl hd2 (fun _ h => by cases h; rfl) rfl
      (fun _ h _ h' => by cases h; cases h'; rfl) w
  have hn : "figs/zonotope_2d_" = "figs/" ++ "zonotope_2d_" := rfl
  refine ⟨_, _, (NpMat.of f).get i' 0, (NpMat.of f).get j' 0, hlo, hhi, ?_⟩
  rw [hn]
  exact zonotope_2d_plot_run hull delaunay v hc hlo hhi hh hd label (zonotopePoints_some _ (.of y) (.of f) h1 h2) s t w

/-- `zonotope_2d_plot` shows one figure, with the hull of the vertices, the triangulation and the coloured points, and saves it if the backend
is not interactive.  Missing: with an interactive backend the file is blank, see `C82_refuted`. -/
theorem C82_zonotope_partial {V K : ℕ} (hull delaunay : List (ℝ × ℝ) → Except Err Unit) (hV : 0 < V) (hK : 0 < K)
    (v : Matrix (Fin V) (Fin 2) ℝ) (d : Option NpMat) (y : Matrix (Fin K) (Fin 2) ℝ) (f : Matrix (Fin K) (Fin 1) ℝ)
    (hd2 : ∀ d' ∈ d, d'.cols = 2) (hh : hull (rowPairs (.of v)) = .ok ())
    (hd : ∀ d' ∈ d, delaunay (rowPairs d' ++ rowPairs (.of v)) = .ok ()) (label : Option String) (s : Bool) (t : String) (w : Plt) :
    ∃ fig w', (plot_opts s t >>= fun o => zonotope_2d_plot hull delaunay (.of v) d (some (.of y)) (some (.of f)) label (some o)).run w
        = (.ok (), w') ∧
      w'.shown = fig :: (w.figures ++ w.shown) ∧
      (w.interactive = false → w'.files = (if s then [("figs/zonotope_2d_" ++ label.getD "Output" ++ t, fig)] else []) ++ w.files) ∧
      Draw.hull (List.ofFn fun a => (v a 0, v a 1)) ∈ fig ∧
      (∀ d' ∈ d, Draw.mesh (rowPairs d' ++ List.ofFn fun a => (v a 0, v a 1)) ∈ fig) ∧
      markersOf fig = [(List.ofFn fun a => (y a 0, y a 1), List.ofFn fun a => f a 0)] := by
  obtain ⟨xmin, xmax, vmin, vmax, -, -, h⟩ := zonotope_run_full hull delaunay hV hK v d y f hd2 hh hd label s t w
  have hp : ∀ {A : ℕ} (B : Matrix (Fin A) (Fin 2) ℝ), rowPairs (.of B) = List.ofFn fun a => (B a 0, B a 1) := by
    intro A B
    unfold rowPairs
    congr 1
    funext a
    exact Prod.ext (NpMat.get_of B a 0) (NpMat.get_of B a 1)
  have hf : (fun i : Fin K => (NpMat.of f).get i 0) = fun i => f i 0 := by
    funext i
    exact NpMat.get_of f i 0
  refine ⟨_, _, h, rfl, ?_, ?_, ?_, ?_⟩
  · intro hi
    simp only [afterZonotope, hi]
    rfl
  · rw [← hp]
    simp [zonoFig]
  · rintro d' ⟨⟩
    rw [← hp]
    simp [zonoFig]
  · rw [← hp, ← hf]
    rcases d with _ | d <;> rfl

/-- C82 is refuted: with an interactive backend, in which `plt.show()` returns when the window has been closed, `zonotope_2d_plot` always
saves an empty figure, because it calls `plt.show()` before `plt.savefig`. -/
theorem C82_refuted {V K : ℕ} (hull delaunay : List (ℝ × ℝ) → Except Err Unit) (hV : 0 < V) (hK : 0 < K)
    (v : Matrix (Fin V) (Fin 2) ℝ) (d : Option NpMat) (y : Matrix (Fin K) (Fin 2) ℝ) (f : Matrix (Fin K) (Fin 1) ℝ)
    (hd2 : ∀ d' ∈ d, d'.cols = 2) (hh : hull (rowPairs (.of v)) = .ok ())
    (hd : ∀ d' ∈ d, delaunay (rowPairs d' ++ rowPairs (.of v)) = .ok ()) (label : Option String) (t : String) (w : Plt)
    (hi : w.interactive = true) :
    ((plot_opts true t >>= fun o => zonotope_2d_plot hull delaunay (.of v) d (some (.of y)) (some (.of f)) label (some o)).run w).2.files
      = ("figs/zonotope_2d_" ++ label.getD "Output" ++ t, []) :: w.files := by
  obtain ⟨xmin, xmax, vmin, vmax, -, -, h⟩ := zonotope_run_full hull delaunay hV hK v d y f hd2 hh hd label true t w
  rw [h]
  simp only [afterZonotope, hi]
  rfl

/-- The hypotheses of `C82_refuted` can be met: a square and its centre. -/
example : ∃ (hull delaunay : List (ℝ × ℝ) → Except Err Unit) (v : Matrix (Fin 4) (Fin 2) ℝ) (d : Option NpMat) (w : Plt),
    d.isSome ∧ (∀ d' ∈ d, d'.cols = 2) ∧ hull (rowPairs (.of v)) = .ok () ∧
    (∀ d' ∈ d, delaunay (rowPairs d' ++ rowPairs (.of v)) = .ok ()) ∧ w.interactive = true :=
  ⟨fun _ => .ok (), fun _ => .ok (), !![1, 1; 1, -1; -1, 1; -1, -1], some (.of !![0, (0 : ℝ)]), ⟨false, true, [], [], []⟩, rfl,
    fun _ h => by cases h; rfl, rfl, fun _ _ => rfl, rfl⟩

/-! ## C83: nothing is cut off -/

theorem visible_of {fig : List Draw} {a b c d : ℝ} (hw : Draw.window a b c d ∈ fig)
    (h1 : ∀ a' b' c' d', Draw.window a' b' c' d' ∈ fig → a' = a ∧ b' = b ∧ c' = c ∧ d' = d)
    (h2 : ∀ D ∈ fig, ∀ p ∈ dataOf D, a ≤ p.1 ∧ p.1 ≤ b ∧ c ≤ p.2 ∧ p.2 ≤ d) : Visible fig := by
  refine ⟨⟨a, b, c, d, hw⟩, fun a' b' c' d' h D hD p hp => ?_⟩
  obtain ⟨rfl, rfl, rfl, rfl⟩ := h1 a' b' c' d' h
  exact h2 D hD p hp

theorem index_range {k : ℕ} (i : Fin k) : (0 : ℝ) ≤ (i : ℕ) + 1 ∧ (((i : ℕ) : ℝ) + 1 ≤ k + 1) ∧ (1 : ℝ) ≤ (i : ℕ) + 1 ∧ (((i : ℕ) : ℝ) + 1 ≤ k) := by
  have h : ((i : ℕ) : ℝ) + 1 ≤ k := by exact_mod_cast i.2
  have h0 : (0 : ℝ) ≤ (i : ℕ) := Nat.cast_nonneg _
  exact ⟨by linarith, by linarith, by linarith, h⟩

theorem ravel_col {k : ℕ} (e : Matrix (Fin k) (Fin 1) ℝ) (i : Fin k) : ∃ a, Np.ravel e a = e i 0 := by
  refine ⟨finProdFinEquiv (i, 0), ?_⟩
  simp [Np.ravel]

/-- Positive eigenvalues all lie within the axis limits, and the limits of the logarithmic axis are positive. -/
theorem C83_eigenvalues {k : ℕ} (hk : 0 < k) (e : Matrix (Fin k) (Fin 1) ℝ) (he : ∀ i, 0 < e i 0) (label : Option String) (s : Bool)
    (t : String) (w : Plt) :
    ∃ fig, Reports (plot_opts s t >>= fun o => eigenvalues (.of e) none label (some o)) w s
        ("figs/evals_" ++ label.getD "Output" ++ t) fig ∧ Visible fig ∧ ∀ a b c d, Draw.window a b c d ∈ fig → 0 < c := by
  obtain ⟨i, hlo, hi⟩ := Np.amin_ok (Np.ravel e) (by simpa using hk)
  obtain ⟨j, hhi, hj⟩ := Np.amax_ok (Np.ravel e) (by simpa using hk)
  have hr : ∀ a, 0 < Np.ravel e a := fun a => by
    have h0 : ∀ (x : Fin k) (y : Fin 1), 0 < e x y := fun x y => by rw [Subsingleton.elim y 0]; exact he x
    exact h0 _ _
  refine ⟨_, reports_of_run (eigenvalues_run e hlo hhi label s t w), ?_, ?_⟩
  · refine visible_of (a := 0) (b := k + 1) (c := 0.1 * Np.ravel e i) (d := 10 * Np.ravel e j) (by simp) (fun a b c d h => by simpa using h) ?_
    intro D hD p hp
    simp only [List.mem_cons, List.not_mem_nil, or_false] at hD
    rcases hD with rfl | rfl | rfl | rfl | rfl | rfl <;> simp only [dataOf, List.not_mem_nil] at hp
    simp only [curve, List.mem_ofFn] at hp
    obtain ⟨l, rfl⟩ := hp
    obtain ⟨a, ha⟩ := ravel_col e l
    have h1 := hi a
    have h2 := hj a
    rw [ha] at h1 h2
    have h3 := index_range l
    have h4 := hr i
    have h5 := he l
    refine ⟨h3.1, h3.2.1, ?_, ?_⟩ <;> dsimp only <;> linarith
  · intro a b c d h
    have : c = 0.1 * Np.ravel e i := by
      have h' : a = 0 ∧ b = k + 1 ∧ c = 0.1 * Np.ravel e i ∧ d = 10 * Np.ravel e j := by simpa using h
      exact h'.2.2.1
    rw [this]
    have := hr i
    positivity

example : ∀ i, (0 : ℝ) < (!![2; 0.5] : Matrix (Fin 2) (Fin 1) ℝ) i 0 := by
  intro i
  fin_cases i <;> norm_num

/-- Subspace errors between 0 and 1, with the mean between the bounds, all lie within the axis limits, which are positive. -/
theorem C83_subspace_errors {k : ℕ} (hk : 0 < k) (b : Matrix (Fin k) (Fin 3) ℝ) (h0 : ∀ i, 0 < b i 0) (h1 : ∀ i, b i 0 ≤ b i 1)
    (h2 : ∀ i, b i 1 ≤ b i 2) (h3 : ∀ i, b i 2 ≤ 1) (label : Option String) (s : Bool) (t : String) (w : Plt) :
    ∃ fig, Reports (plot_opts s t >>= fun o => subspace_errors (.of b) label (some o)) w s
        ("figs/subspace_" ++ label.getD "Output" ++ t) fig ∧ Visible fig ∧ ∀ a b c d, Draw.window a b c d ∈ fig → 0 < c := by
  obtain ⟨i, hlo, hi⟩ := Np.amin_ok (fun i => b i 0) hk
  refine ⟨_, reports_of_run (subspace_errors_run (n := 0) b hlo label s t w), ?_, ?_⟩
  · refine visible_of (a := 0) (b := k + 1) (c := 0.1 * b i 0) (d := 1) (by simp) (fun a b c d h => by simpa using h) ?_
    intro D hD p hp
    simp only [List.mem_cons, List.not_mem_nil, or_false] at hD
    rcases hD with rfl | rfl | rfl | rfl | rfl | rfl | rfl <;> simp only [dataOf, List.not_mem_nil] at hp
    · simp only [curve, List.mem_ofFn] at hp
      obtain ⟨l, rfl⟩ := hp
      have h := index_range l
      refine ⟨h.1, h.2.1, ?_, ?_⟩ <;> dsimp only
      · linarith [hi l, h0 i, h1 l]
      · linarith [h2 l, h3 l]
    · simp only [List.mem_append, List.mem_map, List.mem_ofFn] at hp
      rcases hp with ⟨q, ⟨l, rfl⟩, rfl⟩ | ⟨q, ⟨l, rfl⟩, rfl⟩
      · have h := index_range l
        refine ⟨h.1, h.2.1, ?_, ?_⟩ <;> dsimp only
        · linarith [hi l, h0 i]
        · linarith [h2 l, h3 l, h1 l]
      · have h := index_range l
        refine ⟨h.1, h.2.1, ?_, ?_⟩ <;> dsimp only
        · change _ ≤ b l 2
          linarith [hi l, h0 i, h1 l, h2 l]
        · exact h3 l
  · intro a b' c d h
    have : c = 0.1 * b i 0 := by
      have h' : a = 0 ∧ b' = k + 1 ∧ c = 0.1 * b i 0 ∧ d = 1 := by simpa using h
      exact h'.2.2.1
    rw [this]
    have := h0 i
    positivity

example : ∃ b : Matrix (Fin 2) (Fin 3) ℝ, (∀ i, 0 < b i 0) ∧ (∀ i, b i 0 ≤ b i 1) ∧ (∀ i, b i 1 ≤ b i 2) ∧ ∀ i, b i 2 ≤ 1 := by
  refine ⟨Matrix.of fun i j => (((i : ℕ) : ℝ) + (j : ℕ) + 1) / 4, ?_, ?_, ?_, ?_⟩ <;> intro i <;> fin_cases i <;> norm_num

theorem panel_mem {m n : ℕ} {W : Matrix (Fin m) (Fin n) ℝ} {B : Option (Matrix (Fin m) (Fin (2 * n)) ℝ)} (hW : ∀ i j, |W i j| ≤ 1)
    (hB : ∀ b ∈ B, ∀ i j, |b i j| ≤ 1) {il : Option (List String)} {i : Fin n} {t : String} {D : Draw} (hD : D ∈ panelDraws W B il i t) :
    (∀ a b c d, D = .window a b c d → a = 1 ∧ b = m ∧ c = -1 ∧ d = 1) ∧
      ∀ p ∈ dataOf D, 1 ≤ p.1 ∧ p.1 ≤ m ∧ -1 ≤ p.2 ∧ p.2 ≤ 1 := by
  unfold panelDraws at hD
  simp only [List.mem_append, List.mem_cons, List.not_mem_nil, or_false] at hD
  rcases hD with (((hD | hD) | hD) | hD) | hD
  · rcases hD with rfl | rfl
    · exact ⟨fun _ _ _ _ h => (nomatch h), fun p hp => (nomatch hp)⟩
    · refine ⟨fun _ _ _ _ h => (nomatch h), fun p hp => ?_⟩
      simp only [dataOf, curve, List.mem_ofFn] at hp
      obtain ⟨l, rfl⟩ := hp
      have h := index_range l
      exact ⟨h.2.2.1, h.2.2.2, (abs_le.mp (hW l i)).1, (abs_le.mp (hW l i)).2⟩
  · rcases B with _ | B
    · exact absurd hD (List.not_mem_nil)
    · simp only [List.mem_cons, List.not_mem_nil, or_false] at hD
      subst hD
      refine ⟨fun _ _ _ _ h => (nomatch h), fun p hp => ?_⟩
      simp only [dataOf, List.mem_append, List.mem_map, List.mem_ofFn] at hp
      rcases hp with ⟨q, ⟨l, rfl⟩, rfl⟩ | ⟨q, ⟨l, rfl⟩, rfl⟩
      · have h := index_range l
        have h' := abs_le.mp (hB B rfl l ⟨2 * i, by omega⟩)
        exact ⟨h.2.2.1, h.2.2.2, h'.1, h'.2⟩
      · have h := index_range l
        have h' := abs_le.mp (hB B rfl l ⟨2 * i + 1, by omega⟩)
        exact ⟨h.2.2.1, h.2.2.2, h'.1, h'.2⟩
  · subst hD
    exact ⟨fun _ _ _ _ h => (nomatch h), fun p hp => (nomatch hp)⟩
  · rcases il with _ | il
    · exact absurd hD (List.not_mem_nil)
    · simp only [List.mem_cons, List.not_mem_nil, or_false] at hD
      subst hD
      exact ⟨fun _ _ _ _ h => (nomatch h), fun p hp => (nomatch hp)⟩
  · subst hD
    refine ⟨fun _ _ _ _ h => ?_, fun p hp => (nomatch hp)⟩
    cases h
    exact ⟨rfl, rfl, rfl, rfl⟩

theorem evecs_mem {m n : ℕ} {W : Matrix (Fin m) (Fin n) ℝ} {B : Option (Matrix (Fin m) (Fin (2 * n)) ℝ)} {il : Option (List String)}
    {l : String} {D : Draw} (hD : D ∈ evecsFig W B il l) :
    (∃ c, D = .subplot c) ∨ (∃ c, D = .ylabel c) ∨ ∃ il' i t, D ∈ panelDraws W B il' i t := by
  match n, W, B, hD with
  | 0, _, _, hD => exact absurd hD (List.not_mem_nil)
  | 1, W, B, hD =>
    simp only [evecsFig, List.mem_append, List.mem_cons, List.not_mem_nil, or_false] at hD
    rcases hD with h | h
    · exact .inr (.inr ⟨_, _, _, h⟩)
    · exact .inr (.inl ⟨_, h⟩)
  | 2, W, B, hD =>
    simp only [evecsFig, List.mem_append, List.mem_cons, List.not_mem_nil, or_false] at hD
    rcases hD with ((h | h) | h) | h
    · exact .inl ⟨_, h⟩
    · exact .inr (.inr ⟨_, _, _, h⟩)
    · exact .inl ⟨_, h⟩
    · exact .inr (.inr ⟨_, _, _, h⟩)
  | 3, W, B, hD =>
    simp only [evecsFig, List.mem_append, List.mem_cons, List.not_mem_nil, or_false] at hD
    rcases hD with ((((h | h) | h) | h) | h) | h
    · exact .inl ⟨_, h⟩
    · exact .inr (.inr ⟨_, _, _, h⟩)
    · exact .inl ⟨_, h⟩
    · exact .inr (.inr ⟨_, _, _, h⟩)
    · exact .inl ⟨_, h⟩
    · exact .inr (.inr ⟨_, _, _, h⟩)
  | n + 4, W, B, hD =>
    simp only [evecsFig, List.mem_append, List.mem_cons, List.not_mem_nil, or_false] at hD
    rcases hD with ((((((h | h) | h) | h) | h) | h) | h) | h
    · exact .inl ⟨_, h⟩
    · exact .inr (.inr ⟨_, _, _, h⟩)
    · exact .inl ⟨_, h⟩
    · exact .inr (.inr ⟨_, _, _, h⟩)
    · exact .inl ⟨_, h⟩
    · exact .inr (.inr ⟨_, _, _, h⟩)
    · exact .inl ⟨_, h⟩
    · exact .inr (.inr ⟨_, _, _, h⟩)

/-- The entries of orthonormal columns are at most one. -/
theorem entry_le_one {m n : ℕ} {W : Matrix (Fin m) (Fin n) ℝ} (hW : W.transpose * W = 1) (i : Fin m) (j : Fin n) : |W i j| ≤ 1 := by
  have h : ∑ l, W l j * W l j = 1 := by
    have := congrFun (congrFun hW j) j
    simpa [Matrix.mul_apply] using this
  have h1 : W i j * W i j ≤ ∑ l, W l j * W l j :=
    Finset.single_le_sum (f := fun l => W l j * W l j) (fun l _ => mul_self_nonneg _) (Finset.mem_univ i)
  rw [h] at h1
  exact abs_le_one_iff_mul_self_le_one.mpr h1

/-- Orthonormal eigenvectors, and bounds between -1 and 1, all lie within the axis limits of their panels. -/
theorem C83_eigenvectors {m n : ℕ} (hn : 0 < n) (W : Matrix (Fin m) (Fin n) ℝ) (hW : W.transpose * W = 1)
    (B : Option (Matrix (Fin m) (Fin (2 * n)) ℝ)) (hB : ∀ b ∈ B, ∀ i j, |b i j| ≤ 1) (il : Option (List String))
    (label : Option String) (s : Bool) (t : String) (w : Plt) :
    ∃ fig, Reports (plot_opts s t >>= fun o => eigenvectors (.of W) (B.map .of) il label (some o)) w s
        ("figs/evecs_" ++ label.getD "Output" ++ t) fig ∧ Visible fig := by
  refine ⟨_, reports_of_run (eigenvectors_run hn W B il label s t w), ?_⟩
  have hw : ∀ il' i t', Draw.window 1 m (-1) 1 ∈ panelDraws W B il' i t' := fun il' i t' => by simp [panelDraws]
  refine visible_of (a := 1) (b := m) (c := -1) (d := 1) ?_ ?_ ?_
  · match n, hn, W, B, hw with
    | 1, _, W, B, hw => exact List.mem_append_left _ (hw _ _ _)
    | 2, _, W, B, hw => exact List.mem_append_right _ (hw _ _ _)
    | 3, _, W, B, hw => exact List.mem_append_right _ (hw _ _ _)
    | n + 4, _, W, B, hw => exact List.mem_append_right _ (hw _ _ _)
  · intro a b c d h
    rcases evecs_mem h with ⟨_, h⟩ | ⟨_, h⟩ | ⟨_, _, _, h⟩
    · nomatch h
    · nomatch h
    · exact (panel_mem (entry_le_one hW) hB h).1 a b c d rfl
  · intro D hD p hp
    rcases evecs_mem hD with ⟨_, rfl⟩ | ⟨_, rfl⟩ | ⟨_, _, _, h⟩
    · nomatch hp
    · nomatch hp
    · exact (panel_mem (entry_le_one hW) hB h).2 p hp

example : (!![0.6, 0.8; 0.8, -0.6] : Matrix (Fin 2) (Fin 2) ℝ).transpose * !![0.6, 0.8; 0.8, -0.6] = 1 := by
  ext i j
  fin_cases i <;> fin_cases j <;> norm_num [Matrix.mul_apply, Fin.sum_univ_two]

/-! ## C84: axis limits taken from part of the data -/

/-- With positive ranges around the eigenvalues, eigenvalues and ranges lie within the axis limits.  Missing: the limits are taken from the
ranges alone, see `C84_ranges_refuted`, and are no limits for a logarithmic axis if a range begins at 0, see `C84_log_refuted`. -/
theorem C84_ranges_partial {k : ℕ} (hk : 0 < k) (e : Matrix (Fin k) (Fin 1) ℝ) (b : Matrix (Fin k) (Fin 2) ℝ) (h0 : ∀ i, 0 < b i 0)
    (h1 : ∀ i, b i 0 ≤ e i 0) (h2 : ∀ i, e i 0 ≤ b i 1) (label : Option String) (s : Bool) (t : String) (w : Plt) :
    ∃ fig, Reports (plot_opts s t >>= fun o => eigenvalues (.of e) (some (.of b)) label (some o)) w s
        ("figs/evals_" ++ label.getD "Output" ++ t) fig ∧ Visible fig := by
  obtain ⟨i, hlo, hi⟩ := Np.amin_ok (fun i => b i 0) hk
  obtain ⟨j, hhi, hj⟩ := Np.amax_ok (fun i => b i 1) hk
  refine ⟨_, reports_of_run (eigenvalues_run_br (n := 0) e b hlo hhi label s t w), ?_⟩
  refine visible_of (a := 0) (b := k + 1) (c := 0.1 * b i 0) (d := 10 * b j 1) (by simp) (fun a b c d h => by simpa using h) ?_
  intro D hD p hp
  simp only [List.mem_cons, List.not_mem_nil, or_false] at hD
  rcases hD with rfl | rfl | rfl | rfl | rfl | rfl | rfl <;> simp only [dataOf, List.not_mem_nil] at hp
  · simp only [curve, List.mem_ofFn] at hp
    obtain ⟨l, rfl⟩ := hp
    have h := index_range l
    refine ⟨h.1, h.2.1, ?_, ?_⟩ <;> dsimp only
    · linarith [hi l, h0 i, h1 l]
    · linarith [hj l, h0 l, h1 l, h2 l]
  · simp only [List.mem_append, List.mem_map, List.mem_ofFn] at hp
    rcases hp with ⟨q, ⟨l, rfl⟩, rfl⟩ | ⟨q, ⟨l, rfl⟩, rfl⟩
    · have h := index_range l
      refine ⟨h.1, h.2.1, ?_, ?_⟩
      · change _ ≤ b l 0
        linarith [hi l, h0 i]
      · change b l 0 ≤ _
        linarith [hj l, h0 l, h1 l, h2 l]
    · have h := index_range l
      refine ⟨h.1, h.2.1, ?_, ?_⟩
      · change _ ≤ b l 1
        linarith [hi l, h0 i, h1 l, h2 l]
      · change b l 1 ≤ _
        linarith [hj l, h0 l, h1 l, h2 l]

example : ∃ (e : Matrix (Fin 2) (Fin 1) ℝ) (b : Matrix (Fin 2) (Fin 2) ℝ), (∀ i, 0 < b i 0) ∧ (∀ i, b i 0 ≤ e i 0) ∧ ∀ i, e i 0 ≤ b i 1 := by
  refine ⟨!![2; 1], !![1, 3; 0.5, 1], ?_, ?_, ?_⟩ <;> intro i <;> fin_cases i <;> norm_num

/-- C84 is refuted: an eigenvalue far above its bootstrap range is not in the plot. -/
theorem C84_ranges_refuted (w : Plt) : ∃ fig, Reports (eigenvalues (.of !![(100 : ℝ)]) (some (.of !![(1 : ℝ), 2])) none none) w true
    "figs/evals_Output.eps" fig ∧ ¬ Visible fig := by
  have hlo : Np.amin (fun i => (!![(1 : ℝ), 2] : Matrix (Fin 1) (Fin (0 + 2)) ℝ) i 0) = .ok 1 :=
    Np.amin_eq_ok_iff.mpr ⟨⟨0, by simp⟩, fun j => by fin_cases j; simp⟩
  have hhi : Np.amax (fun i => (!![(1 : ℝ), 2] : Matrix (Fin 1) (Fin (0 + 2)) ℝ) i 1) = .ok 2 :=
    Np.amax_eq_ok_iff.mpr ⟨⟨0, by simp⟩, fun j => by fin_cases j; simp⟩
  refine ⟨_, reports_of_run (eigenvalues_run_br (n := 0) !![(100 : ℝ)] !![(1 : ℝ), 2] hlo hhi none true ".eps" w), fun h => ?_⟩
  have h1 := h.2 0 ((1 : ℕ) + 1) (0.1 * 1) (10 * 2) (by simp) (.line true (curve fun i => (!![(100 : ℝ)] : Matrix (Fin 1) (Fin 1) ℝ) i 0)) (by simp)
    (1, 100) (by simp [dataOf, curve])
  norm_num at h1

/-- If an eigenvalue is 0, as for fewer samples than inputs, the lower limit of the logarithmic axis is 0. -/
theorem C84_log_refuted (w : Plt) : ∃ fig, Reports (eigenvalues (.of !![(1 : ℝ); 0]) none none none) w true
    "figs/evals_Output.eps" fig ∧ (∃ p, (true, p) ∈ curvesOf fig) ∧ ∃ a b d, Draw.window a b 0 d ∈ fig := by
  have hlo : Np.amin (Np.ravel (!![(1 : ℝ); 0] : Matrix (Fin 2) (Fin 1) ℝ)) = .ok 0 := by
    refine Np.amin_eq_ok_iff.mpr ⟨⟨1, by rfl⟩, fun j => ?_⟩
    change (0 : ℝ) ≤ (!![(1 : ℝ); 0] : Matrix (Fin 2) (Fin 1) ℝ) j.divNat j.modNat
    generalize j.divNat = a
    generalize j.modNat = b
    fin_cases a <;> fin_cases b <;> norm_num
  obtain ⟨j, hhi, -⟩ := Np.amax_ok (Np.ravel (!![(1 : ℝ); 0] : Matrix (Fin 2) (Fin 1) ℝ)) (by norm_num)
  refine ⟨_, reports_of_run (eigenvalues_run _ hlo hhi none true ".eps" w), ⟨_, List.mem_singleton.mpr rfl⟩, 0, (2 : ℕ) + 1, 10 * Np.ravel !![(1 : ℝ); 0] j, ?_⟩
  simp

/-- The bivariate summary plot shows all points if some coordinates are at most 0 and some at least 0.  Missing: for coordinates of one sign it
does not, see `C84_summary_refuted`. -/
theorem C84_summary_partial {M : ℕ} (y : Matrix (Fin M) (Fin 2) ℝ) (f : Matrix (Fin M) (Fin 1) ℝ) (hneg : ∃ i j, y i j ≤ 0)
    (hpos : ∃ i j, 0 ≤ y i j) (label : Option String) (s : Bool) (t : String) (w : Plt) :
    ∃ f2 rest w', (plot_opts s t >>= fun o => sufficient_summary (.of y) (.of f) label (some o)).run w = (.ok (), w') ∧
      w'.shown = f2 :: rest ∧ markersOf f2 = [(List.ofFn fun i => (y i 0, y i 1), List.ofFn fun i => f i 0)] ∧ Visible f2 := by
  have hM : 0 < M := hneg.choose.pos
  obtain ⟨_, h1, -⟩ := Np.amin_ok (fun i => f i 0) hM
  obtain ⟨_, h2, -⟩ := Np.amax_ok (fun i => f i 0) hM
  obtain ⟨i3, h3, g3⟩ := Np.amin_ok (fun i => y i 0) hM
  obtain ⟨i4, h4, g4⟩ := Np.amin_ok (fun i => y i 1) hM
  obtain ⟨i5, h5, g5⟩ := Np.amax_ok (fun i => y i 0) hM
  obtain ⟨i6, h6, g6⟩ := Np.amax_ok (fun i => y i 1) hM
  refine ⟨_, _, _, sufficient_summary_run2 y f h1 h2 h3 h4 h5 h6 label s t w, rfl, rfl, ?_⟩
  have hle : ∀ i j, min (y i3 0) (y i4 1) ≤ y i j ∧ y i j ≤ max (y i5 0) (y i6 1) := by
    intro i j
    fin_cases j
    · exact ⟨(min_le_left _ _).trans (g3 i), (g5 i).trans (le_max_left _ _)⟩
    · exact ⟨(min_le_right _ _).trans (g4 i), (g6 i).trans (le_max_right _ _)⟩
  obtain ⟨i, j, hij⟩ := hneg
  obtain ⟨i', j', hij'⟩ := hpos
  have hn : min (y i3 0) (y i4 1) ≤ 0 := (hle i j).1.trans hij
  have hp : 0 ≤ max (y i5 0) (y i6 1) := hij'.trans (hle i' j').2
  refine visible_of (a := 1.1 * min (y i3 0) (y i4 1)) (b := 1.1 * max (y i5 0) (y i6 1)) (c := 1.1 * min (y i3 0) (y i4 1))
    (d := 1.1 * max (y i5 0) (y i6 1)) (by simp [sspFig2]) (fun a b c d h => by simpa [sspFig2] using h) ?_
  intro D hD p hp'
  simp only [sspFig2, List.mem_cons, List.not_mem_nil, or_false] at hD
  rcases hD with rfl | rfl | rfl | rfl | rfl | rfl <;> simp only [dataOf, List.not_mem_nil] at hp'
  simp only [pairs, List.mem_ofFn] at hp'
  obtain ⟨l, rfl⟩ := hp'
  have k0 := hle l 0
  have k1 := hle l 1
  refine ⟨?_, ?_, ?_, ?_⟩ <;> dsimp only <;> linarith

example : ∃ y : Matrix (Fin 2) (Fin 2) ℝ, (∃ i j, y i j ≤ 0) ∧ ∃ i j, 0 ≤ y i j :=
  ⟨!![1, 2; -1, 3], ⟨1, 0, by norm_num⟩, ⟨0, 0, by norm_num⟩⟩

/-- C84 is refuted: of two points with positive coordinates, the one nearer to the origin is not in the plot. -/
theorem C84_summary_refuted (w : Plt) : ∃ f2 rest w', (sufficient_summary (.of !![(1 : ℝ), 1; 2, 2]) (.of !![(0 : ℝ); 1]) none none).run w
      = (.ok (), w') ∧ w'.shown = f2 :: rest ∧ markersOf f2 = [([(1, 1), (2, 2)], [0, 1])] ∧ ¬ Visible f2 := by
  have hmin : ∀ j, Np.amin (fun i => (!![(1 : ℝ), 1; 2, 2] : Matrix (Fin 2) (Fin 2) ℝ) i j) = .ok 1 := fun j =>
    Np.amin_eq_ok_iff.mpr ⟨⟨0, by fin_cases j <;> simp⟩, fun i => by fin_cases i <;> fin_cases j <;> norm_num⟩
  have hmax : ∀ j, Np.amax (fun i => (!![(1 : ℝ), 1; 2, 2] : Matrix (Fin 2) (Fin 2) ℝ) i j) = .ok 2 := fun j =>
    Np.amax_eq_ok_iff.mpr ⟨⟨1, by fin_cases j <;> simp⟩, fun i => by fin_cases i <;> fin_cases j <;> norm_num⟩
  obtain ⟨_, h1, -⟩ := Np.amin_ok (fun i => (!![(0 : ℝ); 1] : Matrix (Fin 2) (Fin 1) ℝ) i 0) (by norm_num)
  obtain ⟨_, h2, -⟩ := Np.amax_ok (fun i => (!![(0 : ℝ); 1] : Matrix (Fin 2) (Fin 1) ℝ) i 0) (by norm_num)
  refine ⟨_, _, _, sufficient_summary_run2 !![(1 : ℝ), 1; 2, 2] !![(0 : ℝ); 1] h1 h2 (hmin 0) (hmin 1) (hmax 0) (hmax 1) none true ".eps" w, rfl, ?_, fun h => ?_⟩
  · simp [markersOf, sspFig2, pairs]
  · have h1 := h.2 (1.1 * min 1 1) (1.1 * max 2 2) (1.1 * min 1 1) (1.1 * max 2 2) (by simp [sspFig2]) _ (List.mem_cons_of_mem _ List.mem_cons_self)
      (1, 1) (by simp [dataOf, pairs])
    norm_num at h1

theorem ravel_entry {k n : ℕ} (e : Matrix (Fin k) (Fin n) ℝ) (i : Fin k) (j : Fin n) : ∃ a, Np.ravel e a = e i j := by
  refine ⟨finProdFinEquiv (i, j), ?_⟩
  have h := finProdFinEquiv.symm_apply_apply (i, j)
  have h1 : (finProdFinEquiv (i, j)).divNat = i := congrArg Prod.fst h
  have h2 : (finProdFinEquiv (i, j)).modNat = j := congrArg Prod.snd h
  unfold Np.ravel
  rw [h1, h2]

theorem rowPairs_of {A : ℕ} (B : Matrix (Fin A) (Fin 2) ℝ) : rowPairs (.of B) = List.ofFn fun a => (B a 0, B a 1) := by
  unfold rowPairs
  congr 1
  funext a
  exact Prod.ext (NpMat.get_of B a 0) (NpMat.get_of B a 1)

/-- `zonotope_2d_plot` shows the hull, the triangulation and the points if the set of vertices is symmetric about the origin, as that of a
zonotope is, and the design and the points lie in the hull of the vertices. -/
theorem C84_zonotope {V N K : ℕ} (hull delaunay : List (ℝ × ℝ) → Except Err Unit) (hV : 0 < V) (hK : 0 < K)
    (v : Matrix (Fin V) (Fin 2) ℝ) (d : Matrix (Fin N) (Fin 2) ℝ) (y : Matrix (Fin K) (Fin 2) ℝ) (f : Matrix (Fin K) (Fin 1) ℝ)
    (hsym : ∀ a, ∃ b, ∀ j, v b j = -v a j) (hdv : ∀ a, d a ∈ convexHull ℝ (Set.range fun b => v b))
    (hyv : ∀ a, y a ∈ convexHull ℝ (Set.range fun b => v b)) (hh : hull (rowPairs (.of v)) = .ok ())
    (hd : delaunay (rowPairs (.of d) ++ rowPairs (.of v)) = .ok ()) (label : Option String) (s : Bool) (t : String) (w : Plt) :
    ∃ fig w', (plot_opts s t >>= fun o => zonotope_2d_plot hull delaunay (.of v) (some (.of d)) (some (.of y)) (some (.of f)) label
        (some o)).run w = (.ok (), w') ∧ w'.shown = fig :: (w.figures ++ w.shown) ∧ Visible fig := by
  obtain ⟨xmin, xmax, vmin, vmax, hmin, hmax, h⟩ := zonotope_run_full hull delaunay hV hK v (some (.of d)) y f
    (fun _ h => by cases h; rfl) hh (fun _ h => by cases h; exact hd) label s t w
  refine ⟨_, _, h, rfl, ?_⟩
  have hlo : ∀ a j, xmin ≤ v a j := fun a j => by
    obtain ⟨r, hr⟩ := ravel_entry v a j
    rw [← hr]
    exact (Np.amin_eq_ok_iff.mp hmin).2 r
  have hhi : ∀ a j, v a j ≤ xmax := fun a j => by
    obtain ⟨r, hr⟩ := ravel_entry v a j
    rw [← hr]
    exact (Np.amax_eq_ok_iff.mp hmax).2 r
  have hmin0 : xmin ≤ 0 := by
    obtain ⟨b, hb⟩ := hsym ⟨0, hV⟩
    have h1 := hlo ⟨0, hV⟩ 0
    have h2 := hlo b 0
    rw [hb 0] at h2
    linarith
  have hmax0 : 0 ≤ xmax := by
    obtain ⟨b, hb⟩ := hsym ⟨0, hV⟩
    have h1 := hhi ⟨0, hV⟩ 0
    have h2 := hhi b 0
    rw [hb 0] at h2
    linarith
  have hbox : convexHull ℝ (Set.range fun b => v b) ⊆ Set.Icc (fun _ => xmin) (fun _ => xmax) := by
    refine convexHull_min ?_ (convex_Icc _ _)
    rintro _ ⟨a, rfl⟩
    exact ⟨fun j => hlo a j, fun j => hhi a j⟩
  have hv : ∀ p ∈ rowPairs (.of v), xmin ≤ p.1 ∧ p.1 ≤ xmax ∧ xmin ≤ p.2 ∧ p.2 ≤ xmax := by
    intro p hp
    rw [rowPairs_of, List.mem_ofFn] at hp
    obtain ⟨a, rfl⟩ := hp
    exact ⟨hlo _ _, hhi _ _, hlo _ _, hhi _ _⟩
  have hin : ∀ {A : ℕ} (u : Matrix (Fin A) (Fin 2) ℝ), (∀ a, u a ∈ convexHull ℝ (Set.range fun b => v b)) →
      ∀ p ∈ rowPairs (.of u), xmin ≤ p.1 ∧ p.1 ≤ xmax ∧ xmin ≤ p.2 ∧ p.2 ≤ xmax := by
    intro A u hu p hp
    rw [rowPairs_of, List.mem_ofFn] at hp
    obtain ⟨a, rfl⟩ := hp
    have := hbox (hu a)
    exact ⟨this.1 0, this.2 0, this.1 1, this.2 1⟩
  refine visible_of (a := 1.1 * xmin) (b := 1.1 * xmax) (c := 1.1 * xmin) (d := 1.1 * xmax) (by simp [zonoFig])
    (fun a b c d h => by simpa [zonoFig] using h) ?_
  intro D hD p hp
  have hq : xmin ≤ p.1 ∧ p.1 ≤ xmax ∧ xmin ≤ p.2 ∧ p.2 ≤ xmax := by
    simp only [zonoFig, List.mem_append, List.mem_cons, List.not_mem_nil, or_false] at hD
    rcases hD with ((rfl | rfl) | rfl | rfl) | rfl | rfl | rfl <;> simp only [dataOf, List.not_mem_nil, List.mem_append] at hp
    · exact hv p hp
    · exact hp.elim (hin d hdv p) (hv p)
    · exact hin y hyv p hp
  refine ⟨?_, ?_, ?_, ?_⟩ <;> linarith [hq.1, hq.2.1, hq.2.2.1, hq.2.2.2]

/-- The vertices found by `zonotope_vertices` are symmetric about the origin. -/
theorem C84_vertices {S E : Type} {m : ℕ} {lib : Model.Domains.Lib} (hu : UniqueOK lib) (rng : Rng S) (W1 : Matrix (Fin m) (Fin 2) ℝ)
    (Nsamples maxcount : ℕ) (hm : 1 ≤ m) (w w' : S × Model.QPSolver.Files × Model.Domains.Out × E) (v : Model.Domains.Verts m 2)
    (h : (Model.Domains.zonotope_vertices lib rng W1 Nsamples maxcount).run w = (.ok v, w')) :
    ∀ a, ∃ b, ∀ j, v.Y b j = -v.Y a j := by
  obtain ⟨v', r, N, h1, -, -, -, -, -, hneg, -, hY, -⟩ := C51_rows hu rng W1 Nsamples maxcount hm w
  rw [h] at h1
  cases Except.ok.inj (Prod.mk.inj h1).1
  intro a
  obtain ⟨b, hb⟩ := hneg a
  refine ⟨b, fun j => ?_⟩
  rw [hY, hY, ← Finset.sum_neg_distrib]
  exact Finset.sum_congr rfl fun i _ => by rw [hb, neg_mul]

example : ∃ (v : Matrix (Fin 4) (Fin 2) ℝ) (d : Matrix (Fin 1) (Fin 2) ℝ), (∀ a, ∃ b, ∀ j, v b j = -v a j) ∧
    ∀ a, d a ∈ convexHull ℝ (Set.range fun b => v b) := by
  refine ⟨!![1, 1; 1, -1; -1, 1; -1, -1], !![1, 1], fun a => ?_, fun a => ?_⟩
  · refine ⟨![3, 2, 1, 0] a, fun j => ?_⟩
    fin_cases a <;> fin_cases j <;> simp
  · refine subset_convexHull ℝ _ ⟨0, ?_⟩
    funext j
    fin_cases a
    fin_cases j <;> simp

/-! ## C85: arguments of wrong shape -/

/-- `eigenvectors` refuses bounds that are not two columns per eigenvector before it draws anything. -/
theorem C85_eigenvectors (W b : NpMat) (h : b.cols ≠ 2 * W.cols) (il : Option (List String)) (label : Option String) (o : Opts) (w : Plt) :
    (eigenvectors W (some b) il label (some o)).run w = (.error .exception, w) := by
  unfold eigenvectors
  refine (PyM.run_bind_ok rfl).trans ?_
  exact PyM.run_bind_error (run_raiseIf h _ _)

/-- `sufficient_summary` refuses more than two active variables before it draws anything. -/
theorem C85_summary_cols (y f : NpMat) (h1 : y.cols ≠ 1) (h2 : y.cols ≠ 2) (label : Option String) (o : Opts) (w : Plt) :
    (sufficient_summary y f label (some o)).run w = (.error .exception, w) := by
  unfold sufficient_summary
  refine (PyM.run_bind_ok rfl).trans ?_
  exact PyM.run_bind_error (run_raiseIf ⟨h1, h2⟩ _ _)

/-- Different numbers of active variables and responses raise `ValueError`, and nothing is saved. -/
theorem C85_summary_rows (y f : NpMat) (hy : y.cols = 1 ∨ y.cols = 2) (h : f.rows ≠ y.rows) (label : Option String) (t : String) (s : Bool)
    (mf : List (String × String)) (fo : Option (List (String × String))) (w : Plt) :
    ∃ w', (sufficient_summary y f label (some ⟨some t, some s, some mf, fo⟩)).run w = (.error .valueError, w') ∧ w'.files = w.files ∧
      w'.shown = w.shown := by
  unfold sufficient_summary
  refine ⟨drawn w [.font mf], ?_, ?_, ?_⟩
  · refine (PyM.run_bind_ok rfl).trans ?_
    refine (PyM.run_bind_ok (run_raiseIf_not (by omega) _ _)).trans ?_
    refine (PyM.run_bind_ok (run_figure _)).trans ?_
    refine (PyM.run_bind_ok rfl).trans ?_
    refine (PyM.run_bind_ok (run_draw _ _ _)).trans ?_
    exact PyM.run_bind_error (run_raiseIf (Or.inl h) _ _)
  · rfl
  · rfl

/-- `zonotope_2d_plot` refuses arrays of wrong shape before it draws anything. -/
theorem C85_zonotope (hull delaunay : List (ℝ × ℝ) → Except Err Unit) (v : NpMat) (d y f : Option NpMat) (h : ¬ GoodShapes v d y f)
    (label : Option String) (o : Opts) (w : Plt) :
    (zonotope_2d_plot hull delaunay v d y f label (some o)).run w = (.error .exception, w) := by
  unfold zonotope_2d_plot
  refine (PyM.run_bind_ok rfl).trans ?_
  exact PyM.run_bind_error (checkZonotope_error h w)

example : ¬ GoodShapes (.of !![(1 : ℝ), 1; -1, -1]) none (some (.of !![(0 : ℝ), 0])) none := fun h => by
  have := h.2.2.2.1
  simp at this

/-! ## C86: the options dictionary -/

/-- A dictionary made by `plot_opts` holds the two arguments and a font, and works; see C81 for what is drawn.  Missing: a dictionary with the documented keys does not, see
`C86_refuted`. -/
theorem C86_plot_opts_partial {k : ℕ} (hk : 0 < k) (e : Matrix (Fin k) (Fin 1) ℝ) (label : Option String) (s : Bool) (t : String) (w w1 : Plt)
    (o : Opts) (h : (plot_opts s t).run w = (.ok o, w1)) : ((eigenvalues (.of e) none label (some o)).run w1).1 = .ok () ∧
    o.figtype = some t ∧ o.savefigs = some s ∧ ∃ f, o.myfont = some f ∧ f.lookup "family" = some "arial" ∧ f.lookup "weight" = some "normal" ∧
      f.lookup "size" = some "14" := by
  obtain ⟨fig, h1, -⟩ := C81_eigenvalues hk e label s t w
  have h2 := h1.1
  rw [PyM.run_bind_ok h] at h2
  refine ⟨h2, ?_⟩
  rw [plot_opts_run] at h
  cases h
  exact ⟨rfl, rfl, _, rfl, by decide, by decide, by decide⟩

example (w : Plt) : ∃ o w1, (plot_opts false ".png").run w = (.ok o, w1) := ⟨_, _, plot_opts_run _ _ _⟩

/-- C86 is refuted: with the keys `figtype`, `savefigs` and `font` that the documentation of `plot_opts` gives, every function that sets a font
raises `KeyError`, whatever is to be plotted; and `plot_opts` itself does not make the key `font`. -/
theorem C86_refuted (t : String) (s : Bool) (font : List (String × String)) (label : Option String) (w : Plt) :
    (∀ e b, ((eigenvalues e b label (some ⟨some t, some s, none, some font⟩)).run w).1 = .error .keyError) ∧
    (∀ e, ((subspace_errors e label (some ⟨some t, some s, none, some font⟩)).run w).1 = .error .keyError) ∧
    (∀ y f : NpMat, y.cols = 1 ∨ y.cols = 2 →
      ((sufficient_summary y f label (some ⟨some t, some s, none, some font⟩)).run w).1 = .error .keyError) ∧
    (∀ W il, ((eigenvectors W none il label (some ⟨some t, some s, none, some font⟩)).run w).1 = .error .keyError) ∧
    ∃ o w1, (plot_opts s t).run w = (.ok o, w1) ∧ o.font = none := by
  refine ⟨fun e b => ?_, fun e => ?_, fun y f hy => ?_, fun W il => ?_, _, _, plot_opts_run _ _ _, rfl⟩
  · rcases b with _ | b <;> rfl
  · rfl
  · unfold sufficient_summary
    have h1 : (optsOr (some ⟨some t, some s, none, some font⟩)).run w = (.ok ⟨some t, some s, none, some font⟩, w) := rfl
    rw [PyM.run_bind_ok h1, PyM.run_bind_ok (run_raiseIf_not (by omega) _ _)]
    rfl
  · unfold eigenvectors
    have hq : ∀ w, ((panels W none il (label.getD "Output") ⟨some t, some s, none, some font⟩).run w).1 = .error .keyError := by
      intro w
      unfold panels
      split_ifs <;> rfl
    have h1 := hq (drawn w [])
    rcases h2 : (panels W none il (label.getD "Output") ⟨some t, some s, none, some font⟩).run (drawn w []) with ⟨r, w2⟩
    rw [h2] at h1
    simp only at h1
    subst h1
    have h3 : (optsOr (some ⟨some t, some s, none, some font⟩)).run w = (.ok ⟨some t, some s, none, some font⟩, w) := rfl
    have h4 : (checkRanges W none).run w = (.ok (), w) := rfl
    rw [PyM.run_bind_ok h3, PyM.run_bind_ok h4]
    simp only
    rw [PyM.run_bind_ok (run_figure _), PyM.run_bind_error h2]

end Props
