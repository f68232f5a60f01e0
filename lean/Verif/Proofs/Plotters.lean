import Verif.Model.Plotters
import Verif.Spec.Figure

/-!
# Runs of the plotting functions
-/

open Py

namespace Model.Plotters

/-- `x` only adds files with names in `N`, and leaves the directory alone. -/
def Keeps {α : Type} (N : List String) (x : PyM Plt α) : Prop :=
  ∀ w, ∃ new, (x.run w).2.files = new ++ w.files ∧ (∀ p ∈ new, p.1 ∈ N) ∧ (x.run w).2.figsDir = w.figsDir

section
variable {α β : Type} {N : List String}

theorem keeps_of_same {x : PyM Plt α} (h : ∀ w, (x.run w).2.files = w.files ∧ (x.run w).2.figsDir = w.figsDir) : Keeps N x :=
  fun w => ⟨[], by simpa using (h w).1, by simp, (h w).2⟩

theorem keeps_bind {x : PyM Plt α} {f : α → PyM Plt β} (hx : Keeps N x) (hf : ∀ a, Keeps N (f a)) : Keeps N (x >>= f) := by
  intro w
  obtain ⟨n1, a1, a2, a3⟩ := hx w
  rw [PyM.run_bind]
  rcases h : x.run w with ⟨r, w1⟩
  rw [h] at a1 a3
  rcases r with e | a
  · exact ⟨n1, a1, a2, a3⟩
  · obtain ⟨n2, b1, b2, b3⟩ := hf a w1
    refine ⟨n2 ++ n1, ?_, ?_, ?_⟩
    · simp only at a1 ⊢
      rw [b1, a1, List.append_assoc]
    · intro p hp
      rcases List.mem_append.mp hp with hp | hp
      · exact b2 p hp
      · exact a2 p hp
    · simp only at a3 ⊢
      rw [b3, a3]

theorem keeps_pure (a : α) : Keeps N (pure a : PyM Plt α) := keeps_of_same fun _ => ⟨rfl, rfl⟩

theorem keeps_raise (e : Err) : Keeps N (PyM.raise e : PyM Plt α) := keeps_of_same fun _ => ⟨rfl, rfl⟩

theorem keeps_lift (x : Except Err α) : Keeps N (PyM.lift x : PyM Plt α) := keeps_of_same fun _ => ⟨rfl, rfl⟩

theorem keeps_draw (d : Draw) : Keeps N (draw d) := keeps_of_same fun _ => ⟨rfl, rfl⟩

theorem keeps_figure : Keeps N figure := keeps_of_same fun _ => ⟨rfl, rfl⟩

theorem keeps_show : Keeps N show_plot := keeps_of_same fun _ => ⟨rfl, rfl⟩

theorem keeps_key (o : Option α) : Keeps N (key o) := by
  cases o
  · exact keeps_raise _
  · exact keeps_pure _

theorem keeps_raiseIf (P : Prop) [Decidable P] (e : Err) : Keeps N (raiseIf P e) := by
  unfold raiseIf
  split_ifs
  · exact keeps_raise _
  · exact keeps_pure _

theorem keeps_forM {γ : Type} (l : List γ) (f : γ → PyM Plt PUnit) (hf : ∀ c, Keeps N (f c)) : Keeps N (l.forM f) := by
  induction l with
  | nil => exact keeps_pure _
  | cons c l ih => exact keeps_bind (hf c) fun _ => ih

theorem keeps_fillBetween (k : ℕ) (B : NpMat) (a b : ℕ) : Keeps N (fillBetween k B a b) := by
  unfold fillBetween
  refine keeps_bind (keeps_lift _) fun lo => keeps_bind (keeps_lift _) fun hi => ?_
  split_ifs
  · exact keeps_draw _
  · exact keeps_raise _

theorem keeps_saveAs (o : Opts) (stem label : String)
    (h : o.savefigs = some true → ∀ t, o.figtype = some t → "figs/" ++ stem ++ label ++ t ∈ N) : Keeps N (saveAs o stem label) := by
  obtain ⟨ft, sf, mf, fo⟩ := o
  unfold saveAs
  rcases sf with _ | _ | _
  · exact keeps_of_same fun _ => ⟨rfl, rfl⟩
  · exact keeps_of_same fun _ => ⟨rfl, rfl⟩
  · rcases ft with _ | t
    · exact keeps_of_same fun _ => ⟨rfl, rfl⟩
    · intro w
      change ∃ new, ((savefig ("figs/" ++ stem ++ label ++ t)).run w).2.files = new ++ w.files ∧ (∀ p ∈ new, p.1 ∈ N) ∧
        ((savefig ("figs/" ++ stem ++ label ++ t)).run w).2.figsDir = w.figsDir
      have hn := h rfl t rfl
      unfold savefig PyM.run
      rcases w with ⟨d, i, fs, l, s⟩
      rcases d with _ | _
      · exact ⟨[], rfl, by simp, rfl⟩
      · rcases fs with _ | ⟨f, fs⟩
        · exact ⟨[(_, _)], rfl, by simpa using hn, rfl⟩
        · exact ⟨[(_, _)], rfl, by simpa using hn, rfl⟩

theorem keeps_panel (W : NpMat) (b : Option NpMat) (il : Option (List String)) (o : Opts) (i : ℕ) (t : String) :
    Keeps N (panel W b il o i t) := by
  unfold panel
  refine keeps_bind (keeps_key _) fun f => keeps_bind (keeps_draw _) fun _ => keeps_bind (keeps_lift _) fun w =>
    keeps_bind (keeps_draw _) fun _ => ?_
  cases b <;> cases il <;> dsimp only <;>
  repeat' first
    | exact keeps_draw _ | exact keeps_pure _ | exact keeps_fillBetween _ _ _ _ | refine keeps_bind ?_ fun _ => ?_

end

/-- The file a plot is saved in. -/
def Names (o : Opts) (stem : String) (label : Option String) : List String :=
  match o.savefigs, o.figtype with
  | some true, some t => ["figs/" ++ stem ++ label.getD "Output" ++ t]
  | _, _ => []

theorem names_mem (o : Opts) (stem : String) (label : Option String) (h : o.savefigs = some true) (t : String) (ht : o.figtype = some t) :
    "figs/" ++ stem ++ label.getD "Output" ++ t ∈ Names o stem label := by
  unfold Names
  rw [h, ht]
  simp

theorem keeps_some {α : Type} {N : List String} {o : Opts} {f : Opts → PyM Plt α} (h : Keeps N (f o)) :
    Keeps N (optsOr (some o) >>= f) := h

/-- Walk through a `do` block. -/
local macro "walk" : tactic => `(tactic| repeat' first
  | with_reducible exact keeps_draw _ | with_reducible exact keeps_pure _ | with_reducible exact keeps_raise _
  | with_reducible exact keeps_lift _ | with_reducible exact keeps_figure | with_reducible exact keeps_show
  | with_reducible exact keeps_key _ | with_reducible exact keeps_raiseIf _ _ | with_reducible exact keeps_fillBetween _ _ _ _
  | with_reducible exact keeps_panel _ _ _ _ _ _ | with_reducible refine keeps_forM _ _ fun _ => ?_
  | with_reducible refine keeps_bind ?_ fun _ => ?_ | split)

theorem eigenvalues_keeps (e : NpMat) (b : Option NpMat) (label : Option String) (o : Opts) :
    Keeps (Names o "evals_" label) (eigenvalues e b label (some o)) := by
  unfold eigenvalues
  refine keeps_some ?_
  cases b <;> dsimp only <;> walk <;> exact keeps_saveAs _ _ _ (names_mem o _ label)

theorem subspace_errors_keeps (e : NpMat) (label : Option String) (o : Opts) :
    Keeps (Names o "subspace_" label) (subspace_errors e label (some o)) := by
  unfold subspace_errors
  refine keeps_some ?_
  dsimp only
  walk
  exact keeps_saveAs _ _ _ (names_mem o _ label)

theorem keeps_checkRanges {N : List String} (W : NpMat) (b : Option NpMat) : Keeps N (checkRanges W b) := by
  cases b
  · exact keeps_pure _
  · exact keeps_raiseIf _ _

theorem keeps_panels {N : List String} (W : NpMat) (b : Option NpMat) (il : Option (List String)) (label : String) (o : Opts) :
    Keeps N (panels W b il label o) := by
  unfold panels
  walk

theorem eigenvectors_keeps (W : NpMat) (b : Option NpMat) (il : Option (List String)) (label : Option String) (o : Opts) :
    Keeps (Names o "evecs_" label) (eigenvectors W b il label (some o)) := by
  unfold eigenvectors
  refine keeps_some ?_
  dsimp only
  walk
  · exact keeps_checkRanges _ _
  · exact keeps_panels _ _ _ _ _
  · exact keeps_saveAs _ _ _ (names_mem o _ label)

theorem keeps_summary2 {N : List String} (y : NpMat) (y1 fv : Fin y.rows → ℝ) (label : String) (o : Opts)
    (h : o.savefigs = some true → ∀ t, o.figtype = some t → "figs/" ++ "ssp2_" ++ label ++ t ∈ N) :
    Keeps N (summary2 y y1 fv label o) := by
  unfold summary2
  walk
  exact keeps_saveAs _ _ _ h

theorem sufficient_summary_keeps (y f : NpMat) (label : Option String) (o : Opts) :
    Keeps (Names o "ssp1_" label ++ Names o "ssp2_" label) (sufficient_summary y f label (some o)) := by
  unfold sufficient_summary
  refine keeps_some ?_
  dsimp only
  walk
  · exact keeps_saveAs _ _ _ fun h t ht => List.mem_append.mpr (Or.inl (names_mem o _ label h t ht))
  · exact keeps_summary2 _ _ _ _ _ fun h t ht => List.mem_append.mpr (Or.inr (names_mem o _ label h t ht))

theorem keeps_option {N : List String} {γ : Type} (c : Option γ) (f : γ → PyM Plt PUnit) (hf : ∀ c, Keeps N (f c)) : Keeps N (c.forM f) := by
  cases c
  · exact keeps_pure _
  · exact hf _

theorem zonotope_2d_plot_keeps (hull delaunay : List (ℝ × ℝ) → Except Err Unit) (v : NpMat) (d y f : Option NpMat) (label : Option String)
    (o : Opts) : Keeps (Names o "zonotope_2d_" label) (zonotope_2d_plot hull delaunay v d y f label (some o)) := by
  unfold zonotope_2d_plot
  refine keeps_some ?_
  dsimp only
  walk
  · unfold checkZonotope
    walk
  · exact keeps_option _ _ fun _ => keeps_lift _
  · exact keeps_option _ _ fun _ => keeps_draw _
  · unfold zonotopePoints
    rcases y with _ | y <;> rcases f with _ | f <;> dsimp only <;> walk
  · exact keeps_saveAs _ _ _ (names_mem o _ label)

/-! ### Complete runs -/

/-- The world once a figure has been drawn, saved if asked and shown. -/
def after (w : Plt) (s : Bool) (name : String) (fig : List Draw) : Plt :=
  { figsDir := s || w.figsDir, interactive := w.interactive, figures := if w.interactive then [] else fig :: w.figures,
    files := (if s then [(name, fig)] else []) ++ w.files, shown := fig :: (w.figures ++ w.shown) }

/-- The dictionary made by `plot_opts`. -/
def stdOpts (s : Bool) (t : String) : Opts := ⟨some t, some s, some myfont, none⟩

/-- The world after `plot_opts` and a drawn figure. -/
def drawn (w : Plt) (fig : List Draw) : Plt := { w with figures := fig :: w.figures }

theorem plot_opts_run (s : Bool) (t : String) (w : Plt) :
    (plot_opts s t).run w = (.ok (stdOpts s t), { w with figsDir := s || w.figsDir }) := by
  obtain ⟨d, i, fs, l, sh⟩ := w
  cases s <;> cases d <;> rfl

theorem run_draw (d : Draw) (w : Plt) (f : List Draw) : (draw d).run (drawn w f) = (.ok (), drawn w (f ++ [d])) := rfl

theorem run_figure (w : Plt) : figure.run w = (.ok (), drawn w []) := rfl

theorem run_save (s : Bool) (t stem label : String) (w : Plt) (hw : s = true → w.figsDir = true) (f : List Draw) :
    (saveAs (stdOpts s t) stem label).run (drawn w f) =
      (.ok (), drawn { w with files := (if s then [("figs/" ++ stem ++ label ++ t, f)] else []) ++ w.files } f) := by
  obtain ⟨d, i, fs, l, sh⟩ := w
  cases s
  · rfl
  · cases (hw rfl : d = true)
    rfl

theorem run_save_show (s : Bool) (t stem label : String) (w : Plt) (f : List Draw) :
    (saveAs (stdOpts s t) stem label >>= fun _ => show_plot).run (drawn { w with figsDir := s || w.figsDir } f) =
      (.ok (), after w s ("figs/" ++ stem ++ label ++ t) f) := by
  obtain ⟨d, i, fs, l, sh⟩ := w
  cases s <;> cases d <;> rfl

theorem run_key {α : Type} (a : α) (w : Plt) : (key (some a)).run w = (.ok a, w) := rfl

theorem run_forM_draw {γ : Type} (l : List γ) (g : γ → Draw) (w : Plt) (f : List Draw) :
    (l.forM fun j => draw (g j)).run (drawn w f) = (.ok (), drawn w (f ++ l.map g)) := by
  induction l generalizing f with
  | nil => rw [List.map_nil, List.append_nil]; rfl
  | cons c l ih =>
    rw [List.map_cons, List.append_cons]
    exact (PyM.run_bind_ok (run_draw _ _ _)).trans (ih _)

theorem run_lift_ok {α : Type} {x : Except Err α} {a : α} (h : x = .ok a) {w : Plt} : (PyM.lift x : PyM Plt α).run w = (.ok a, w) := by
  rw [h]
  rfl

theorem column_of {m n : ℕ} (A : Matrix (Fin m) (Fin n) ℝ) {j : ℕ} (h : j < n) :
    column (NpMat.of A) j = .ok fun i => A i ⟨j, h⟩ := dif_pos h

theorem run_fillBetween {m n : ℕ} (B : Matrix (Fin m) (Fin n) ℝ) {a b : ℕ} (ha : a < n) (hb : b < n) (w : Plt) (f : List Draw) :
    (fillBetween m (NpMat.of B) a b).run (drawn w f) =
      (.ok (), drawn w (f ++ [.band (List.ofFn fun i => (((i : ℕ) : ℝ) + 1, B i ⟨a, ha⟩, B i ⟨b, hb⟩))])) := by
  unfold fillBetween
  rw [column_of B ha, column_of B hb]
  simp only [PyM.run_bind, PyM.run_lift]
  exact congrArg (fun x : PyM Plt Unit => x.run (drawn w f)) (if_pos rfl)

/-- One statement with a known result. -/
local macro "stp" h:term : tactic => `(tactic| refine (PyM.run_bind_ok $h).trans ?_)

theorem eigenvalues_run {k : ℕ} (e : Matrix (Fin k) (Fin 1) ℝ) {lo hi : ℝ} (hlo : Np.amin (Np.ravel e) = .ok lo)
    (hhi : Np.amax (Np.ravel e) = .ok hi) (label : Option String) (s : Bool) (t : String) (w : Plt) :
    (plot_opts s t >>= fun o => eigenvalues (NpMat.of e) none label (some o)).run w =
      (.ok (), after w s ("figs/" ++ "evals_" ++ label.getD "Output" ++ t)
        [.font myfont, .line true (curve fun i => e i 0), .xlabel "Index", .ylabel "Eigenvalues", .title (label.getD "Output"),
          .window 0 (k + 1) (0.1 * lo) (10 * hi)]) := by
  rw [PyM.run_bind_ok (plot_opts_run s t w), ← run_save_show]
  unfold eigenvalues
  dsimp only
  stp rfl
  stp (run_figure _)
  stp rfl
  stp (run_draw _ _ _)
  stp (run_forM_draw _ _ _ _)
  iterate 3 stp (run_draw _ _ _)
  stp (run_lift_ok hlo)
  stp (run_lift_ok hhi)
  stp (run_draw _ _ _)
  rfl

theorem eigenvalues_run_br {k n : ℕ} (e : Matrix (Fin k) (Fin 1) ℝ) (b : Matrix (Fin k) (Fin (n + 2)) ℝ) {lo hi : ℝ}
    (hlo : Np.amin (fun i => b i 0) = .ok lo) (hhi : Np.amax (fun i => b i 1) = .ok hi) (label : Option String) (s : Bool) (t : String)
    (w : Plt) :
    (plot_opts s t >>= fun o => eigenvalues (NpMat.of e) (some (NpMat.of b)) label (some o)).run w =
      (.ok (), after w s ("figs/" ++ "evals_" ++ label.getD "Output" ++ t)
        [.font myfont, .line true (curve fun i => e i 0), .band (List.ofFn fun i => (((i : ℕ) : ℝ) + 1, b i 0, b i 1)),
          .xlabel "Index", .ylabel "Eigenvalues", .title (label.getD "Output"),
          .window 0 (k + 1) (0.1 * lo) (10 * hi)]) := by
  rw [PyM.run_bind_ok (plot_opts_run s t w), ← run_save_show]
  unfold eigenvalues
  dsimp only
  stp rfl
  stp (run_figure _)
  stp rfl
  stp (run_draw _ _ _)
  stp (run_forM_draw _ _ _ _)
  stp (run_fillBetween b (Nat.succ_pos _) (by omega) _ _)
  iterate 3 stp (run_draw _ _ _)
  stp (run_lift_ok (column_of b (Nat.succ_pos _)))
  stp (run_lift_ok hlo)
  stp (run_lift_ok (column_of b (by omega)))
  stp (run_lift_ok hhi)
  stp (run_draw _ _ _)
  rfl

theorem subspace_errors_run {k n : ℕ} (b : Matrix (Fin k) (Fin (n + 3)) ℝ) {lo : ℝ}
    (hlo : Np.amin (fun i => b i 0) = .ok lo) (label : Option String) (s : Bool) (t : String)
    (w : Plt) :
    (plot_opts s t >>= fun o => subspace_errors (NpMat.of b) label (some o)).run w =
      (.ok (), after w s ("figs/" ++ "subspace_" ++ label.getD "Output" ++ t)
        [.font myfont, .line true (curve fun i => b i 1), .band (List.ofFn fun i => (((i : ℕ) : ℝ) + 1, b i 0, b i 2)),
          .xlabel "Subspace dimension", .ylabel "Subspace distance", .title (label.getD "Output"),
          .window 0 (k + 1) (0.1 * lo) 1]) := by
  rw [PyM.run_bind_ok (plot_opts_run s t w), ← run_save_show]
  unfold subspace_errors
  dsimp only
  stp rfl
  stp (run_figure _)
  stp rfl
  stp (run_draw _ _ _)
  stp (run_lift_ok (column_of b (by omega)))
  stp (run_draw _ _ _)
  stp (run_fillBetween b (Nat.succ_pos _) (by omega) _ _)
  iterate 3 stp (run_draw _ _ _)
  stp (run_lift_ok (column_of b (Nat.succ_pos _)))
  stp (run_lift_ok hlo)
  stp (run_draw _ _ _)
  rfl

/-- What a panel draws. -/
noncomputable def panelDraws {m n : ℕ} (W : Matrix (Fin m) (Fin n) ℝ) (B : Option (Matrix (Fin m) (Fin (2 * n)) ℝ))
    (il : Option (List String)) (i : Fin n) (title : String) : List Draw :=
  [.font myfont, .line false (curve fun j => W j i)] ++
  (match B with
    | some B => [.band (List.ofFn fun j => (((j : ℕ) : ℝ) + 1, B j ⟨2 * i, by omega⟩, B j ⟨2 * i + 1, by omega⟩))]
    | none => []) ++ [.title title] ++ (match il with | some l => [.ticks l] | none => []) ++ [.window 1 m (-1) 1]

theorem panel_run {m n : ℕ} (W : Matrix (Fin m) (Fin n) ℝ) (B : Option (Matrix (Fin m) (Fin (2 * n)) ℝ)) (il : Option (List String))
    {i : ℕ} (hi : i < n) (title : String) (s : Bool) (t : String) (w : Plt) (f : List Draw) :
    (panel (NpMat.of W) (B.map NpMat.of) il (stdOpts s t) i title).run (drawn w f) =
      (.ok (), drawn w (f ++ panelDraws W B il ⟨i, hi⟩ title)) := by
  unfold panel panelDraws
  rcases B with _ | B <;> rcases il with _ | il <;> dsimp only [Option.map]
  · stp rfl
    stp (run_draw _ _ _)
    stp (run_lift_ok (column_of W hi))
    stp (run_draw _ _ _)
    stp (run_draw _ _ _)
    rw [run_draw]
    simp only [List.append_assoc]
    rfl
  · stp rfl
    stp (run_draw _ _ _)
    stp (run_lift_ok (column_of W hi))
    stp (run_draw _ _ _)
    stp (run_draw _ _ _)
    stp (run_draw _ _ _)
    rw [run_draw]
    simp only [List.append_assoc]
    rfl
  · stp rfl
    stp (run_draw _ _ _)
    stp (run_lift_ok (column_of W hi))
    stp (run_draw _ _ _)
    stp (run_fillBetween B (by omega) (by omega) _ _)
    stp (run_draw _ _ _)
    rw [run_draw]
    simp only [List.append_assoc]
    rfl
  · stp rfl
    stp (run_draw _ _ _)
    stp (run_lift_ok (column_of W hi))
    stp (run_draw _ _ _)
    stp (run_fillBetween B (by omega) (by omega) _ _)
    stp (run_draw _ _ _)
    stp (run_draw _ _ _)
    rw [run_draw]
    simp only [List.append_assoc]
    rfl

theorem reports_of_run {x : PyM Plt Unit} {w : Plt} {s : Bool} {name : String} {fig : List Draw} (h : x.run w = (.ok (), after w s name fig)) :
    Spec.Reports x w s name fig := by
  unfold Spec.Reports
  rw [h]
  exact ⟨rfl, rfl, rfl⟩

/-- The figure of `eigenvectors`. -/
noncomputable def evecsFig {m : ℕ} : {n : ℕ} → (W : Matrix (Fin m) (Fin n) ℝ) → (B : Option (Matrix (Fin m) (Fin (2 * n)) ℝ)) →
    (il : Option (List String)) → (l : String) → List Draw
  | 0, _, _, _, _ => []
  | 1, W, B, il, l => panelDraws W B il 0 l ++ [.ylabel "Eigenvector 1 components"]
  | 2, W, B, il, l => [.subplot 211] ++ panelDraws W B none 0 (l ++ ", evec 1") ++ [.subplot 212] ++ panelDraws W B il 1 (l ++ ", evec 2")
  | 3, W, B, il, l => [.subplot 221] ++ panelDraws W B none 0 (l ++ ", evec 1") ++ [.subplot 222] ++ panelDraws W B il 1 (l ++ ", evec 2") ++
      [.subplot 223] ++ panelDraws W B il 2 (l ++ ", evec 3")
  | _ + 4, W, B, il, l => [.subplot 221] ++ panelDraws W B none 0 (l ++ ", evec 1") ++ [.subplot 222] ++
      panelDraws W B none 1 (l ++ ", evec 2") ++ [.subplot 223] ++ panelDraws W B il 2 (l ++ ", evec 3") ++
      [.subplot 224] ++ panelDraws W B il 3 (l ++ ", evec 4")

theorem run_raiseIf_not {P : Prop} [Decidable P] (h : ¬ P) (e : Err) (w : Plt) : (raiseIf P e).run w = (.ok (), w) := by
  unfold raiseIf
  rw [if_neg h]
  rfl

theorem run_raiseIf {P : Prop} [Decidable P] (h : P) (e : Err) (w : Plt) : (raiseIf P e).run w = (.error e, w) := by
  unfold raiseIf
  rw [if_pos h]
  rfl

theorem checkRanges_run {m n : ℕ} (W : Matrix (Fin m) (Fin n) ℝ) (B : Option (Matrix (Fin m) (Fin (2 * n)) ℝ)) (w : Plt) :
    (checkRanges (NpMat.of W) (B.map NpMat.of)).run w = (.ok (), w) := by
  rcases B with _ | B
  · rfl
  · exact run_raiseIf_not (not_not.mpr rfl) _ _

theorem panels_run {m n : ℕ} (hn : 0 < n) (W : Matrix (Fin m) (Fin n) ℝ) (B : Option (Matrix (Fin m) (Fin (2 * n)) ℝ))
    (il : Option (List String)) (label : String) (s : Bool) (t : String) (w : Plt) :
    (panels (NpMat.of W) (B.map NpMat.of) il label (stdOpts s t)).run (drawn w []) = (.ok (), drawn w (evecsFig W B il label)) := by
  unfold panels
  match n, hn with
  | 1, _ =>
    unfold evecsFig
    rw [if_pos (show (NpMat.of W).cols = 1 from rfl)]
    stp (panel_run W B _ (by norm_num) _ _ _ _ _)
    rw [run_draw]
    rfl
  | 2, _ =>
    unfold evecsFig
    rw [if_neg (show ¬ (NpMat.of W).cols = 1 from by norm_num), if_pos (show (NpMat.of W).cols = 2 from rfl)]
    stp (run_draw _ _ _)
    stp (panel_run W B _ (by norm_num) _ _ _ _ _)
    stp (run_draw _ _ _)
    exact panel_run W B _ (by norm_num) _ _ _ _ _
  | 3, _ =>
    unfold evecsFig
    rw [if_neg (show ¬ (NpMat.of W).cols = 1 from by norm_num), if_neg (show ¬ (NpMat.of W).cols = 2 from by norm_num),
      if_pos (show (NpMat.of W).cols = 3 from rfl)]
    stp (run_draw _ _ _)
    stp (panel_run W B _ (by norm_num) _ _ _ _ _)
    stp (run_draw _ _ _)
    stp (panel_run W B _ (by norm_num) _ _ _ _ _)
    stp (run_draw _ _ _)
    exact panel_run W B _ (by norm_num) _ _ _ _ _
  | n + 4, _ =>
    unfold evecsFig
    have h1 : ¬ (NpMat.of W).cols = 1 := show ¬ n + 4 = 1 by omega
    have h2 : ¬ (NpMat.of W).cols = 2 := show ¬ n + 4 = 2 by omega
    have h3 : ¬ (NpMat.of W).cols = 3 := show ¬ n + 4 = 3 by omega
    rw [if_neg h1, if_neg h2, if_neg h3]
    stp (run_draw _ _ _)
    stp (panel_run W B _ (by omega) _ _ _ _ _)
    stp (run_draw _ _ _)
    stp (panel_run W B _ (by omega) _ _ _ _ _)
    stp (run_draw _ _ _)
    stp (panel_run W B _ (by omega) _ _ _ _ _)
    stp (run_draw _ _ _)
    exact panel_run W B _ (by omega) _ _ _ _ _

theorem eigenvectors_run {m n : ℕ} (hn : 0 < n) (W : Matrix (Fin m) (Fin n) ℝ) (B : Option (Matrix (Fin m) (Fin (2 * n)) ℝ))
    (il : Option (List String)) (label : Option String) (s : Bool) (t : String) (w : Plt) :
    (plot_opts s t >>= fun o => eigenvectors (NpMat.of W) (B.map NpMat.of) il label (some o)).run w =
      (.ok (), after w s ("figs/" ++ "evecs_" ++ label.getD "Output" ++ t) (evecsFig W B il (label.getD "Output"))) := by
  rw [PyM.run_bind_ok (plot_opts_run s t w), ← run_save_show]
  unfold eigenvectors
  dsimp only
  stp rfl
  stp (checkRanges_run W B _)
  stp (run_figure _)
  stp (panels_run hn W B il _ s t _)
  rfl

/-- The univariate figure of `sufficient_summary`. -/
noncomputable def sspFig1 {M : ℕ} (y1 f : Fin M → ℝ) (label : String) : List Draw :=
  [.font myfont, .line false (pairs y1 f), .xlabel "Active variable", .ylabel label]

theorem run_show (w : Plt) : show_plot.run w =
    (.ok (), { w with figures := if w.interactive then [] else w.figures, shown := w.figures ++ w.shown }) := rfl

theorem sufficient_summary_run1 {M : ℕ} (y f : Matrix (Fin M) (Fin 1) ℝ) (label : Option String) (s : Bool) (t : String) (w : Plt) :
    (plot_opts s t >>= fun o => sufficient_summary (NpMat.of y) (NpMat.of f) label (some o)).run w =
      (.ok (), after w s ("figs/" ++ "ssp1_" ++ label.getD "Output" ++ t)
        (sspFig1 (fun i => y i 0) (fun i => f i 0) (label.getD "Output"))) := by
  rw [PyM.run_bind_ok (plot_opts_run s t w)]
  unfold sufficient_summary
  dsimp only
  stp rfl
  stp (run_raiseIf_not (by simp) _ _)
  stp (run_figure _)
  stp rfl
  stp (run_draw _ _ _)
  stp (run_raiseIf_not (by simp) _ _)
  stp (run_lift_ok (column_of y (by norm_num)))
  iterate 3 stp (run_draw _ _ _)
  stp (run_save s t _ _ _ (fun h => by simp [h]) _)
  rw [if_neg (show ¬ (NpMat.of y).cols = 2 from by norm_num)]
  stp (PyM.run_pure _ _)
  rw [run_show]
  have hf : (fun i : Fin M => (NpMat.of f).get i 0) = fun i => f i 0 := by
    funext i
    exact NpMat.get_of f i 0
  have h2 : pairs (fun i : Fin M => y i 0) (fun i : Fin M => (NpMat.of f).get i 0) = pairs (fun i => y i 0) (fun i => f i 0) := by
    rw [hf]
  unfold sspFig1
  rw [← h2]
  rfl

/-- The bivariate figure of `sufficient_summary`. -/
noncomputable def sspFig2 {M : ℕ} (y1 y2 f : Fin M → ℝ) (vmin vmax a1 a2 b1 b2 : ℝ) (label : String) : List Draw :=
  [.font myfont, .points (pairs y1 y2) (List.ofFn f) vmin vmax, .xlabel "Active variable 1", .ylabel "Active variable 2",
    .window (1.1 * min a1 a2) (1.1 * max b1 b2) (1.1 * min a1 a2) (1.1 * max b1 b2), .title label]

/-- The world after two figures. -/
def after2 (w : Plt) (s : Bool) (n1 n2 : String) (f1 f2 : List Draw) : Plt :=
  { figsDir := s || w.figsDir, interactive := w.interactive, figures := if w.interactive then [] else f2 :: f1 :: w.figures,
    files := (if s then [(n2, f2)] else []) ++ ((if s then [(n1, f1)] else []) ++ w.files), shown := f2 :: f1 :: (w.figures ++ w.shown) }

theorem summary2_run {M : ℕ} (y : Matrix (Fin M) (Fin 2) ℝ) (f : Fin M → ℝ) {vmin vmax a1 a2 b1 b2 : ℝ} (h1 : Np.amin f = .ok vmin)
    (h2 : Np.amax f = .ok vmax) (h3 : Np.amin (fun i => y i 0) = .ok a1) (h4 : Np.amin (fun i => y i 1) = .ok a2)
    (h5 : Np.amax (fun i => y i 0) = .ok b1) (h6 : Np.amax (fun i => y i 1) = .ok b2) (label : String) (s : Bool) (t : String) (w : Plt)
    (hw : s = true → w.figsDir = true) :
    (summary2 (NpMat.of y) (fun i => y i 0) f label (stdOpts s t)).run w =
      (.ok (), drawn { w with files := (if s then [("figs/" ++ "ssp2_" ++ label ++ t,
          sspFig2 (fun i => y i 0) (fun i => y i 1) f vmin vmax a1 a2 b1 b2 label)] else []) ++ w.files }
        (sspFig2 (fun i => y i 0) (fun i => y i 1) f vmin vmax a1 a2 b1 b2 label)) := by
  unfold summary2
  stp (run_lift_ok (column_of y (by norm_num)))
  stp (run_figure _)
  stp rfl
  stp (run_draw _ _ _)
  stp (run_lift_ok h1)
  stp (run_lift_ok h2)
  iterate 3 stp (run_draw _ _ _)
  stp (run_lift_ok h3)
  stp (run_lift_ok h4)
  stp (run_lift_ok h5)
  stp (run_lift_ok h6)
  iterate 2 stp (run_draw _ _ _)
  exact run_save s t _ _ w hw _

theorem sufficient_summary_run2 {M : ℕ} (y : Matrix (Fin M) (Fin 2) ℝ) (f : Matrix (Fin M) (Fin 1) ℝ) {vmin vmax a1 a2 b1 b2 : ℝ}
    (h1 : Np.amin (fun i => f i 0) = .ok vmin)
    (h2 : Np.amax (fun i => f i 0) = .ok vmax) (h3 : Np.amin (fun i => y i 0) = .ok a1) (h4 : Np.amin (fun i => y i 1) = .ok a2)
    (h5 : Np.amax (fun i => y i 0) = .ok b1) (h6 : Np.amax (fun i => y i 1) = .ok b2) (label : Option String) (s : Bool) (t : String)
    (w : Plt) :
    (plot_opts s t >>= fun o => sufficient_summary (NpMat.of y) (NpMat.of f) label (some o)).run w =
      (.ok (), after2 w s ("figs/" ++ "ssp1_" ++ label.getD "Output" ++ t) ("figs/" ++ "ssp2_" ++ label.getD "Output" ++ t)
        (sspFig1 (fun i => y i 0) (fun i => f i 0) (label.getD "Output"))
        (sspFig2 (fun i => y i 0) (fun i => y i 1) (fun i => f i 0) vmin vmax a1 a2 b1 b2 (label.getD "Output"))) := by
  rw [PyM.run_bind_ok (plot_opts_run s t w)]
  unfold sufficient_summary
  dsimp only
  stp rfl
  stp (run_raiseIf_not (by simp) _ _)
  stp (run_figure _)
  stp rfl
  stp (run_draw _ _ _)
  stp (run_raiseIf_not (by simp) _ _)
  stp (run_lift_ok (column_of y (by norm_num)))
  iterate 3 stp (run_draw _ _ _)
  stp (run_save s t _ _ _ (fun h => by simp [h]) _)
  rw [if_pos (show (NpMat.of y).cols = 2 from rfl)]
  have hf : (fun i : Fin M => (NpMat.of f).get i 0) = fun i => f i 0 := by
    funext i
    exact NpMat.get_of f i 0
  rw [← hf] at h1 h2 ⊢
  stp (summary2_run y _ h1 h2 h3 h4 h5 h6 _ s t _ (fun h => by simp [drawn, h]))
  rfl

/-- The figure of `zonotope_2d_plot`. -/
noncomputable def zonoFig {M : ℕ} (v : Matrix (Fin M) (Fin 2) ℝ) (d : Option NpMat) (pts : List Draw) (xmin xmax : ℝ) : List Draw :=
  [.hull (rowPairs (NpMat.of v))] ++ (match d with | some d => [.mesh (rowPairs d ++ rowPairs (NpMat.of v))] | none => []) ++ pts ++
  [.window (1.1 * xmin) (1.1 * xmax) (1.1 * xmin) (1.1 * xmax), .xlabel "Active variable 1", .ylabel "Active variable 2"]

/-- The world after `zonotope_2d_plot`. -/
def afterZonotope (w : Plt) (s : Bool) (name : String) (fig : List Draw) : Plt :=
  { figsDir := s || w.figsDir, interactive := w.interactive,
    figures := if w.interactive then (if s then [[]] else []) else fig :: w.figures,
    files := (if s then [(name, if w.interactive then [] else fig)] else []) ++ w.files, shown := fig :: (w.figures ++ w.shown) }

theorem run_show_save (s : Bool) (t stem label : String) (w : Plt) (f : List Draw) :
    (show_plot >>= fun _ => saveAs (stdOpts s t) stem label).run (drawn { w with figsDir := s || w.figsDir } f) =
      (.ok (), afterZonotope w s ("figs/" ++ stem ++ label ++ t) f) := by
  obtain ⟨d, i, fs, l, sh⟩ := w
  cases s <;> cases d <;> cases i <;> rfl

theorem run_option_draw {γ : Type} (c : Option γ) (g : γ → Draw) (w : Plt) (f : List Draw) :
    (c.forM fun j => draw (g j)).run (drawn w f) = (.ok (), drawn w (f ++ match c with | some c => [g c] | none => [])) := by
  rcases c with _ | c
  · dsimp only
    rw [List.append_nil]
    rfl
  · rfl

theorem checkZonotope_ok {v : NpMat} {d y f : Option NpMat} (hv : v.cols = 2) (hd : ∀ d' ∈ d, d'.cols = 2) (hy : ∀ y' ∈ y, y'.cols = 2)
    (hyf : y.isSome = f.isSome) (hlen : ∀ y' ∈ y, ∀ f' ∈ f, y'.rows = f'.rows) (w : Plt) :
    (checkZonotope v d y f).run w = (.ok (), w) := by
  unfold checkZonotope
  stp (run_raiseIf_not (not_not.mpr hv) _ _)
  stp (run_raiseIf_not (by rintro ⟨a, h1, h2⟩; exact h2 (hd a h1)) _ _)
  stp (run_raiseIf_not (by rintro ⟨a, h1, h2⟩; exact h2 (hy a h1)) _ _)
  stp (run_raiseIf_not (by cases y <;> cases f <;> simp at hyf ⊢) _ _)
  exact run_raiseIf_not (by rintro ⟨a, h1, b, h2, h3⟩; exact h3 (hlen a h1 b h2)) _ _

theorem checkZonotope_error {v : NpMat} {d y f : Option NpMat}
    (h : ¬ (v.cols = 2 ∧ (∀ d' ∈ d, d'.cols = 2) ∧ (∀ y' ∈ y, y'.cols = 2) ∧ y.isSome = f.isSome ∧
      ∀ y' ∈ y, ∀ f' ∈ f, y'.rows = f'.rows)) (w : Plt) :
    (checkZonotope v d y f).run w = (.error .exception, w) := by
  unfold checkZonotope
  by_cases hv : v.cols = 2
  swap
  · exact PyM.run_bind_error (run_raiseIf hv _ _)
  stp (run_raiseIf_not (not_not.mpr hv) _ _)
  by_cases hd : ∀ d' ∈ d, d'.cols = 2
  swap
  · exact PyM.run_bind_error (run_raiseIf (by push Not at hd; exact hd) _ _)
  stp (run_raiseIf_not (by rintro ⟨a, h1, h2⟩; exact h2 (hd a h1)) _ _)
  by_cases hy : ∀ d' ∈ y, d'.cols = 2
  swap
  · exact PyM.run_bind_error (run_raiseIf (by push Not at hy; exact hy) _ _)
  stp (run_raiseIf_not (by rintro ⟨a, h1, h2⟩; exact h2 (hy a h1)) _ _)
  by_cases hyf : y.isSome = f.isSome
  swap
  · exact PyM.run_bind_error (run_raiseIf (by cases y <;> cases f <;> simp at hyf ⊢) _ _)
  stp (run_raiseIf_not (by cases y <;> cases f <;> simp at hyf ⊢) _ _)
  refine run_raiseIf ?_ _ _
  by_contra hc
  push Not at hc
  exact h ⟨hv, hd, hy, hyf, hc⟩

theorem zonotope_2d_plot_run {M : ℕ} (hull delaunay : List (ℝ × ℝ) → Except Err Unit) (v : Matrix (Fin M) (Fin 2) ℝ)
    {d y f : Option NpMat} (hc : ∀ w, (checkZonotope (NpMat.of v) d y f).run w = (.ok (), w)) {xmin xmax : ℝ}
    (hmin : Np.amin (Np.ravel v) = .ok xmin) (hmax : Np.amax (Np.ravel v) = .ok xmax) (hh : hull (rowPairs (NpMat.of v)) = .ok ())
    (hd : ∀ d' ∈ d, delaunay (rowPairs d' ++ rowPairs (NpMat.of v)) = .ok ()) (label : Option String) {P : List Draw}
    (hp : ∀ w F, (zonotopePoints (label.getD "Output") y f).run (drawn w F) = (.ok (), drawn w (F ++ P)))
    (s : Bool) (t : String) (w : Plt) :
    (plot_opts s t >>= fun o => zonotope_2d_plot hull delaunay (NpMat.of v) d y f label (some o)).run w =
      (.ok (), afterZonotope w s ("figs/" ++ "zonotope_2d_" ++ label.getD "Output" ++ t) (zonoFig v d P xmin xmax)) := by
  rw [PyM.run_bind_ok (plot_opts_run s t w), ← run_show_save]
  unfold zonotope_2d_plot
  dsimp only
  stp rfl
  stp (hc _)
  stp (run_lift_ok hmin)
  stp (run_lift_ok hmax)
  stp (run_lift_ok hh)
  have h1 : ∀ w : Plt, (d.forM fun d' => (PyM.lift (delaunay (rowPairs d' ++ rowPairs (NpMat.of v))) : PyM Plt Unit)).run w =
      (.ok (), w) := by
    intro w
    rcases d with _ | d
    · rfl
    · exact run_lift_ok (hd d rfl)
  stp (h1 _)
  stp (run_figure _)
  stp (run_draw _ _ _)
  stp (run_option_draw _ _ _ _)
  stp (hp _ _)
  iterate 3 stp (run_draw _ _ _)
  unfold zonoFig
  simp only [List.append_assoc, List.nil_append, List.cons_append]
  rcases d with _ | d <;> rfl

theorem zonotopePoints_none (label : String) (w : Plt) (F : List Draw) :
    (zonotopePoints label none none).run (drawn w F) = (.ok (), drawn w (F ++ [])) := by
  rw [List.append_nil]
  rfl

theorem zonotopePoints_some (label : String) (y f : NpMat) {vmin vmax : ℝ}
    (h1 : Np.amin (fun i : Fin f.rows => f.get i 0) = .ok vmin) (h2 : Np.amax (fun i : Fin f.rows => f.get i 0) = .ok vmax)
    (w : Plt) (F : List Draw) :
    (zonotopePoints label (some y) (some f)).run (drawn w F) = (.ok (), drawn w (F ++
      [.points (rowPairs y) (List.ofFn fun i : Fin f.rows => f.get i 0) vmin vmax, .title label])) := by
  unfold zonotopePoints
  stp (run_lift_ok h1)
  stp (run_lift_ok h2)
  stp (run_draw _ _ _)
  rw [run_draw, List.append_assoc]
  rfl

end Model.Plotters
