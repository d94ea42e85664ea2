import Verif.Props.Plot
import Verif.Props.HarmonicIndex

/-!
C60, C63: colour scales and upsampling.
-/
namespace Sleplet.Props

open Sleplet.Plot

/-! ### helpers -/

theorem broadcast_mem {α β γ : Type} {op : α → β → γ} {a : List α} {b : List β} {c : List γ}
    (h : NumPy.broadcast op a b = .ok c) : ∀ z ∈ c, ∃ x ∈ a, ∃ y ∈ b, op x y = z := by
  unfold NumPy.broadcast at h
  split at h
  · injection h with h; subst h
    intro z hz
    obtain ⟨i, hi, rfl⟩ := List.getElem_of_mem hz
    have hi' := hi
    simp only [List.length_zipWith] at hi'
    exact ⟨a[i], List.getElem_mem (by omega), b[i], List.getElem_mem (by omega), by simp⟩
  · split at h
    · injection h with h; subst h
      intro z hz
      obtain ⟨y, hy, rfl⟩ := List.mem_map.1 hz
      exact ⟨_, by simp, y, hy, rfl⟩
    · injection h with h; subst h
      intro z hz
      obtain ⟨x, hx, rfl⟩ := List.mem_map.1 hz
      exact ⟨x, hx, _, by simp, rfl⟩
    · cases h

theorem mapM_mem {α β : Type} {f : α → Except Err β} {l : List α} {r : List β} (h : l.mapM f = .ok r) :
    ∀ y ∈ r, ∃ x ∈ l, f x = .ok y := by
  induction l generalizing r with
  | nil => simp [pure, Except.pure] at h; subst h; simp
  | cons a l ih =>
    rw [List.mapM_cons] at h
    cases ha : f a with
    | error e => rw [ha] at h; cases h
    | ok b =>
      cases hl : l.mapM f with
      | error e => rw [ha, hl] at h; cases h
      | ok bs =>
        rw [ha, hl] at h
        simp only [bind, Except.bind, pure, Except.pure, Except.ok.injEq] at h
        subst h
        intro y hy
        rcases List.mem_cons.1 hy with rfl | hy
        · exact ⟨a, by simp, ha⟩
        · obtain ⟨x, hx, e⟩ := ih hl y hy
          exact ⟨x, by simp [hx], e⟩

theorem closeRow_mem {α : Type} {n : ℕ} {r g : List α} (h : closeRow n r = .ok g) : ∀ x ∈ g, x ∈ r := by
  cases r with
  | nil => cases h
  | cons y ys =>
    simp only [closeRow] at h
    split at h
    · injection h with h; subst h
      intro x hx
      simp only [List.mem_append, List.mem_cons] at hx
      rcases hx with hx | rfl | hx
      · exact List.mem_of_mem_take hx
      · simp
      · exact List.mem_of_mem_drop hx
    · cases h

theorem closeRows_mem {α : Type} {n : ℕ} {f g : List (List α)} (h : closeRows n f = .ok g) :
    ∀ r ∈ g, ∀ x ∈ r, x ∈ f.flatten := by
  intro r hr x hx
  obtain ⟨r', hr', e⟩ := mapM_mem h r hr
  exact List.mem_flatten.2 ⟨r', hr', closeRow_mem e x hx⟩

theorem setOutsideRegion_mem {f g : List (List ℝ)} {L : ℕ} {mask : List (List Bool)}
    (h : setOutsideRegion f L mask = .ok g) : ∀ r ∈ g, ∀ x ∈ r, x = sphereUnseen ∨ x ∈ f.flatten := by
  unfold setOutsideRegion at h
  cases hc : closeRows (2 * L) mask with
  | error e => rw [hc] at h; cases h
  | ok closed =>
    rw [hc] at h
    simp only [bind, Except.bind] at h
    cases hb : NumPy.broadcast (fun m r => whereRow sphereUnseen m r) closed f with
    | error e => rw [hb] at h; cases h
    | ok rs =>
      rw [hb] at h
      intro r hr x hx
      obtain ⟨e, he, e1⟩ := mapM_mem h r hr
      obtain ⟨m, -, r', hr', e2⟩ := broadcast_mem hb e he
      rw [show e = .ok r from e1] at e2
      obtain ⟨b, -, y, hy, e3⟩ := broadcast_mem e2 x hx
      cases b
      · left; exact e3.symm
      · right
        simp only [if_true] at e3
        exact List.mem_flatten.2 ⟨r', hr', e3 ▸ hy⟩

theorem setupPlot_mem {f : List (List ℝ)} {R : ℕ} {S : Setup} (h : setupPlot f R = .ok S) :
    ∀ x ∈ S.fPlot.flatten, S.vmin ≤ x ∧ x ≤ S.vmax := by
  unfold setupPlot at h
  split at h
  · cases h
  · cases hM : amax f.flatten with
    | error e => rw [hM] at h; cases h
    | ok mx =>
      cases hm : amin f.flatten with
      | error e => rw [hM, hm] at h; cases h
      | ok mn =>
        cases hc : closeRows (2 * R) f with
        | error e => rw [hM, hm, hc] at h; cases h
        | ok c =>
          rw [hM, hm, hc] at h
          simp only [bind, Except.bind, pure, Except.pure, Except.ok.injEq] at h
          subst h
          intro x hx
          obtain ⟨r, hr, hx⟩ := List.mem_flatten.1 hx
          have := closeRows_mem hc r hr x hx
          exact ⟨(amin_spec hm).2 x this, (amax_spec hM).2 x this⟩

theorem setupPlot_bounds {f : List (List ℝ)} {R : ℕ} {S : Setup} (h : setupPlot f R = .ok S) :
    S.vmin ∈ f.flatten ∧ S.vmax ∈ f.flatten := by
  unfold setupPlot at h
  split at h
  · cases h
  · cases hM : amax f.flatten with
    | error e => rw [hM] at h; cases h
    | ok mx =>
      cases hm : amin f.flatten with
      | error e => rw [hM, hm] at h; cases h
      | ok mn =>
        cases hc : closeRows (2 * R) f with
        | error e => rw [hM, hm, hc] at h; cases h
        | ok c =>
          rw [hM, hm, hc] at h
          simp only [bind, Except.bind, pure, Except.pure, Except.ok.injEq] at h
          subst h
          exact ⟨(amin_spec hm).1, (amax_spec hM).1⟩

theorem unflatten_mem {α : Type} {ns : List ℕ} {xs : List α} {x : α} (h : x ∈ (unflatten ns xs).flatten) : x ∈ xs := by
  induction ns generalizing xs with
  | nil => simp [unflatten] at h
  | cons n ns ih =>
    simp only [unflatten, List.flatten_cons, List.mem_append] at h
    rcases h with h | h
    · exact List.mem_of_mem_take h
    · exact List.mem_of_mem_drop (ih h)

/-- the steps of `execute`. -/
theorem executeSphere_ok {forward : ℕ → List (List ℂ) → List ℂ} {inverse : ℕ → List ℂ → List (List ℂ)}
    {s : SphereSettings} {f : List (List ℂ)} {fig : Figure} (h : executeSphere forward inverse s f = .ok (some fig)) :
    ∃ g S, prepareField forward inverse s f = .ok (some g) ∧ setupPlot g s.resolution = .ok S ∧
      (s.mask = none → fig.colours = S.fPlot) ∧
      (∀ mask, s.mask = some mask → setOutsideRegion S.fPlot s.resolution (mask s.resolution) = .ok fig.colours) ∧
      fig.cmin = (if s.normalise then 0 else -createTickMark S.vmin S.vmax s.amplitude) ∧
      fig.cmax = (if s.normalise then 1 else createTickMark S.vmin S.vmax s.amplitude) := by
  unfold executeSphere at h
  cases hp : prepareField forward inverse s f with
  | error e => rw [hp] at h; cases h
  | ok o =>
    cases o with
    | none =>
      rw [hp] at h
      simp only [bind, Except.bind, pure, Except.pure, Except.ok.injEq] at h
      cases h
    | some g =>
      rw [hp] at h
      simp only [bind, Except.bind] at h
      cases hS : setupPlot g s.resolution with
      | error e => rw [hS] at h; cases h
      | ok S =>
        rw [hS] at h
        simp only at h
        refine ⟨g, S, rfl, hS, ?_⟩
        cases hm : s.mask with
        | none =>
          rw [hm] at h
          simp only [pure, Except.pure, Except.ok.injEq, Option.some.injEq] at h
          subst h
          simp
        | some mask =>
          rw [hm] at h
          simp only at h
          cases ho : setOutsideRegion S.fPlot s.resolution (mask s.resolution) with
          | error e => rw [ho] at h; cases h
          | ok c =>
            rw [ho] at h
            simp only [pure, Except.pure, Except.ok.injEq, Option.some.injEq] at h
            subst h
            simp [ho]

/-! ### C60 -/

/-- C60. In every plot on the sphere without normalisation and without a given amplitude, the colour range is symmetric
and contains every plotted value, apart from the 'unseen' value used outside a given region.  With normalisation the
range is [0,1], with a given amplitude `a` it is [-a,a]. -/
theorem C60_sphere_range (forward : ℕ → List (List ℂ) → List ℂ) (inverse : ℕ → List ℂ → List (List ℂ))
    (s : SphereSettings) (f : List (List ℂ)) (fig : Figure) (h : executeSphere forward inverse s f = .ok (some fig)) :
    (s.normalise = false → fig.cmin = -fig.cmax) ∧
    (s.normalise = true → fig.cmin = 0 ∧ fig.cmax = 1) ∧
    (∀ a, s.normalise = false → s.amplitude = some a → fig.cmax = a) ∧
    (s.normalise = false → s.amplitude = none → ∀ r ∈ fig.colours, ∀ x ∈ r,
      (fig.cmin ≤ x ∧ x ≤ fig.cmax) ∨ (s.mask.isSome ∧ x = sphereUnseen)) := by
  obtain ⟨g, S, -, hS, h1, h2, h3, h4⟩ := executeSphere_ok h
  refine ⟨?_, ?_, ?_, ?_⟩
  · intro hn; rw [h3, h4, hn]; rfl
  · intro hn; rw [h3, h4, hn]; exact ⟨rfl, rfl⟩
  · intro a hn ha; rw [h4, hn, ha]; rfl
  · intro hn ha r hr x hx
    have hin : ∀ x ∈ S.fPlot.flatten, fig.cmin ≤ x ∧ x ≤ fig.cmax := by
      intro x hx
      obtain ⟨k1, k2⟩ := setupPlot_mem hS x hx
      rw [h3, h4, hn, ha]
      simp only [Bool.false_eq_true, if_false, createTickMark]
      have a1 := le_max_left |S.vmin| |S.vmax|
      have a2 := le_max_right |S.vmin| |S.vmax|
      have a3 := neg_abs_le S.vmin
      have a4 := le_abs_self S.vmax
      constructor <;> linarith
    cases hm : s.mask with
    | none =>
      rw [h1 hm] at hr
      exact Or.inl (hin x (List.mem_flatten.2 ⟨r, hr, hx⟩))
    | some mask =>
      rcases setOutsideRegion_mem (h2 mask hm) r hr x hx with e | e
      · exact Or.inr ⟨rfl, e⟩
      · exact Or.inl (hin x e)

/-- prepared values. -/
theorem prepareField_ok (forward : ℕ → List (List ℂ) → List ℂ) (inverse : ℕ → List ℂ → List (List ℂ))
    (s : SphereSettings) (f boosted : List (List ℂ)) (g : ℂ → ℝ)
    (hb : boostField forward inverse f s.L s.resolution s.upsample = .ok boosted) (hg : plotTypeFun s.plotType = .ok g)
    (hn : s.normalise = false) :
    prepareField forward inverse s f = .ok (some (boosted.map fun r => r.map g)) := by
  simp only [prepareField, hb, hg, hn, bind, Except.bind, (C42_normalise _).1, pure, Except.pure, mapM_id_map_some,
    Option.map_some]
  rw [← List.map_id (List.map (fun r => List.map g r) boosted).flatten, unflatten_map]
  simp

/-- C60. For fields of the right shape, any of the four plot types and without normalisation the plot succeeds, and each
colour is the chosen part of the (upsampled) field, with closed meridian, or 'unseen' outside a given region. -/
theorem C60_sphere_colours {b : ℕ} (forward : ℕ → List (List ℂ) → List ℂ) (inverse : ℕ → List ℂ → List (List ℂ))
    (s : SphereSettings) (f : List (List ℂ)) (hb : 2 * s.resolution = b + 1)
    (B : Fin (s.resolution + 1) → Fin (b + 1) → ℂ) (M : Fin (s.resolution + 1) → Fin (b + 1) → Bool)
    (hB : boostField forward inverse f s.L s.resolution s.upsample = .ok (rows B)) (hn : s.normalise = false)
    (hM : ∀ mask, s.mask = some mask → mask s.resolution = rows M) (g : ℂ → ℝ)
    (hg : (s.plotType = "abs" ∧ g = fun z => ‖z‖) ∨ (s.plotType = "imag" ∧ g = Complex.im) ∨
      (s.plotType = "real" ∧ g = Complex.re) ∨ (s.plotType = "sum" ∧ g = fun z => z.re + z.im)) :
    ∃ fig, executeSphere forward inverse s f = .ok (some fig) ∧
      fig.colours = closedRows fun t p => if s.mask.isNone || M t p then g (B t p) else sphereUnseen := by
  have hgt : plotTypeFun s.plotType = .ok g := by
    rcases hg with ⟨h, rfl⟩ | ⟨h, rfl⟩ | ⟨h, rfl⟩ | ⟨h, rfl⟩ <;> rw [h] <;> rfl
  have hp := prepareField_ok forward inverse s f (rows B) g hB hgt hn
  have e : (rows B).map (fun r => r.map g) = rows fun t p => g (B t p) := by
    simp only [rows, List.map_ofFn, Function.comp_def]
  rw [e] at hp
  obtain ⟨S, hS, hS1, -⟩ := C43_closing s.resolution hb fun t p => g (B t p)
  cases hm : s.mask with
  | none =>
    refine ⟨⟨S.fPlot, if s.normalise then 0 else -createTickMark S.vmin S.vmax s.amplitude,
      if s.normalise then 1 else createTickMark S.vmin S.vmax s.amplitude⟩, ?_, ?_⟩
    · simp only [executeSphere, hp, bind, Except.bind, hS, hm, pure, Except.pure]
    · simp [hS1]
  | some mask =>
    have hw := C43_masking s.resolution hb (fun t p => g (B t p)) M
    refine ⟨⟨closedRows fun t p => if M t p then g (B t p) else sphereUnseen,
      if s.normalise then 0 else -createTickMark S.vmin S.vmax s.amplitude,
      if s.normalise then 1 else createTickMark S.vmin S.vmax s.amplitude⟩, ?_, ?_⟩
    · simp only [executeSphere, hp, bind, Except.bind, hS, hm, hM mask hm, hS1, hw, pure, Except.pure]
    · simp

/-- one ring of samples at each pole, the region is the north pole. -/
def twoRings : SphereSettings :=
  { L := 1, normalise := false, upsample := false, mask := some fun _ => [[true, true], [false, false]] }

example : ∃ fig, executeSphere (fun _ _ => []) (fun _ _ => []) twoRings [[3, 4], [5, 6]] = .ok (some fig) ∧
    fig.colours = [[3, 4, 3], [sphereUnseen, sphereUnseen, sphereUnseen]] := by
  obtain ⟨fig, h1, h2⟩ := C60_sphere_colours (b := 1) (fun _ _ => []) (fun _ _ => [])
    twoRings
    [[3, 4], [5, 6]] rfl (fun t p => 3 + 2 * (t : ℕ) + (p : ℕ)) (fun t _ => decide ((t : ℕ) = 0))
    (by simp [twoRings, boostField, rows, SphereSettings.resolution, List.ofFn_succ]; norm_num) rfl
    (by intro mask h; simp [twoRings] at h; subst h; rfl) Complex.re (Or.inr (Or.inr (Or.inl ⟨rfl, rfl⟩)))
  refine ⟨fig, h1, ?_⟩
  rw [h2]
  simp [twoRings, closedRows, SphereSettings.resolution, List.ofFn_succ]
  norm_num

/-- C60. A plot type other than the four is a `KeyError`. -/
theorem C60_unknown_plot_type (forward : ℕ → List (List ℂ) → List ℂ) (inverse : ℕ → List ℂ → List (List ℂ))
    (s : SphereSettings) (f boosted : List (List ℂ))
    (hb : boostField forward inverse f s.L s.resolution s.upsample = .ok boosted)
    (h : s.plotType ∉ ["abs", "imag", "real", "sum"]) : executeSphere forward inverse s f = .error .keyError := by
  simp only [List.mem_cons, List.not_mem_nil, or_false, not_or] at h
  obtain ⟨h1, h2, h3, h4⟩ := h
  have : plotTypeFun s.plotType = .error .keyError := by
    unfold plotTypeFun
    rw [if_neg h1, if_neg h2, if_neg h3, if_neg h4]
  simp only [executeSphere, prepareField, hb, this, bind, Except.bind]

/-- C60. With normalisation and plot type "abs" every colour is in [0,1] or the 'unseen' value outside a given region. -/
theorem C60_normalised_abs (forward : ℕ → List (List ℂ) → List ℂ) (inverse : ℕ → List ℂ → List (List ℂ))
    (s : SphereSettings) (f : List (List ℂ)) (hn : s.normalise = true) (ht : s.plotType = "abs") :
    executeSphere forward inverse s f ≠ .ok none ∧
    ∀ fig, executeSphere forward inverse s f = .ok (some fig) → ∀ r ∈ fig.colours, ∀ x ∈ r,
      (fig.cmin ≤ x ∧ x ≤ fig.cmax) ∨ (s.mask.isSome ∧ x = sphereUnseen) := by
  have hg : plotTypeFun s.plotType = .ok fun z => ‖z‖ := by rw [ht]; rfl
  have key : ∀ o, prepareField forward inverse s f = .ok o →
      ∃ g, o = some g ∧ ∀ x ∈ g.flatten, 0 ≤ x ∧ x ≤ 1 := by
    intro o ho
    unfold prepareField at ho
    cases hb : boostField forward inverse f s.L s.resolution s.upsample with
    | error e => rw [hb] at ho; cases ho
    | ok boosted =>
      rw [hb, hg, hn] at ho
      simp only [bind, Except.bind] at ho
      obtain ⟨v, hv, hl, h01⟩ := (C42_constant_and_nonnegative
        (boosted.map fun r => r.map fun z => ‖z‖).flatten).2 (by
          intro x hx
          obtain ⟨r, hr, hx⟩ := List.mem_flatten.1 hx
          obtain ⟨r', -, rfl⟩ := List.mem_map.1 hr
          obtain ⟨z, -, rfl⟩ := List.mem_map.1 hx
          exact norm_nonneg z)
      rw [hv] at ho
      simp only [pure, Except.pure, mapM_id_map_some, Option.map_some, Except.ok.injEq] at ho
      refine ⟨_, ho.symm, ?_⟩
      intro x hx
      apply h01
      exact unflatten_mem hx
  constructor
  · intro h
    unfold executeSphere at h
    cases hp : prepareField forward inverse s f with
    | error e => rw [hp] at h; cases h
    | ok o =>
      obtain ⟨g, rfl, -⟩ := key o hp
      rw [hp] at h
      simp only [bind, Except.bind] at h
      cases hS : setupPlot g s.resolution with
      | error e => rw [hS] at h; cases h
      | ok S =>
        rw [hS] at h
        simp only at h
        split at h
        · cases h
        · simp only [pure, Except.pure, Except.ok.injEq] at h
          cases h
  · intro fig h r hr x hx
    obtain ⟨g, S, hp, hS, h1, h2, h3, h4⟩ := executeSphere_ok h
    obtain ⟨g', hg', h01⟩ := key _ hp
    injection hg' with hg'; subst hg'
    have hin : ∀ x ∈ S.fPlot.flatten, fig.cmin ≤ x ∧ x ≤ fig.cmax := by
      intro x hx
      obtain ⟨b1, b2⟩ := setupPlot_bounds hS
      obtain ⟨k1, k2⟩ := setupPlot_mem hS x hx
      rw [h3, h4, hn]
      simp only [if_true]
      exact ⟨(h01 _ b1).1.trans k1, k2.trans (h01 _ b2).2⟩
    cases hm : s.mask with
    | none =>
      rw [h1 hm] at hr
      exact Or.inl (hin x (List.mem_flatten.2 ⟨r, hr, hx⟩))
    | some mask =>
      rcases setOutsideRegion_mem (h2 mask hm) r hr x hx with e | e
      · exact Or.inr ⟨rfl, e⟩
      · exact Or.inl (hin x e)

example : ∃ o, executeSphere (fun _ _ => []) (fun _ _ => []) { L := 1, plotType := "abs", upsample := false }
    [[3, 4], [5, 6]] = .ok o := by
  obtain ⟨g, hg, hl, -⟩ := (C42_constant_and_nonnegative ([3, 4, 5, 6] : List ℝ)).2 (by simp)
  match g, hl with
  | [a, b, c, d], _ =>
    simp [executeSphere, prepareField, boostField, plotTypeFun, bind, Except.bind, hg, pure, Except.pure, unflatten,
      setupPlot, SphereSettings.resolution, amax, amin, closeRows, closeRow]

/-- C60. Mesh plots: without normalisation and amplitude the range, taken from the vertex values, is symmetric and contains
the plotted value of every face, apart from the 'unseen' value outside the region. -/
theorem C60_mesh_range (s : MeshSettings) (f : List ℝ) (g : List ℝ) (cmin cmax : ℝ)
    (hfaces : ∀ t ∈ s.faces, t.1 < f.length ∧ t.2.1 < f.length ∧ t.2.2 < f.length)
    (h : executeMesh s f = .ok (some (g, cmin, cmax))) :
    (s.normalise = false → cmin = -cmax) ∧ (s.normalise = true → cmin = 0 ∧ cmax = 1) ∧
    (∀ a, s.normalise = false → s.amplitude = some a → cmax = a) ∧
    (s.normalise = false → s.amplitude = none → ∀ x ∈ g, (cmin ≤ x ∧ x ≤ cmax) ∨ (s.region = true ∧ x = meshUnseen)) := by
  unfold executeMesh at h
  cases hm : amin f with
  | error e => rw [hm] at h; cases h
  | ok mn =>
  cases hM : amax f with
  | error e => rw [hm, hM] at h; cases h
  | ok mx =>
  rw [hm, hM] at h
  simp only [bind, Except.bind] at h
  cases hv : normaliseFunction (s.faces.map (averageOntoFace fun v => f.getD v 0)) s.normalise with
  | error e => rw [hv] at h; cases h
  | ok v =>
  rw [hv] at h
  simp only at h
  cases hv' : v.mapM (id : Option ℝ → Option ℝ) with
  | none => rw [hv'] at h; simp only [pure, Except.pure, Except.ok.injEq] at h; cases h
  | some w =>
  rw [hv'] at h
  simp only at h
  have hw := mapM_id_eq_some hv'
  -- the displayed values come from `w`
  have hcase : ∃ g', (g' = w ∨ setOutsideRegionMesh s.meshRegion s.faces w = .ok g' ∧ s.region = true) ∧
      g = g' ∧ cmin = (if s.normalise then 0 else -createTickMark mn mx s.amplitude) ∧
      cmax = (if s.normalise then 1 else createTickMark mn mx s.amplitude) := by
    cases hr : s.region
    · rw [hr] at h
      simp only [Bool.false_eq_true, if_false, pure, Except.pure, Except.ok.injEq, Option.some.injEq,
        Prod.mk.injEq] at h
      exact ⟨w, Or.inl rfl, h.1.symm, h.2.1.symm, h.2.2.symm⟩
    · rw [hr] at h
      simp only [if_true] at h
      cases ho : setOutsideRegionMesh s.meshRegion s.faces w with
      | error e => rw [ho] at h; cases h
      | ok g' =>
        rw [ho] at h
        simp only [pure, Except.pure, Except.ok.injEq, Option.some.injEq, Prod.mk.injEq] at h
        exact ⟨g', Or.inr ⟨rfl, rfl⟩, h.1.symm, h.2.1.symm, h.2.2.symm⟩
  obtain ⟨g', hg', rfl, hcmin, hcmax⟩ := hcase
  refine ⟨?_, ?_, ?_, ?_⟩
  · intro hn; rw [hcmin, hcmax, hn]; rfl
  · intro hn; rw [hcmin, hcmax, hn]; exact ⟨rfl, rfl⟩
  · intro a hn ha; rw [hcmax, hn, ha]; rfl
  · intro hn ha
    have hin : ∀ x ∈ w, cmin ≤ x ∧ x ≤ cmax := by
      intro x hx
      rw [hn, (C42_normalise _).1, Except.ok.injEq, hw] at hv
      have hwl := (List.map_injective_iff.2 (Option.some_injective ℝ)) hv
      rw [← hwl] at hx
      obtain ⟨t, ht, rfl⟩ := List.mem_map.1 hx
      obtain ⟨t1, t2, t3⟩ := hfaces t ht
      have mem : ∀ i, i < f.length → f.getD i 0 ∈ f := by
        intro i hi
        rw [List.getD_eq_getElem?_getD, List.getElem?_eq_getElem hi]
        exact List.getElem_mem hi
      have a1 := (amin_spec hm).2 _ (mem _ t1)
      have a2 := (amin_spec hm).2 _ (mem _ t2)
      have a3 := (amin_spec hm).2 _ (mem _ t3)
      have b1 := (amax_spec hM).2 _ (mem _ t1)
      have b2 := (amax_spec hM).2 _ (mem _ t2)
      have b3 := (amax_spec hM).2 _ (mem _ t3)
      rw [hcmin, hcmax, hn, ha]
      simp only [Bool.false_eq_true, if_false, createTickMark, averageOntoFace]
      have c1 := le_max_left |mn| |mx|
      have c2 := le_max_right |mn| |mx|
      have c3 := neg_abs_le mn
      have c4 := le_abs_self mx
      constructor <;> linarith
    intro x hx
    rcases hg' with rfl | ⟨ho, hr⟩
    · exact Or.inl (hin x hx)
    · obtain ⟨m, -, y, hy, e⟩ := broadcast_mem ho x hx
      split at e
      · exact Or.inl (e ▸ hin y hy)
      · exact Or.inr ⟨hr, e.symm⟩

example : ∃ g cmin cmax, executeMesh ⟨[(0, 1, 2)], [true, true, true], none, false, true⟩ [1, -5, 2] =
    .ok (some (g, cmin, cmax)) ∧ cmax = 5 := by
  have h1 : amin [1, -5, 2] = .ok (-5) := amin_eq (by simp) (by simp; norm_num)
  have h2 : amax [1, -5, 2] = .ok 2 := amax_eq (by simp) (by simp; norm_num)
  refine ⟨[averageOntoFace (fun v => ([1, -5, 2] : List ℝ).getD v 0) (0, 1, 2)], -5, 5, ?_, rfl⟩
  simp only [executeMesh, h1, h2, bind, Except.bind, (C42_normalise _).1, pure, Except.pure]
  rw [mapM_id_map_some]
  have : convertRegionToFaces [true, true, true] [(0, 1, 2)] = [1] := by decide
  simp [setOutsideRegionMesh, this, NumPy.broadcast, createTickMark]
  norm_num

end Sleplet.Props
