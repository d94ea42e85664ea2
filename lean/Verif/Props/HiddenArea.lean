import Verif.Props.Figure
import Verif.Props.Units

/-!
C123: the area outside the region in figures.
-/
namespace Sleplet.Props

open Sleplet.Plot

private theorem normalise_length {f : List ℝ} {n : Bool} {v : List (Option ℝ)} (h : normaliseFunction f n = .ok v) :
    v.length = f.length := by
  unfold normaliseFunction at h
  split at h
  · cases h; simp
  split at h
  · cases h; simp
  cases hx : amax f with
  | error e => rw [hx] at h; cases h
  | ok mx =>
    rw [hx] at h
    simp only [bind, Except.bind] at h
    split at h
    · cases h; simp
    · cases hy : amin f with
      | error e => rw [hy] at h; cases h
      | ok mn =>
        rw [hy] at h
        cases h; simp

/-- C123. A figure on the sphere restricted to a region, from the figure without a region: the cells inside, those of the
closing meridian among them, keep their value, all others show the same number, the range of the colour scale is unchanged.
That number is below the colour scale exactly if the figure is normalised or the scale ends before 1.56e30; without
normalisation and amplitude the values inside are within the scale. -/
theorem C123_sphere_partial {b : ℕ} (forward : ℕ → List (List ℂ) → List ℂ) (inverse : ℕ → List ℂ → List (List ℂ))
    (s : SphereSettings) (hs : s.mask = none) (hb : 2 * s.resolution = b + 1) (f : List (List ℂ)) (bare : Figure)
    (F : Fin (s.resolution + 1) → Fin (b + 1) → ℝ) (M : Fin (s.resolution + 1) → Fin (b + 1) → Bool)
    (mask : ℕ → List (List Bool)) (hm : mask s.resolution = rows M)
    (h : executeSphere forward inverse s f = .ok (some bare)) (hF : bare.colours = closedRows F) :
    executeSphere forward inverse { s with mask := some mask } f =
      .ok (some ⟨closedRows fun t p => if M t p then F t p else sphereUnseen, bare.cmin, bare.cmax⟩) ∧
    (sphereUnseen < bare.cmin ↔ s.normalise = true ∨ bare.cmax < 156 / 100 * 10 ^ 30) ∧
    (s.normalise = false → s.amplitude = none → ∀ t p, bare.cmin ≤ F t p ∧ F t p ≤ bare.cmax) := by
  obtain ⟨r1, r2, r3⟩ : (s.normalise = false → bare.cmin = -bare.cmax) ∧ (s.normalise = true → bare.cmin = 0) ∧
      (s.normalise = false → s.amplitude = none → ∀ t p, bare.cmin ≤ F t p ∧ F t p ≤ bare.cmax) := by
    obtain ⟨h1, h2, -, h4⟩ := C60_sphere_range forward inverse s f bare h
    refine ⟨h1, fun e => (h2 e).1, fun hn ha t p => ?_⟩
    have hmem : F t p ∈ List.ofFn (F t) ++ [F t 0] := List.mem_append_left _ (List.mem_ofFn.2 ⟨p, rfl⟩)
    rcases h4 hn ha (List.ofFn (F t) ++ [F t 0]) (by rw [hF]; exact List.mem_ofFn.2 ⟨t, rfl⟩) (F t p) hmem with e | e
    · exact e
    · rw [hs] at e
      exact absurd e.1 (by simp)
  refine ⟨?_, ?_, r3⟩
  · unfold executeSphere at h ⊢
    have hp : prepareField forward inverse { s with mask := some mask } f = prepareField forward inverse s f := rfl
    rw [hp]
    cases hq : prepareField forward inverse s f with
    | error e => rw [hq] at h; cases h
    | ok o =>
      cases o with
      | none => rw [hq] at h; cases h
      | some g =>
        rw [hq] at h
        simp only [bind, Except.bind] at h ⊢
        have hres : ({ s with mask := some mask } : SphereSettings).resolution = s.resolution := rfl
        rw [hres]
        cases hS : setupPlot g s.resolution with
        | error e => rw [hS] at h; cases h
        | ok S =>
          rw [hS, hs] at h
          simp only [pure, Except.pure, Except.ok.injEq, Option.some.injEq] at h
          subst h
          dsimp only at hF ⊢
          have hk := C43_masking s.resolution hb F M
          rw [← hm, ← hF] at hk
          rw [hk]
          rfl
  · cases hn : s.normalise with
    | true =>
      rw [r2 hn]
      simp [sphereUnseen]
    | false =>
      rw [r1 hn]
      simp only [sphereUnseen, Bool.false_eq_true, false_or]
      constructor <;> intro h <;> linarith

/-- C123. The same for figures on a mesh, where a face is inside if its three vertices are, and the number is -10⁵. -/
theorem C123_mesh_partial (s : MeshSettings) (hs : s.region = false) (f bare : List ℝ) (cmin cmax : ℝ)
    (h : executeMesh s f = .ok (some (bare, cmin, cmax))) :
    ∃ g, executeMesh { s with region := true } f = .ok (some (g, cmin, cmax)) ∧ g.length = s.faces.length ∧
      (∀ (i : ℕ) (t : ℕ × ℕ × ℕ), s.faces[i]? = some t →
        ((s.meshRegion[t.1]? = some true ∧ s.meshRegion[t.2.1]? = some true ∧ s.meshRegion[t.2.2]? = some true) →
          g[i]? = bare[i]?) ∧
        (¬ (s.meshRegion[t.1]? = some true ∧ s.meshRegion[t.2.1]? = some true ∧ s.meshRegion[t.2.2]? = some true) →
          g[i]? = some (-(10 ^ 5)))) ∧
      (-(10 ^ 5) < cmin ↔ s.normalise = true ∨ cmax < 10 ^ 5) := by
  unfold executeMesh at h ⊢
  dsimp only
  cases hm : amin f with
  | error e => rw [hm] at h; cases h
  | ok mn =>
  cases hM : amax f with
  | error e => rw [hm, hM] at h; cases h
  | ok mx =>
  rw [hm, hM] at h
  simp only [bind, Except.bind] at h ⊢
  cases hv : normaliseFunction (s.faces.map (averageOntoFace fun v => f.getD v 0)) s.normalise with
  | error e => rw [hv] at h; cases h
  | ok v =>
  rw [hv] at h
  simp only at h ⊢
  cases hv' : v.mapM (id : Option ℝ → Option ℝ) with
  | none => rw [hv'] at h; simp only [pure, Except.pure, Except.ok.injEq] at h; cases h
  | some w =>
  rw [hv', hs] at h
  simp only [Bool.false_eq_true, if_false, if_true, pure, Except.pure, Except.ok.injEq, Option.some.injEq, Prod.mk.injEq] at h ⊢
  obtain ⟨rfl, rfl, rfl⟩ := h
  have hw := mapM_id_eq_some hv'
  have hlen : w.length = s.faces.length := by
    have h1 : v.length = s.faces.length := by
      have := normalise_length hv
      simpa using this
    rw [← h1, hw, List.length_map]
  obtain ⟨g, h1, h2, h3⟩ := C39_plot s.meshRegion s.faces w hlen
  refine ⟨g, ?_, h2, h3, ?_⟩
  · rw [h1]
  · cases s.normalise with
    | true => simp
    | false => simp

/-- C123, negative part. Every field on a mesh that is not zero has a unit in which its figure without normalisation
shows the faces outside the region as values of the colour scale; and there is a figure in which a face inside the region is
below those outside. -/
theorem C123_marker_violation :
    (∀ (faces : List (ℕ × ℕ × ℕ)) (region : List Bool) (f : List ℝ), (∃ x ∈ f, x ≠ 0) → ∃ c₀ : ℝ, ∀ c, c₀ ≤ c → ∃ g t,
      executeMesh ⟨faces, region, none, false, true⟩ (f.map fun x => c * x) = .ok (some (g, -t, t)) ∧
      ∀ (i : ℕ) (k : ℕ × ℕ × ℕ), faces[i]? = some k →
        ¬ (region[k.1]? = some true ∧ region[k.2.1]? = some true ∧ region[k.2.2]? = some true) →
        ∃ y, g[i]? = some y ∧ -t ≤ y ∧ y ≤ t) ∧
    executeMesh ⟨[(0, 1, 2), (1, 2, 3)], [true, true, true, false], none, false, true⟩
      [-(2 * 10 ^ 5), -(2 * 10 ^ 5), -(2 * 10 ^ 5), 0] = .ok (some ([-(2 * 10 ^ 5), -(10 ^ 5)], -(2 * 10 ^ 5), 2 * 10 ^ 5)) := by
  constructor
  · rintro faces region f ⟨x, hx, hx0⟩
    refine ⟨10 ^ 5 / |x|, fun c hc => ?_⟩
    have hpos : 0 < |x| := abs_pos.2 hx0
    have hcx : 10 ^ 5 ≤ c * |x| := by rwa [div_le_iff₀ hpos] at hc
    have hc0 : 0 < c := by
      by_contra h0
      have : c * |x| ≤ 0 := mul_nonpos_of_nonpos_of_nonneg (not_lt.1 h0) hpos.le
      norm_num at hcx
      linarith
    have hne : (f.map fun x => c * x) ≠ [] := by
      intro h0
      rw [List.map_eq_nil_iff.1 h0] at hx
      simp at hx
    obtain ⟨mx, m1, m2, m3⟩ := exists_amax hne
    obtain ⟨mn, n1, n2, n3⟩ := exists_amin hne
    have hbare : executeMesh ⟨faces, region, none, false, false⟩ (f.map fun x => c * x) =
        .ok (some (faces.map (averageOntoFace fun v => (f.map fun x => c * x).getD v 0), -max |mn| |mx|, max |mn| |mx|)) := by
      simp only [executeMesh, m1, n1, bind, Except.bind, (C42_normalise _).1, pure, Except.pure, mapM_id_map_some]
      rfl
    obtain ⟨g, h1, -, h3, -⟩ := C123_mesh_partial ⟨faces, region, none, false, false⟩ rfl _ _ _ _ hbare
    have ht : 10 ^ 5 ≤ max |mn| |mx| := by
      have hy := List.mem_map_of_mem (f := fun x => c * x) hx
      have a := n3 _ hy
      have b := m3 _ hy
      rw [← abs_of_pos hc0, ← abs_mul] at hcx
      rcases abs_cases (c * x) with ⟨e, -⟩ | ⟨e, -⟩
      · exact (hcx.trans (e.le.trans b)).trans ((le_abs_self _).trans (le_max_right _ _))
      · refine (hcx.trans (e.le.trans (neg_le_neg a))).trans ((neg_le_abs _).trans (le_max_left _ _))
    refine ⟨g, _, h1, fun i k hk ho => ⟨_, (h3 i k hk).2 ho, by linarith, by linarith [(by norm_num : (0:ℝ) ≤ 10 ^ 5)]⟩⟩
  · have h1 : amin [-(2 * 10 ^ 5), -(2 * 10 ^ 5), -(2 * 10 ^ 5), 0] = .ok (-(2 * 10 ^ 5)) := amin_eq (by simp) (by simp)
    have h2 : amax [-(2 * 10 ^ 5), -(2 * 10 ^ 5), -(2 * 10 ^ 5), 0] = .ok 0 := amax_eq (by simp) (by simp)
    simp only [executeMesh, h1, h2, bind, Except.bind, (C42_normalise _).1, pure, Except.pure, mapM_id_map_some]
    have : convertRegionToFaces [true, true, true, false] [(0, 1, 2), (1, 2, 3)] = [1, 0] := by decide
    simp [setOutsideRegionMesh, this, NumPy.broadcast, createTickMark, averageOntoFace, meshUnseen]
    norm_num

/-- C120. Figures without normalisation restricted to a region, in other units, an amplitude being given in them: the values
inside and the range of the colour scale are in those units, the number shown outside stays. -/
theorem C120_region_figure {b : ℕ} {c : ℝ} (hc : 0 < c) {forward : ℕ → List (List ℂ) → List ℂ}
    {inverse : ℕ → List ℂ → List (List ℂ)} (T : GridHomogeneous c forward inverse) (s : SphereSettings) (hn : s.normalise = false)
    (hs : s.mask = none) (hb : 2 * s.resolution = b + 1) (f : List (List ℂ)) (bare : Figure)
    (F : Fin (s.resolution + 1) → Fin (b + 1) → ℝ) (M : Fin (s.resolution + 1) → Fin (b + 1) → Bool)
    (mask : ℕ → List (List Bool)) (hm : mask s.resolution = rows M)
    (h : executeSphere forward inverse s f = .ok (some bare)) (hF : bare.colours = closedRows F) :
    executeSphere forward inverse { s with mask := some mask, amplitude := s.amplitude.map fun a => c * a }
        (f.map fun r => r.map fun z => (c : ℂ) * z) =
      .ok (some ⟨closedRows fun t p => if M t p then c * F t p else sphereUnseen, c * bare.cmin, c * bare.cmax⟩) := by
  have h1 := (C120_figure_partial hc T s f).2 hn hs
  rw [h] at h1
  exact (C123_sphere_partial forward inverse { s with amplitude := s.amplitude.map fun a => c * a } hs hb _ _ (fun t p => c * F t p) M mask hm
    h1 (by
      simp only [hF, closedRows, List.map_ofFn, Function.comp_def, List.map_append, List.map_cons, List.map_nil]
      rfl)).1

/-- C120. The same on a mesh. -/
theorem C120_mesh_region_figure {c : ℝ} (hc : 0 < c) (s : MeshSettings) (hn : s.normalise = false) (hs : s.region = false)
    (f bare : List ℝ) (cmin cmax : ℝ) (h : executeMesh s f = .ok (some (bare, cmin, cmax))) :
    ∃ g, executeMesh { s with region := true, amplitude := s.amplitude.map fun a => c * a } (f.map fun x => c * x) =
        .ok (some (g, c * cmin, c * cmax)) ∧
      ∀ (i : ℕ) (t : ℕ × ℕ × ℕ), s.faces[i]? = some t →
        ((s.meshRegion[t.1]? = some true ∧ s.meshRegion[t.2.1]? = some true ∧ s.meshRegion[t.2.2]? = some true) →
          g[i]? = bare[i]?.map fun x => c * x) ∧
        (¬ (s.meshRegion[t.1]? = some true ∧ s.meshRegion[t.2.1]? = some true ∧ s.meshRegion[t.2.2]? = some true) →
          g[i]? = some (-(10 ^ 5))) := by
  have h1 := (C120_mesh_figure_partial hc s f).2 hn hs
  rw [h] at h1
  obtain ⟨g, h2, -, h3, -⟩ := C123_mesh_partial { s with amplitude := s.amplitude.map fun a => c * a } hs _ _ _ _ h1
  refine ⟨g, h2, fun i t ht => ⟨fun hi => ?_, (h3 i t ht).2⟩⟩
  rw [(h3 i t ht).1 hi, List.getElem?_map]

/-! ### examples -/

/-- an unnormalised figure of a field on two rings of two samples, in a region of which the second ring has nothing. -/
example : ∃ bare, executeSphere (fun _ r => r.flatten) (fun _ x => [x]) { L := 1, plotType := "real", upsample := false, normalise := false }
    [[3, 4], [5, 6]] = .ok (some bare) ∧ bare.colours = closedRows ![![3, 4], ![5, 6]] := by
  have h1 : amin [3, 4, 5, 6] = .ok 3 := amin_eq (by simp) (by simp; norm_num)
  have h2 : amax [3, 4, 5, 6] = .ok 6 := amax_eq (by simp) (by simp; norm_num)
  refine ⟨⟨[[3, 4, 3], [5, 6, 5]], -6, 6⟩, ?_, by simp [closedRows]⟩
  have hg : plotTypeFun "real" = .ok Complex.re := rfl
  simp [executeSphere, prepareField, boostField, hg, bind, Except.bind, pure, Except.pure, unflatten, (C42_normalise _).1,
    setupPlot, SphereSettings.resolution, h1, h2, closeRows, closeRow, createTickMark]
  norm_num

example : ∃ bare cmin cmax, executeMesh ⟨[(0, 1, 2), (1, 2, 3)], [true, true, true, false], none, false, false⟩
    [1, 2, 3, 4] = .ok (some (bare, cmin, cmax)) := by
  have h1 : amin [1, 2, 3, 4] = .ok 1 := amin_eq (by simp) (by simp)
  have h2 : amax [1, 2, 3, 4] = .ok 4 := amax_eq (by simp) (by simp; norm_num)
  simp only [executeMesh, h1, h2, bind, Except.bind, (C42_normalise _).1, pure, Except.pure, mapM_id_map_some]
  exact ⟨_, _, _, rfl⟩

end Sleplet.Props
