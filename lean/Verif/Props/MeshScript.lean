import Mathlib.Order.Bounds.Basic
import Verif.Model.MeshScript
import Verif.Props.MeshArgs
import Verif.Props.MeshCoefficients
import Verif.Props.Plot

/-!
C82: the command that plots functions on meshes.
-/
namespace Sleplet.Props

open NumPy Classes MeshClasses MeshScript

/-- The methods that can be asked for, and the class with default parameters that each stands for. -/
def meshMethods : List (String × MFn) :=
  [("basis_functions", .basisFunctions 0), ("field", .field), ("noise_field", .noiseField 10), ("slepian_field", .slepianField),
   ("slepian_functions", .slepianFunctions 0), ("slepian_noise_field", .slepianNoiseField (-5)),
   ("slepian_wavelet_coefficients", .slepianWaveletCoefficients {}), ("slepian_wavelets", .slepianWavelets {})]

/-- The command line asks for a mesh and a method. -/
def Asks (a : Args) (m : String) : Prop := a.function ∈ meshNames ∧ (a.method = some (some m) ∨ m = "basis_functions" ∧
  (a.method = none ∨ a.method = some none))

theorem mesh_method_ok : ∀ p ∈ meshMethods, validMethods p.1 = .ok p.1 ∧
    Strings.lookup Strings.MESH_COEFFICIENTS "Mesh" p.1 = .ok p.2.className ∧ classNamed p.2.className = .ok p.2 := by
  intro p hp
  simp only [meshMethods, List.mem_cons, List.not_mem_nil, or_false] at hp
  rcases hp with rfl | rfl | rfl | rfl | rfl | rfl | rfl | rfl <;> exact ⟨by decide +kernel, by decide +kernel, rfl⟩

private theorem read_ok {a : Args} {m : String} (h : Asks a m) (hm : validMethods m = .ok m) :
    readArgs a = .ok (a.function, m) := by
  have h1 : validMeshes a.function = .ok a.function := by
    unfold validMeshes
    rw [if_pos]
    rw [List.contains_iff_mem]
    exact h.1
  rcases h.2 with h2 | ⟨rfl, h2 | h2⟩ <;> simp only [readArgs, h1, h2, hm, bind, Except.bind, pure, Except.pure]

private theorem main_ok {limDen : ℚ → ℚ} {load : String → Loaded} {a : Args} {w w' : Noise.World} {m : String} {fn : MFn}
    (h : Asks a m) (hm : (m, fn) ∈ meshMethods) {o : Ranks.Obj}
    (hc : fn.construct limDen ((load a.function).mesh a.function a.zoom) a.extra (a.noise.map fun x : ℤ => (x : ℚ)) a.region w =
      .ok (o, w')) :
    main limDen load a w = (do
      let amp ← amplitude ((load a.function).mesh a.function a.zoom) fn.isSlepian o
      let fig ← plot (load a.function) ((load a.function).mesh a.function a.zoom) fn.isSlepian o (!a.unnormalise) amp
      return (fig, w')) := by
  obtain ⟨h1, h2, h3⟩ := mesh_method_ok _ hm
  simp only at h1 h2 h3
  simp only [main, read_ok h h1, h2, h3, hc, bind, Except.bind]

/-- The vertex values given by coefficients: sums of Slepian functions (the first `N`) or of basis functions. -/
def IsMeshField {n K : ℕ} (N : ℕ) (φ : Fin K → Fin n → ℝ) (S : Fin K → Fin K → ℝ) (slepian : Bool) (c : List ℝ)
    (u : Fin n → ℝ) : Prop :=
  ∀ v, u v = if slepian then ∑ p : Fin K, (if (p : ℕ) < N then c.getD p 0 * ∑ i, S p i * φ i v else 0)
    else ∑ i : Fin K, c.getD i 0 * φ i v

/-- As many coefficients as the inverse transforms need. -/
def EnoughCoefficients (K N : ℕ) (slepian : Bool) (c : List ℝ) : Prop := if slepian then N ≤ c.length else c.length = K

/-- The mesh is drawn with its faces, each coloured by `scale` of the mean of its three vertex values; in plots of Slepian functions
the faces that are not inside the region get the value `-10⁵`. -/
structure Shows (l : Loaded) (region : Fin l.n → Bool) (slepian : Bool) (u : Fin l.n → ℝ) (scale : ℝ → ℝ) (F : Figure) : Prop where
  positions : F.positions = List.ofFn fun v => ((l.vertices v).1, (l.vertices v).2.2, (l.vertices v).2.1)
  faces : F.faces = l.faces.map fun t => ((t.1 : ℕ), (t.2.1 : ℕ), (t.2.2 : ℕ))
  number : F.colours.length = l.faces.length
  seen : ∀ (i : ℕ) (t : Fin l.n × Fin l.n × Fin l.n), l.faces[i]? = some t →
    (slepian = true → region t.1 = true ∧ region t.2.1 = true ∧ region t.2.2 = true) →
    F.colours[i]? = some (scale ((u t.1 + u t.2.1 + u t.2.2) / 3))
  unseen : ∀ (i : ℕ) (t : Fin l.n × Fin l.n × Fin l.n), l.faces[i]? = some t → slepian = true →
    ¬ (region t.1 = true ∧ region t.2.1 = true ∧ region t.2.2 = true) → F.colours[i]? = some (-100000)

section
variable {n K : ℕ} {e : MEnv (Fin n)} {φ : Fin K → Fin n → ℝ} {ev : Fin K → ℝ} {S : Fin K → Fin K → ℝ} {rows : ℕ}

private theorem field_eq (h : GoodMesh e φ ev S rows) (slepian : Bool) (c : List ℝ)
    (hc : EnoughCoefficients K e.slepian.N slepian c) :
    ∃ u, coefficientsToField e slepian c = .ok u ∧ IsMeshField e.slepian.N φ S slepian c u := by
  have hNK := h.le_K
  cases slepian with
  | true =>
    have hc : e.slepian.N ≤ c.length := hc
    refine ⟨_, meshInverse_take h c hc, fun v => ?_⟩
    simp only [if_true]
    let g : ℕ → ℝ := fun k => if hk : k < K then (if k < e.slepian.N then c.getD k 0 * ∑ i, S ⟨k, hk⟩ i * φ i v else 0) else 0
    have h1 : ∀ p : Fin K, (if (p : ℕ) < e.slepian.N then c.getD p 0 * ∑ i, S p i * φ i v else 0) = g p := fun p => by simp [g]
    have h2 : ∀ p : Fin e.slepian.N, c.getD p 0 * ∑ i, S ⟨p, by omega⟩ i * φ i v = g p := by
      intro p
      have : (p : ℕ) < K := by omega
      simp [g, this]
    rw [Finset.sum_congr rfl fun p _ => h1 p, Finset.sum_congr rfl fun p _ => h2 p, ← Finset.sum_range g, ← Finset.sum_range g]
    apply Finset.sum_subset
    · intro x; simp only [Finset.mem_range]; omega
    · intro x _ hx
      simp only [Finset.mem_range] at hx
      simp [g, hx]
  | false =>
    have hc : c.length = K := hc
    have h1 : c = List.ofFn fun i : Fin K => c.getD i 0 := by
      apply List.ext_getElem
      · simp [hc]
      · intro i h1 h2
        simp [List.getD_eq_getElem?_getD, h1]
    refine ⟨fun v => ∑ i : Fin K, c.getD i 0 * φ i v, ?_, fun v => by simp⟩
    unfold coefficientsToField
    rw [if_neg (by simp), h.built.basis]
    conv_lhs => rw [h1]
    exact MeshT.meshInverse_ofFn φ _

end

theorem mesh_abs_greatest {n : ℕ} (u : Fin n → ℝ) (hn : 0 < n) :
    ∃ A, Plot.amax ((List.ofFn u).map fun x => |x|) = .ok A ∧ IsGreatest (Set.range fun v => |u v|) A := by
  have hne : ((List.ofFn u).map fun x => |x|) ≠ [] := by
    simp; omega
  obtain ⟨A, h1, h2, h3⟩ := Plot.exists_amax hne
  refine ⟨A, h1, ?_, ?_⟩
  · simpa using h2
  · rintro _ ⟨v, rfl⟩
    exact h3 _ (by simp)

private theorem range_greatest {n : ℕ} (u : Fin n → ℝ) (hn : 0 < n) :
    ∃ mn mx, Plot.amin (List.ofFn u) = .ok mn ∧ Plot.amax (List.ofFn u) = .ok mx ∧
      IsGreatest (Set.range fun v => |u v|) (max |mn| |mx|) := by
  have hne : List.ofFn u ≠ [] := by
    simp; omega
  obtain ⟨mx, h1, h2, h3⟩ := Plot.exists_amax hne
  obtain ⟨mn, g1, g2, g3⟩ := Plot.exists_amin hne
  refine ⟨mn, mx, g1, h1, ?_, ?_⟩
  · obtain ⟨i, rfl⟩ := (List.mem_ofFn' u _).1 h2
    obtain ⟨j, rfl⟩ := (List.mem_ofFn' u _).1 g2
    rcases max_choice |u j| |u i| with h | h <;> rw [h]
    · exact ⟨j, rfl⟩
    · exact ⟨i, rfl⟩
  · rintro _ ⟨v, rfl⟩
    have a1 := h3 (u v) (by simp)
    have a2 := g3 (u v) (by simp)
    simp only
    rcases abs_cases (u v) with ⟨h, _⟩ | ⟨h, _⟩
    · rw [h]; exact le_max_of_le_right (a1.trans (le_abs_self _))
    · rw [h]; exact le_max_of_le_left ((neg_le_neg a2).trans (neg_le_abs _))

private theorem mapM_some {α : Type} (l : List α) : (l.map some).mapM id = some l := by
  induction l with
  | nil => rfl
  | cons x xs ih => simp [List.mapM_cons, ih]

/-- the means over the faces. -/
private theorem face_means (l : Loaded) (u : Fin l.n → ℝ) :
    l.faceRows.map (Plot.averageOntoFace fun v => (List.ofFn u).getD v 0) =
      l.faces.map fun t => (u t.1 + u t.2.1 + u t.2.2) / 3 := by
  simp [Loaded.faceRows, Plot.averageOntoFace, List.getD_eq_getElem?_getD]

/-- the figure, if the colours before masking are `scale` of the face means. -/
theorem mesh_plot_ok (l : Loaded) (e : MEnv (Fin l.n)) (slepian : Bool) (o : Ranks.Obj) (normalise : Bool) (amp : Option ℝ)
    (u : Fin l.n → ℝ) (hu : coefficientsToField e slepian o.coefficients = .ok u) (mn mx : ℝ)
    (hmn : Plot.amin (List.ofFn u) = .ok mn) (hmx : Plot.amax (List.ofFn u) = .ok mx) (scale : ℝ → ℝ)
    (hs : Plot.normaliseFunction (l.faces.map fun t => (u t.1 + u t.2.1 + u t.2.2) / 3) normalise =
      .ok ((l.faces.map fun t => scale ((u t.1 + u t.2.1 + u t.2.2) / 3)).map some)) :
    ∃ F, plot l e slepian o normalise amp = .ok (some F) ∧ Shows l e.slepian.region slepian u scale F ∧
      F.filename = (if normalise then o.name ++ "_norm" else o.name) ∧
      F.cmin = (if normalise then 0 else -(amp.getD (max |mn| |mx|))) ∧ F.cmid = (if normalise then 1 / 2 else 0) ∧
      F.cmax = (if normalise then 1 else amp.getD (max |mn| |mx|)) ∧ F.camera = cameraView l.config e.zoom ∧
      F.barPos = colourbarPos l.config e.zoom := by
  have htick : Plot.createTickMark mn mx amp = amp.getD (max |mn| |mx|) := by cases amp <;> rfl
  have hreg : ∀ v : Fin l.n, (List.ofFn e.slepian.region)[(v : ℕ)]? = some true ↔ e.slepian.region v = true := by
    intro v; simp
  have hrows : ∀ (i : ℕ) (t : Fin l.n × Fin l.n × Fin l.n), l.faces[i]? = some t → l.faceRows[i]? = some ((t.1 : ℕ), (t.2.1 : ℕ), (t.2.2 : ℕ)) := by
    intro i t ht
    simp [Loaded.faceRows, ht]
  cases slepian with
  | false =>
    simp only [plot, hu, bind, Except.bind, Plot.executeMesh, hmn, hmx, face_means, hs, mapM_some, Bool.false_eq_true, if_false,
      pure, Except.pure, htick, Option.map_some]
    refine ⟨_, rfl, ⟨rfl, rfl, by simp, ?_, ?_⟩, rfl, rfl, rfl, rfl, rfl, rfl⟩
    · intro i t ht _
      simp [ht]
    · intro i t _ h
      cases h
  | true =>
    obtain ⟨g, hg, hgl, hgv⟩ := C39_plot (List.ofFn e.slepian.region) l.faceRows
      (l.faces.map fun t => scale ((u t.1 + u t.2.1 + u t.2.2) / 3)) (by simp [Loaded.faceRows])
    simp only [plot, hu, bind, Except.bind, Plot.executeMesh, hmn, hmx, face_means, hs, mapM_some, if_true, hg,
      pure, Except.pure, htick, Option.map_some]
    refine ⟨_, rfl, ⟨rfl, rfl, by simp [hgl, Loaded.faceRows], ?_, ?_⟩, rfl, rfl, rfl, rfl, rfl, rfl⟩
    · intro i t ht h
      obtain ⟨h1, h2, h3⟩ := h rfl
      change g[i]? = _
      rw [(hgv i _ (hrows i t ht)).1 ⟨(hreg _).2 h1, (hreg _).2 h2, (hreg _).2 h3⟩]
      simp [ht]
    · intro i t ht _ h
      change g[i]? = _
      rw [(hgv i _ (hrows i t ht)).2 fun h' => h ⟨(hreg _).1 h'.1, (hreg _).1 h'.2.1, (hreg _).1 h'.2.2⟩]
      norm_num [Plot.meshUnseen]

section
variable {K : ℕ}

/-- C82.  What the command shows, for every mesh, method, list of extra arguments, noise level and combination of flags for which the
object can be made.  The vertex values are the field of the object's coefficients.  Without normalisation each face has the mean of its
vertices, and the colour scale goes from `-A` to `A`, where `A` is the largest absolute vertex value: of the field shown, or if noise was
added, of the field without noise.  With normalisation the face values are mapped affinely from their range to `[0, 1]`. -/
theorem C82_figure (limDen : ℚ → ℚ) (load : String → Loaded) (a : Args) (w w' : Noise.World) (m : String) (fn : MFn)
    (ha : Asks a m) (hm : (m, fn) ∈ meshMethods) (φ : Fin K → Fin (load a.function).n → ℝ) (ev : Fin K → ℝ)
    (S : Fin K → Fin K → ℝ) (rows : ℕ) (hn : 0 < (load a.function).n)
    (hg : GoodMesh ((load a.function).mesh a.function a.zoom) φ ev S rows) (o : Ranks.Obj)
    (hc : fn.construct limDen ((load a.function).mesh a.function a.zoom) a.extra (a.noise.map fun x : ℤ => (x : ℚ)) a.region w =
      .ok (o, w'))
    (hl : EnoughCoefficients K (load a.function).env.slepian.N fn.isSlepian o.coefficients)
    (hl' : ∀ c, o.unnoised = some c → EnoughCoefficients K (load a.function).env.slepian.N fn.isSlepian c) :
    ∃ u, IsMeshField (load a.function).env.slepian.N φ S fn.isSlepian o.coefficients u ∧
      (a.unnormalise = true → ∃ F A, main limDen load a w = .ok (some F, w') ∧ F.filename = o.name ∧
        Shows (load a.function) (load a.function).env.slepian.region fn.isSlepian u id F ∧
        F.cmin = -A ∧ F.cmid = 0 ∧ F.cmax = A ∧
        (o.unnoised = none → IsGreatest (Set.range fun v => |u v|) A) ∧
        ∀ c u₀, o.unnoised = some c → IsMeshField (load a.function).env.slepian.N φ S fn.isSlepian c u₀ →
          IsGreatest (Set.range fun v => |u₀ v|) A) ∧
      (a.unnormalise = false → ∀ lo hi, (∃ t ∈ (load a.function).faces, (u t.1 + u t.2.1 + u t.2.2) / 3 = lo) →
        (∃ t ∈ (load a.function).faces, (u t.1 + u t.2.1 + u t.2.2) / 3 = hi) →
        (∀ t ∈ (load a.function).faces, lo ≤ (u t.1 + u t.2.1 + u t.2.2) / 3 ∧ (u t.1 + u t.2.1 + u t.2.2) / 3 ≤ hi) →
        1 / 10 ^ 8 + 1 / 10 ^ 5 * |hi| < hi - lo →
        ∃ F, main limDen load a w = .ok (some F, w') ∧ F.filename = o.name ++ "_norm" ∧
          Shows (load a.function) (load a.function).env.slepian.region fn.isSlepian u (fun x => (x - lo) / (hi - lo)) F ∧
          F.cmin = 0 ∧ F.cmid = 1 / 2 ∧ F.cmax = 1) := by
  obtain ⟨u, hu, hf⟩ := field_eq hg fn.isSlepian o.coefficients hl
  obtain ⟨mn, mx, hmn, hmx, hgr⟩ := range_greatest u hn
  have hamp : ∃ amp, amplitude ((load a.function).mesh a.function a.zoom) fn.isSlepian o = .ok amp ∧
      (o.unnoised = none → amp = none) ∧
      ∀ c u₀, o.unnoised = some c → IsMeshField (load a.function).env.slepian.N φ S fn.isSlepian c u₀ →
        ∃ A, amp = some A ∧ IsGreatest (Set.range fun v => |u₀ v|) A := by
    cases hno : o.unnoised with
    | none => exact ⟨none, by simp [amplitude, hno], fun _ => rfl, fun c u₀ h => by cases h⟩
    | some c₀ =>
      obtain ⟨u₁, hu₁, hf₁⟩ := field_eq hg fn.isSlepian c₀ (hl' c₀ hno)
      obtain ⟨A, hA, hA'⟩ := mesh_abs_greatest u₁ hn
      refine ⟨some A, ?_, by simp, ?_⟩
      · simp only [amplitude, hno, hu₁, hA, bind, Except.bind, pure, Except.pure]
      · intro c u₀ hcc h₀
        injection hcc with hcc
        subst hcc
        have : u₀ = u₁ := by
          funext v
          rw [h₀ v, hf₁ v]
          rfl
        subst this
        exact ⟨A, rfl, hA'⟩
  obtain ⟨amp, hamp, hnone, hsome⟩ := hamp
  refine ⟨u, hf, fun hun => ?_, fun hun lo hi hlo hhi hb hgap => ?_⟩
  · obtain ⟨F, hF, hsh, hname, h1, h2, h3, -⟩ := mesh_plot_ok (load a.function) _ fn.isSlepian o false amp u hu mn mx hmn hmx id
      (by simp [(C42_normalise _).1])
    refine ⟨F, amp.getD (max |mn| |mx|), ?_, hname, hsh, h1, h2, h3, ?_, ?_⟩
    · rw [main_ok ha hm hc, hamp]
      simp only [bind, Except.bind, hun, Bool.not_true, hF, pure, Except.pure]
    · intro h
      rw [hnone h]
      exact hgr
    · intro c u₀ hcc h₀
      obtain ⟨A, rfl, hA⟩ := hsome c u₀ hcc h₀
      exact hA
  · have hnorm := ((C42_normalise ((load a.function).faces.map fun t => (u t.1 + u t.2.1 + u t.2.2) / 3)).2.2 lo hi
      (by simpa using hlo) (by simpa using hhi) (by
        intro x hx
        obtain ⟨t, ht, rfl⟩ := List.mem_map.1 hx
        exact hb t ht)).1 (by
        obtain ⟨t, ht, rfl⟩ := hlo
        refine ⟨_, List.mem_map_of_mem ht, ?_⟩
        rw [abs_sub_comm]
        exact hgap.trans_le (le_abs_self _))
    obtain ⟨F, hF, hsh, hname, h1, h2, h3, -⟩ := mesh_plot_ok (load a.function) _ fn.isSlepian o true amp u hu mn mx hmn hmx
      (fun x => (x - lo) / (hi - lo)) (by rw [hnorm.1]; simp [Function.comp_def])
    refine ⟨F, ?_, hname, hsh, h1, h2, h3⟩
    rw [main_ok ha hm hc, hamp]
    simp only [bind, Except.bind, hun, Bool.not_false, hF, pure, Except.pure]

/-- without noise no other coefficients are kept. -/
private theorem unnoised_none {V : Type} [Fintype V] {limDen : ℚ → ℚ} {e : MEnv V} {fn : MFn} {extra : Option (List ℤ)} {region : Bool}
    {w w' : Noise.World} {o : Ranks.Obj} (h : fn.construct limDen e extra none region w = .ok (o, w')) : o.unnoised = none := by
  unfold MFn.construct at h
  cases h1 : fn.setupArgs e.jMax e.meshEvals.length extra with
  | error x => rw [h1] at h; cases h
  | ok fn' =>
    rw [h1] at h
    simp only [bind, Except.bind, slepianFunction, Ranks.meshFunction] at h
    cases h2 : fn'.name limDen e with
    | error x => rw [h2] at h; cases hh : fn'.isSlepian <;> rw [hh] at h <;> cases h
    | ok name =>
      rw [h2] at h
      cases h3 : fn'.create e w with
      | error x => rw [h3] at h; cases hh : fn'.isSlepian <;> rw [hh] at h <;> cases h
      | ok cw =>
        rw [h3] at h
        cases hh : fn'.isSlepian <;> rw [hh] at h <;>
          simp only [pure, Except.pure, if_true, Bool.false_eq_true, if_false, Except.ok.injEq, Prod.mk.injEq] at h <;>
          obtain ⟨rfl, -⟩ := h <;> rfl

/-- C82.  The rank given to the basis functions: the command `mesh NAME -e r -u` shows basis function `r`, on the whole mesh. -/
theorem C82_basis_functions (limDen : ℚ → ℚ) (load : String → Loaded) (a : Args) (w : Noise.World) (ha : Asks a "basis_functions")
    (φ : Fin K → Fin (load a.function).n → ℝ) (ev : Fin K → ℝ) (S : Fin K → Fin K → ℝ) (rows : ℕ) (hn : 0 < (load a.function).n)
    (hg : GoodMesh ((load a.function).mesh a.function a.zoom) φ ev S rows) (r : Fin K) (hr : a.extra = some [((r : ℕ) : ℤ)])
    (hno : a.noise = none) (hu : a.unnormalise = true) :
    ∃ F A, main limDen load a w = .ok (some F, w) ∧
      Shows (load a.function) (load a.function).env.slepian.region false (φ r) id F ∧
      F.cmin = -A ∧ F.cmax = A ∧ IsGreatest (Set.range fun v => |φ r v|) A := by
  obtain ⟨o, ho, hol, hov⟩ := C78_basis limDen hg a.region w r
  have hc : (MFn.basisFunctions 0).construct limDen ((load a.function).mesh a.function a.zoom) a.extra
      (a.noise.map fun x : ℤ => (x : ℚ)) a.region w = .ok (o, w) := by
    rw [hr, hno, C77_list_is_keywords limDen _ (.basisFunctions 0) (.basisFunctions ((r : ℕ) : ℤ)) (le_refl (0 : ℤ)) _
      (.basis 0 _ (by omega) (by rw [hg.number]; have := r.2; omega))]
    exact ho
  obtain ⟨u, hf, h1, -⟩ := C82_figure limDen load a w w "basis_functions" (.basisFunctions 0) ha (by simp [meshMethods]) φ ev S rows hn hg o
    hc hol (fun c hcc => by rw [unnoised_none ho] at hcc; cases hcc)
  obtain ⟨F, A, hF, -, hs, a1, -, a2, a3, -⟩ := h1 hu
  have : u = φ r := by
    funext v
    rw [hf v]
    simp only [MFn.isSlepian, Bool.false_eq_true, if_false, hov]
    simp
  subst this
  exact ⟨F, A, hF, hs, a1, a2, a3 (unnoised_none ho)⟩

/-- C82.  The command `mesh NAME -m slepian_functions -e r -u` shows Slepian function `r`, for every `r` below the Shannon number, with
the faces outside the region masked. -/
theorem C82_slepian_functions (limDen : ℚ → ℚ) (load : String → Loaded) (a : Args) (w : Noise.World) (ha : Asks a "slepian_functions")
    (φ : Fin K → Fin (load a.function).n → ℝ) (ev : Fin K → ℝ) (S : Fin K → Fin K → ℝ) (rows : ℕ) (hn : 0 < (load a.function).n)
    (hg : GoodMesh ((load a.function).mesh a.function a.zoom) φ ev S rows) (r : Fin K)
    (hN : (r : ℕ) < (load a.function).env.slepian.N) (hr : a.extra = some [((r : ℕ) : ℤ)]) (hno : a.noise = none)
    (hu : a.unnormalise = true) :
    ∃ F A, main limDen load a w = .ok (some F, w) ∧
      Shows (load a.function) (load a.function).env.slepian.region true (fun v => ∑ i, S r i * φ i v) id F ∧
      F.cmin = -A ∧ F.cmax = A ∧ IsGreatest (Set.range fun v => |∑ i, S r i * φ i v|) A := by
  obtain ⟨o, ho, hol, hov⟩ := (C78_slepian_functions limDen hg a.region w r).1 (lt_of_lt_of_le hN hg.built.le_rows)
  have hc : (MFn.slepianFunctions 0).construct limDen ((load a.function).mesh a.function a.zoom) a.extra
      (a.noise.map fun x : ℤ => (x : ℚ)) a.region w = .ok (o, w) := by
    rw [hr, hno, C77_list_is_keywords limDen _ (.slepianFunctions 0) (.slepianFunctions ((r : ℕ) : ℤ)) (le_refl (0 : ℤ)) _
      (.slepian 0 _ (by omega))]
    exact ho
  obtain ⟨u, hf, h1, -⟩ := C82_figure limDen load a w w "slepian_functions" (.slepianFunctions 0) ha (by simp [meshMethods]) φ ev S rows
    hn hg o hc (show _ ≤ _ from hol.ge) (fun c hcc => by rw [unnoised_none ho] at hcc; cases hcc)
  obtain ⟨F, A, hF, -, hs, a1, -, a2, a3, -⟩ := h1 hu
  have : u = fun v => ∑ i, S r i * φ i v := by
    funext v
    rw [hf v]
    simp only [MFn.isSlepian, if_true]
    rw [Finset.sum_eq_single r]
    · rw [if_pos hN, hov r hN]; simp
    · intro p _ hp
      split_ifs with hpN
      · rw [hov p hpN, if_neg (fun h => hp (Fin.ext h)), zero_mul]
      · rfl
    · simp
  subst this
  exact ⟨F, A, hF, hs, a1, a2, a3 (unnoised_none ho)⟩

/-- C82.  The command `mesh NAME -m field -u` shows the orthogonal projection on the basis functions of the second component of the
vertex normals, and with `-m slepian_field` its projection on the first `N` Slepian functions, masked. -/
theorem C82_fields (limDen : ℚ → ℚ) (load : String → Loaded) (a : Args) (w : Noise.World)
    (φ : Fin K → Fin (load a.function).n → ℝ) (ev : Fin K → ℝ) (S : Fin K → Fin K → ℝ) (rows : ℕ) (hn : 0 < (load a.function).n)
    (hg : GoodMesh ((load a.function).mesh a.function a.zoom) φ ev S rows) (he : a.extra = none) (hno : a.noise = none)
    (hu : a.unnormalise = true) :
    (Asks a "field" → ∃ F u, main limDen load a w = .ok (some F, w) ∧
      (∀ v, u v = ∑ i, (∑ x, (load a.function).env.normalY x * φ i x) * φ i v) ∧
      Shows (load a.function) (load a.function).env.slepian.region false u id F) ∧
    (Asks a "slepian_field" → ∃ F u, main limDen load a w = .ok (some F, w) ∧
      (∀ v, u v = ∑ p : Fin K, if (p : ℕ) < (load a.function).env.slepian.N then
        (∑ x, (load a.function).env.normalY x * ∑ i, S p i * φ i x) * ∑ i, S p i * φ i v else 0) ∧
      Shows (load a.function) (load a.function).env.slepian.region true u id F) := by
  constructor
  · intro ha
    obtain ⟨o, ho, hol, hov⟩ := C78_field limDen hg a.region w
    obtain ⟨u, hf, h1, -⟩ := C82_figure limDen load a w w "field" .field ha (by simp [meshMethods]) φ ev S rows hn hg o
      (by rw [he, hno]; exact ho) hol (fun c hcc => by rw [unnoised_none ho] at hcc; cases hcc)
    obtain ⟨F, A, hF, -, hs, -⟩ := h1 hu
    refine ⟨F, u, hF, fun v => ?_, hs⟩
    rw [hf v]
    simp only [MFn.isSlepian, Bool.false_eq_true, if_false, hov]
    rfl
  · intro ha
    obtain ⟨o, ho, hol, hov⟩ := C78_slepian_field limDen hg a.region w
    obtain ⟨u, hf, h1, -⟩ := C82_figure limDen load a w w "slepian_field" .slepianField ha (by simp [meshMethods]) φ ev S rows hn hg o
      (by rw [he, hno]; exact ho) (show _ ≤ _ from hol.ge) (fun c hcc => by rw [unnoised_none ho] at hcc; cases hcc)
    obtain ⟨F, A, hF, -, hs, -⟩ := h1 hu
    refine ⟨F, u, hF, fun v => ?_, hs⟩
    rw [hf v]
    simp only [MFn.isSlepian, if_true]
    refine Finset.sum_congr rfl fun p _ => ?_
    split_ifs with hp
    · rw [hov p hp]; rfl
    · rfl

/-- C82.  With noise on the Slepian field: the colour scale is that of the field without noise, at every noise level. -/
theorem C82_noise (limDen : ℚ → ℚ) (load : String → Loaded) (a : Args) (w : Noise.World) (ha : Asks a "slepian_field")
    (φ : Fin K → Fin (load a.function).n → ℝ) (ev : Fin K → ℝ) (S : Fin K → Fin K → ℝ) (rows : ℕ) (hn : 0 < (load a.function).n)
    (hg : GoodMesh ((load a.function).mesh a.function a.zoom) φ ev S rows) (he : a.extra = none) (snr : ℤ) (hno : a.noise = some snr)
    (hu : a.unnormalise = true) :
    ∃ F F₀, main limDen load a w = .ok (some F, w ++ [(30, K)]) ∧
      main limDen load { a with noise := none } w = .ok (some F₀, w) ∧ F.cmin = F₀.cmin ∧ F.cmax = F₀.cmax := by
  obtain ⟨o₀, ho₀, hol₀, hov⟩ := C78_slepian_field limDen hg a.region w
  obtain ⟨o, ho, hou, -, hol, -⟩ := C78_noise limDen hg .slepianField rfl a.region w w o₀ ho₀ hol₀ snr
  obtain ⟨u, hf, h1, -⟩ := C82_figure limDen load a w _ "slepian_field" .slepianField ha (by simp [meshMethods]) φ ev S rows hn hg o
    (by rw [he, hno]; exact ho) (show _ ≤ _ from hol.ge) (fun c hcc => by rw [hou] at hcc; cases hcc; exact hol₀.ge)
  obtain ⟨u₀, hf₀, h1₀, -⟩ := C82_figure limDen load { a with noise := none } w w "slepian_field" .slepianField ha (by simp [meshMethods])
    φ ev S rows hn hg o₀ (by simp only [he]; exact ho₀) (show _ ≤ _ from hol₀.ge)
    (fun c hcc => by rw [unnoised_none ho₀] at hcc; cases hcc)
  obtain ⟨F, A, hF, -, -, a1, -, a2, -, a3⟩ := h1 hu
  obtain ⟨F₀, A₀, hF₀, -, -, b1, -, b2, b3, -⟩ := h1₀ hu
  have hA : A = A₀ := (a3 _ u₀ hou hf₀).unique (b3 (unnoised_none ho₀))
  exact ⟨F, F₀, hF, hF₀, by rw [a1, b1, hA], by rw [a2, b2, hA]⟩

end

/-- the object before the details are added to its name: base name, coefficients, those without noise, ratio, random numbers used. -/
noncomputable def meshCore {V : Type} [Fintype V] (limDen : ℚ → ℚ) (e : MEnv V) (fn : MFn) (extra : Option (List ℤ)) (noise : Option ℚ)
    (w : Noise.World) : Except Err (String × List ℝ × Option (List ℝ) × Option ℝ × Noise.World) := do
  let fn' ← fn.setupArgs e.jMax e.meshEvals.length extra
  let name ← fn'.name limDen e
  let (c, w₁) ← fn'.create e w
  match noise with
  | none => return (name, c, none, none, w₁)
  | some snrIn =>
    let (n, w₂) ← if fn'.isSlepian then slepianNoise e c (snrIn : ℝ) w₁
      else Noise.createMeshNoise e.normals (c.map fun x : ℝ => (x : ℂ)) (snrIn : ℝ) w₁
    let snr := Noise.computeSnr (c.map fun x : ℝ => (x : ℂ)) (n.map fun x : ℝ => (x : ℂ))
    let c' ← broadcast (· + ·) c n
    return (name, c', some c, some snr, w₂)

private theorem construct_core {V : Type} [Fintype V] (limDen : ℚ → ℚ) (e : MEnv V) (fn : MFn) (extra : Option (List ℤ))
    (noise : Option ℚ) (region : Bool) (w : Noise.World) :
    fn.construct limDen e extra noise region w = (meshCore limDen e fn extra noise w).map fun p =>
      (⟨Ranks.addDetails limDen ⟨e.meshName, e.zoom, noise, region⟩ p.1, p.2.1, p.2.2.1, p.2.2.2.1⟩, p.2.2.2.2) := by
  unfold MFn.construct meshCore
  cases h1 : fn.setupArgs e.jMax e.meshEvals.length extra with
  | error x => rfl
  | ok fn' =>
    simp only [bind, Except.bind, slepianFunction, Ranks.meshFunction]
    cases h2 : fn'.name limDen e with
    | error x => cases fn'.isSlepian <;> rfl
    | ok name =>
      cases h3 : fn'.create e w with
      | error x => cases fn'.isSlepian <;> rfl
      | ok cw =>
        cases noise with
        | none => cases fn'.isSlepian <;> rfl
        | some snr =>
          cases fn'.isSlepian with
          | true =>
            simp only [if_true]
            cases slepianNoise e cw.1 (snr : ℝ) cw.2 with
            | error x => rfl
            | ok nw =>
              simp only
              cases broadcast (· + ·) cw.1 nw.1 <;> rfl
          | false =>
            simp only [Bool.false_eq_true, if_false]
            cases Noise.createMeshNoise e.normals (cw.1.map fun x : ℝ => (x : ℂ)) (snr : ℝ) cw.2 with
            | error x => rfl
            | ok nw =>
              simp only
              cases broadcast (· + ·) cw.1 nw.1 <;> rfl

/-- the zoom flag of the mesh is not used before. -/
private theorem core_zoom {V : Type} [Fintype V] (limDen : ℚ → ℚ) (e : MEnv V) (z : Bool) (fn : MFn) (extra : Option (List ℤ))
    (noise : Option ℚ) (w : Noise.World) : meshCore limDen { e with zoom := z } fn extra noise w = meshCore limDen e fn extra noise w := by
  have h1 : ∀ fn' : MFn, fn'.name limDen { e with zoom := z } = fn'.name limDen e := by intro fn'; cases fn' <;> rfl
  have h2 : ∀ (fn' : MFn) w, fn'.create { e with zoom := z } w = fn'.create e w := by intro fn' w; cases fn' <;> rfl
  have h3 : ∀ c snr w, slepianNoise { e with zoom := z } c snr w = slepianNoise e c snr w := fun _ _ _ => rfl
  unfold meshCore
  simp only [h1, h2, h3]

/-- the command in terms of `meshCore`. -/
theorem mesh_main_core (limDen : ℚ → ℚ) (load : String → Loaded) (a : Args) (w : Noise.World) :
    main limDen load a w = (do
      let (function, method) ← readArgs a
      let cls ← Strings.lookup Strings.MESH_COEFFICIENTS "Mesh" method
      let fn ← classNamed cls
      let p ← meshCore limDen ((load function).mesh function false) fn a.extra (a.noise.map fun x : ℤ => (x : ℚ)) w
      let o : Ranks.Obj := ⟨Ranks.addDetails limDen ⟨function, a.zoom, a.noise.map fun x : ℤ => (x : ℚ), a.region⟩ p.1, p.2.1, p.2.2.1,
        p.2.2.2.1⟩
      let amp ← amplitude ((load function).mesh function false) fn.isSlepian o
      let fig ← plot (load function) ((load function).mesh function a.zoom) fn.isSlepian o (!a.unnormalise) amp
      return (fig, p.2.2.2.2)) := by
  unfold main
  cases readArgs a with
  | error x => rfl
  | ok fm =>
    simp only [bind, Except.bind]
    cases Strings.lookup Strings.MESH_COEFFICIENTS "Mesh" fm.2 with
    | error x => rfl
    | ok cls =>
      simp only
      cases classNamed cls with
      | error x => rfl
      | ok fn =>
        simp only [construct_core]
        have : (load fm.1).mesh fm.1 a.zoom = { (load fm.1).mesh fm.1 false with zoom := a.zoom } := rfl
        rw [this, core_zoom]
        cases meshCore limDen ((load fm.1).mesh fm.1 false) fn a.extra (a.noise.map fun x : ℤ => (x : ℚ)) w <;> rfl

theorem mesh_read_name {a : Args} {fm : String × String} (h0 : readArgs a = .ok fm) : fm.1 = a.function := by
  unfold readArgs validMeshes at h0
  split_ifs at h0
  · simp only [bind, Except.bind] at h0
    split at h0
    · cases h0
    · injection h0 with h0
      rw [← h0]
  · cases h0

private theorem plot_details (l : Loaded) (name : String) (z z' : Bool) (slepian : Bool) (nm nm' : String) (c : List ℝ) (un : Option (List ℝ))
    (snr : Option ℝ) (norm : Bool) (amp : Option ℝ) :
    plot l (l.mesh name z') slepian ⟨nm', c, un, snr⟩ norm amp = (plot l (l.mesh name z) slepian ⟨nm, c, un, snr⟩ norm amp).map
      (Option.map fun F => { F with filename := if norm then nm' ++ "_norm" else nm', camera := cameraView l.config z',
                                    barPos := colourbarPos l.config z' }) := by
  unfold plot
  have : coefficientsToField (l.mesh name z') slepian c = coefficientsToField (l.mesh name z) slepian c := rfl
  simp only [this]
  cases coefficientsToField (l.mesh name z) slepian c with
  | error x => rfl
  | ok u =>
    simp only [bind, Except.bind]
    have : (l.mesh name z').slepian = (l.mesh name z).slepian := rfl
    rw [this]
    cases Plot.executeMesh ⟨l.faceRows, List.ofFn (l.mesh name z).slepian.region, amp, norm, slepian⟩ (List.ofFn u) with
    | error x => rfl
    | ok s => cases s <;> rfl

/-- the file name and the view of a figure. -/
theorem mesh_plot_name {l : Loaded} {e : MEnv (Fin l.n)} {slepian : Bool} {o : Ranks.Obj} {norm : Bool} {amp : Option ℝ} {F : Figure}
    (h : plot l e slepian o norm amp = .ok (some F)) :
    F.filename = (if norm then o.name ++ "_norm" else o.name) ∧ F.camera = cameraView l.config e.zoom ∧
      F.barPos = colourbarPos l.config e.zoom ∧
      F.positions = List.ofFn fun v => ((l.vertices v).1, (l.vertices v).2.2, (l.vertices v).2.1) := by
  unfold plot at h
  cases h1 : coefficientsToField e slepian o.coefficients with
  | error x => rw [h1] at h; cases h
  | ok u =>
    rw [h1] at h
    simp only [bind, Except.bind] at h
    cases h2 : Plot.executeMesh ⟨l.faceRows, List.ofFn e.slepian.region, amp, norm, slepian⟩ (List.ofFn u) with
    | error x => rw [h2] at h; cases h
    | ok s =>
      rw [h2] at h
      cases s with
      | none => simp [pure, Except.pure] at h
      | some t =>
        simp only [pure, Except.pure, Option.map_some, Except.ok.injEq, Option.some.injEq] at h
        subst h
        exact ⟨rfl, rfl, rfl, rfl⟩

/-- C82.  The flag `--zoom` changes the view, the position of the colour bar and the file name, and nothing else: the eye moves along
the same line from the origin, to the distance set by the zoom factor of the region instead of the default, and the centre of the view
is that of the region instead of the origin. -/
theorem C82_zoom (limDen : ℚ → ℚ) (load : String → Loaded) (a : Args) (w w' : Noise.World) (F : Figure)
    (h : main limDen load { a with zoom := false } w = .ok (some F, w')) :
    ∃ (F' : Figure) (base : String), main limDen load { a with zoom := true } w = .ok (some F', w') ∧
      F' = { F with filename := F'.filename, camera := F'.camera, barPos := F'.barPos } ∧
      F.filename = base ++ (if a.unnormalise then "" else "_norm") ∧
      F'.filename = base ++ "_zoom" ++ (if a.unnormalise then "" else "_norm") ∧
      (∀ c, (load a.function).config = c →
        F.camera = ⟨(c.cameraX / c.defaultZoom, c.cameraY / c.defaultZoom, c.cameraZ / c.defaultZoom), (0, 0, 0)⟩ ∧
        F'.camera = ⟨(c.cameraX / c.regionZoom, c.cameraY / c.regionZoom, c.cameraZ / c.regionZoom), (c.centreX, c.centreY, c.centreZ)⟩ ∧
        F.barPos = c.defaultColourbarPos ∧ F'.barPos = c.regionColourbarPos) := by
  rw [mesh_main_core] at h ⊢
  have hr : readArgs { a with zoom := true } = readArgs a := rfl
  have hr' : readArgs { a with zoom := false } = readArgs a := rfl
  rw [hr'] at h
  rw [hr]
  cases h0 : readArgs a with
  | error x => rw [h0] at h; cases h
  | ok fm =>
    have hfm : fm.1 = a.function := mesh_read_name h0
    rw [h0] at h
    simp only [bind, Except.bind] at h ⊢
    cases h1 : Strings.lookup Strings.MESH_COEFFICIENTS "Mesh" fm.2 with
    | error x => rw [h1] at h; cases h
    | ok cls =>
      rw [h1] at h
      simp only at h ⊢
      cases h2 : classNamed cls with
      | error x => rw [h2] at h; cases h
      | ok fn =>
        rw [h2] at h
        simp only at h ⊢
        cases h3 : meshCore limDen ((load fm.1).mesh fm.1 false) fn a.extra (a.noise.map fun x : ℤ => (x : ℚ)) w with
        | error x => rw [h3] at h; cases h
        | ok p =>
          rw [h3] at h
          simp only at h ⊢
          have hamp : ∀ nm, amplitude ((load fm.1).mesh fm.1 false) fn.isSlepian ⟨nm, p.2.1, p.2.2.1, p.2.2.2.1⟩ =
            amplitude ((load fm.1).mesh fm.1 false) fn.isSlepian ⟨"", p.2.1, p.2.2.1, p.2.2.2.1⟩ := fun _ => rfl
          rw [hamp] at h ⊢
          cases h4 : amplitude ((load fm.1).mesh fm.1 false) fn.isSlepian ⟨"", p.2.1, p.2.2.1, p.2.2.2.1⟩ with
          | error x => rw [h4] at h; cases h
          | ok amp =>
            rw [h4] at h
            simp only at h ⊢
            rw [plot_details (load fm.1) fm.1 false true fn.isSlepian
              (Ranks.addDetails limDen ⟨fm.1, false, a.noise.map fun x : ℤ => (x : ℚ), a.region⟩ p.1)]
            cases h5 : plot (load fm.1) ((load fm.1).mesh fm.1 false) fn.isSlepian
                ⟨Ranks.addDetails limDen ⟨fm.1, false, a.noise.map fun x : ℤ => (x : ℚ), a.region⟩ p.1, p.2.1, p.2.2.1, p.2.2.2.1⟩
                (!a.unnormalise) amp with
            | error x => rw [h5] at h; cases h
            | ok G =>
              rw [h5] at h
              simp only [pure, Except.pure, Except.ok.injEq, Prod.mk.injEq] at h
              obtain ⟨rfl, rfl⟩ := h
              obtain ⟨n1, n2, n3, -⟩ := mesh_plot_name h5
              refine ⟨_, Ranks.addDetails limDen ⟨fm.1, false, a.noise.map fun x : ℤ => (x : ℚ), a.region⟩ p.1, rfl, rfl, ?_, ?_, ?_⟩
              · rw [n1]
                cases a.unnormalise <;> simp
              · have : Ranks.addDetails limDen ⟨fm.1, true, a.noise.map fun x : ℤ => (x : ℚ), a.region⟩ p.1 =
                    Ranks.addDetails limDen ⟨fm.1, false, a.noise.map fun x : ℤ => (x : ℚ), a.region⟩ p.1 ++ "_zoom" := rfl
                simp only [this]
                cases a.unnormalise <;> simp
              · intro c hcfg
                rw [n2, n3, hfm, hcfg]
                exact ⟨rfl, rfl, rfl, rfl⟩

/-- C82 is violated by `--region`, which according to its description masks the function: for all other arguments, the figure with the
flag is the figure without it, under another file name. -/
theorem C82_region_violation (limDen : ℚ → ℚ) (load : String → Loaded) (a : Args) (w : Noise.World) :
    (main limDen load { a with region := true } w).map (fun p => (p.1.map fun F => { F with filename := "" }, p.2)) =
      (main limDen load { a with region := false } w).map (fun p => (p.1.map fun F => { F with filename := "" }, p.2)) := by
  rw [mesh_main_core, mesh_main_core]
  have hr : readArgs { a with region := true } = readArgs a := rfl
  have hr' : readArgs { a with region := false } = readArgs a := rfl
  rw [hr, hr']
  cases readArgs a with
  | error x => rfl
  | ok fm =>
    simp only [bind, Except.bind]
    cases Strings.lookup Strings.MESH_COEFFICIENTS "Mesh" fm.2 with
    | error x => rfl
    | ok cls =>
      simp only
      cases classNamed cls with
      | error x => rfl
      | ok fn =>
        simp only
        cases meshCore limDen ((load fm.1).mesh fm.1 false) fn a.extra (a.noise.map fun x : ℤ => (x : ℚ)) w with
        | error x => rfl
        | ok p =>
          simp only
          have hamp : ∀ nm, amplitude ((load fm.1).mesh fm.1 false) fn.isSlepian ⟨nm, p.2.1, p.2.2.1, p.2.2.2.1⟩ =
            amplitude ((load fm.1).mesh fm.1 false) fn.isSlepian ⟨"", p.2.1, p.2.2.1, p.2.2.2.1⟩ := fun _ => rfl
          rw [hamp, hamp (Ranks.addDetails limDen ⟨fm.1, a.zoom, a.noise.map fun x : ℤ => (x : ℚ), false⟩ p.1)]
          cases amplitude ((load fm.1).mesh fm.1 false) fn.isSlepian ⟨"", p.2.1, p.2.2.1, p.2.2.2.1⟩ with
          | error x => rfl
          | ok amp =>
            simp only
            rw [plot_details (load fm.1) fm.1 a.zoom a.zoom fn.isSlepian "",
              plot_details (load fm.1) fm.1 a.zoom a.zoom fn.isSlepian ""
                (Ranks.addDetails limDen ⟨fm.1, a.zoom, a.noise.map fun x : ℤ => (x : ℚ), false⟩ p.1)]
            cases plot (load fm.1) ((load fm.1).mesh fm.1 a.zoom) fn.isSlepian ⟨"", p.2.1, p.2.2.1, p.2.2.2.1⟩ (!a.unnormalise) amp with
            | error x => rfl
            | ok G => cases G <;> rfl

/-- C82.  Unknown meshes and methods are refused before anything is computed; without a value for `--method`, or without the option,
basis functions are shown. -/
theorem C82_arguments (limDen : ℚ → ℚ) (load : String → Loaded) (a : Args) (w : Noise.World) :
    (a.function ∉ meshNames → main limDen load a w = .error .valueError) ∧
    (∀ m, a.method = some (some m) → (∀ fn, (m, fn) ∉ meshMethods) → main limDen load a w = .error .valueError) ∧
    main limDen load { a with method := none } w = main limDen load { a with method := some (some "basis_functions") } w ∧
    main limDen load { a with method := some none } w = main limDen load { a with method := some (some "basis_functions") } w := by
  refine ⟨?_, ?_, rfl, rfl⟩
  · intro h
    have : validMeshes a.function = .error .valueError := by
      unfold validMeshes
      rw [if_neg]
      rw [List.contains_iff_mem]
      exact h
    simp only [main, readArgs, this, bind, Except.bind]
  · intro m hm h
    have hno : validMethods m = .error .valueError := by
      unfold validMethods
      rw [if_neg]
      rw [List.contains_iff_mem]
      have hl : Strings.classesToSnake Strings.MESH_COEFFICIENTS "Mesh" = meshMethods.map Prod.fst := by decide +kernel
      rw [hl, List.mem_map]
      rintro ⟨⟨m', fn⟩, h1, h2⟩
      simp only at h2
      subst h2
      exact h fn h1
    simp only [main, readArgs, hm, hno, bind, Except.bind]
    cases hv : validMeshes a.function with
    | error x =>
      unfold validMeshes at hv
      split_ifs at hv
      injection hv with hv
      rw [hv]
    | ok x => rfl

/-- C82 is violated by the method `noise_field`, which is offered but fails for all arguments. -/
theorem C82_noise_field_violation (limDen : ℚ → ℚ) (load : String → Loaded) (a : Args) (w : Noise.World) (ha : Asks a "noise_field") :
    ∃ x, main limDen load a w = .error x := by
  obtain ⟨h1, h2, h3⟩ := mesh_method_ok ("noise_field", .noiseField 10) (by simp [meshMethods])
  simp only at h1 h2 h3
  simp only [main, read_ok ha h1, h2, h3, bind, Except.bind]
  have : ∃ x, (MFn.noiseField 10).construct limDen ((load a.function).mesh a.function a.zoom) a.extra
      (a.noise.map fun x : ℤ => (x : ℚ)) a.region w = .error x := by
    unfold MFn.construct
    cases h : (MFn.noiseField 10).setupArgs ((load a.function).mesh a.function a.zoom).jMax
        ((load a.function).mesh a.function a.zoom).meshEvals.length a.extra with
    | error x => exact ⟨x, rfl⟩
    | ok fn' =>
      have : ∃ snr, fn' = .noiseField snr := by
        simp only [MFn.setupArgs, snrArg] at h
        split at h <;> cases h <;> exact ⟨_, rfl⟩
      obtain ⟨snr, rfl⟩ := this
      exact ⟨.attributeError, rfl⟩
  obtain ⟨x, hx⟩ := this
  rw [hx]
  exact ⟨x, rfl⟩

/-- squared distance of two points. -/
def dist2 (v w : ℝ × ℝ × ℝ) : ℝ := (v.1 - w.1) ^ 2 + (v.2.1 - w.2.1) ^ 2 + (v.2.2 - w.2.2) ^ 2

/-- six times the signed volume spanned by four points. -/
def volume6 (p q r s : ℝ × ℝ × ℝ) : ℝ :=
  (q.1 - p.1) * ((r.2.1 - p.2.1) * (s.2.2 - p.2.2) - (r.2.2 - p.2.2) * (s.2.1 - p.2.1)) -
    (q.2.1 - p.2.1) * ((r.1 - p.1) * (s.2.2 - p.2.2) - (r.2.2 - p.2.2) * (s.1 - p.1)) +
    (q.2.2 - p.2.2) * ((r.1 - p.1) * (s.2.1 - p.2.1) - (r.2.1 - p.2.1) * (s.1 - p.1))

/-- C82.  The drawing has all distances of the mesh, but it is its mirror image: the signed volume spanned by any four vertices is
negated. -/
theorem C82_mirrored (limDen : ℚ → ℚ) (load : String → Loaded) (a : Args) (w w' : Noise.World) (F : Figure)
    (h : main limDen load a w = .ok (some F, w')) :
    ∃ x : Fin (load a.function).n → ℝ × ℝ × ℝ, F.positions = List.ofFn x ∧
      (∀ p q, dist2 (x p) (x q) = dist2 ((load a.function).vertices p) ((load a.function).vertices q)) ∧
      ∀ p q r s, volume6 (x p) (x q) (x r) (x s) = -volume6 ((load a.function).vertices p) ((load a.function).vertices q)
        ((load a.function).vertices r) ((load a.function).vertices s) := by
  have hpos : F.positions = List.ofFn fun v => (((load a.function).vertices v).1, ((load a.function).vertices v).2.2,
      ((load a.function).vertices v).2.1) := by
    unfold main at h
    cases h0 : readArgs a with
    | error x => rw [h0] at h; cases h
    | ok fm =>
      obtain ⟨f, m⟩ := fm
      obtain rfl : f = a.function := mesh_read_name h0
      rw [h0] at h
      simp only [bind, Except.bind] at h
      cases h1 : Strings.lookup Strings.MESH_COEFFICIENTS "Mesh" m with
      | error x => rw [h1] at h; cases h
      | ok cls =>
        rw [h1] at h
        simp only at h
        cases h2 : classNamed cls with
        | error x => rw [h2] at h; cases h
        | ok fn =>
          rw [h2] at h
          simp only at h
          cases h3 : fn.construct limDen ((load a.function).mesh a.function a.zoom) a.extra (a.noise.map fun x : ℤ => (x : ℚ)) a.region w with
          | error x => rw [h3] at h; cases h
          | ok p =>
            rw [h3] at h
            simp only at h
            cases h4 : amplitude ((load a.function).mesh a.function a.zoom) fn.isSlepian p.1 with
            | error x => rw [h4] at h; cases h
            | ok amp =>
              rw [h4] at h
              simp only at h
              cases h5 : plot (load a.function) ((load a.function).mesh a.function a.zoom) fn.isSlepian p.1 (!a.unnormalise) amp with
              | error x => rw [h5] at h; cases h
              | ok G =>
                rw [h5] at h
                simp only [pure, Except.pure, Except.ok.injEq, Prod.mk.injEq] at h
                obtain ⟨rfl, -⟩ := h
                exact (mesh_plot_name h5).2.2.2
  refine ⟨_, hpos, fun p q => ?_, fun p q r s => ?_⟩
  · simp only [dist2]; ring
  · simp only [volume6]; ring

/-- three vertices, one face inside the region and one that is not; Slepian function 1 with rank given on the command line. -/
example : ∃ (load : String → Loaded) (a : Args) (φ : Fin 3 → Fin (load a.function).n → ℝ) (S : Fin 3 → Fin 3 → ℝ) (F : Figure) (A : ℝ),
    Asks a "slepian_functions" ∧ GoodMesh ((load a.function).mesh a.function a.zoom) φ ![1, 1, 0] S 2 ∧
    main (fun x => x) load a [] = .ok (some F, []) ∧ F.colours.length = 2 ∧ F.cmax = A := by
  let c : Config := ⟨1, 1, 1, 0, 0, 0, 1, 2, 1, 1⟩
  let e₀ : MEnv (Fin 3) := ⟨"", false, [], ⟨0, [], fun _ => true, 0, [], []⟩, fun _ => 1, fun _ => "", fun _ _ _ => [], fun _ _ _ => 0,
    fun _ _ => 0⟩
  obtain ⟨e, φ, S, hN, -, hg⟩ := goodMesh_exists e₀
  let load : String → Loaded := fun _ => ⟨3, c, e, fun _ => (0, 0, 0), [(1, 2, 1), (0, 1, 2)]⟩
  let a : Args := { function := "cube", extra := some [1], method := some (some "slepian_functions"), unnormalise := true }
  have ha : Asks a "slepian_functions" := ⟨by decide, Or.inl rfl⟩
  have hg' : GoodMesh ((load a.function).mesh a.function a.zoom) φ ![1, 1, 0] S 2 := ⟨hg.built, hg.number⟩
  obtain ⟨F, A, h1, h2, h3, h4, h5⟩ := C82_slepian_functions (fun x => x) load a [] ha φ ![1, 1, 0] S 2 (by simp [load]) hg' 1
    (show 1 < e.slepian.N by omega) rfl rfl rfl
  exact ⟨load, a, φ, S, F, A, ha, hg', h1, h2.number, h4⟩

end Sleplet.Props
