import Verif.Lemmas.Display
import Verif.Model.SphereScript
import Verif.Props.ClassReality
import Verif.Props.Script
import Verif.Lemmas.SlepianTransform

/-!
C85: the command that plots functions on the sphere, from the command line to the colours.
-/
namespace Sleplet.Props

open Classes Spec SphereScript Real

/-! ### the command line -/

/-- The functions that can be asked for, and the class with its parameters that each name stands for. -/
def sphereFunctions : List (String × AnyFn) :=
  [("africa", .harmonic .africa),
   ("axisymmetric_wavelet_coefficients_africa", .harmonic (.axisymmetricWaveletCoefficientsAfrica ⟨3, 2, none⟩)),
   ("axisymmetric_wavelet_coefficients_earth", .harmonic (.axisymmetricWaveletCoefficientsEarth ⟨3, 2, none⟩)),
   ("axisymmetric_wavelet_coefficients_south_america", .harmonic (.axisymmetricWaveletCoefficientsSouthAmerica ⟨3, 2, none⟩)),
   ("axisymmetric_wavelets", .harmonic (.axisymmetricWavelets ⟨3, 2, none⟩)),
   ("dirac_delta", .harmonic .diracDelta),
   ("earth", .harmonic .earth),
   ("elongated_gaussian", .harmonic (.elongatedGaussian 1 (1 / 10))),
   ("gaussian", .harmonic (.gaussian 10)),
   ("harmonic_gaussian", .harmonic (.harmonicGaussian 10 10)),
   ("identity", .harmonic .identity),
   ("noise_earth", .harmonic (.noiseEarth 10)),
   ("ridgelets", .harmonic (.ridgelets ⟨3, 2, none⟩ 2)),
   ("south_america", .harmonic .southAmerica),
   ("spherical_harmonic", .harmonic (.sphericalHarmonic 0 0)),
   ("squashed_gaussian", .harmonic (.squashedGaussian 1 (1 / 10))),
   ("wmap", .harmonic .wmap),
   ("slepian", .slepian 0),
   ("slepian_africa", .slepianFn .slepianAfrica),
   ("slepian_dirac_delta", .slepianFn .slepianDiracDelta),
   ("slepian_identity", .slepianFn .slepianIdentity),
   ("slepian_noise_africa", .slepianFn (.slepianNoiseAfrica (-10))),
   ("slepian_noise_south_america", .slepianFn (.slepianNoiseSouthAmerica (-10))),
   ("slepian_south_america", .slepianFn .slepianSouthAmerica),
   ("slepian_wavelet_coefficients_africa", .slepianFn (.slepianWaveletCoefficientsAfrica ⟨3, 2, none⟩)),
   ("slepian_wavelet_coefficients_south_america", .slepianFn (.slepianWaveletCoefficientsSouthAmerica ⟨3, 2, none⟩)),
   ("slepian_wavelets", .slepianFn (.slepianWavelets ⟨3, 2, none⟩))]

/-- The maps that can be convolved with. -/
def sphereMaps : List (String × Fn) := [("earth", .earth), ("south_america", .southAmerica), ("wmap", .wmap)]

/-- An option with choices, one of which is meant if the option or its value is absent. -/
def Chosen {α : Type} (o : Option (Option String)) (choices : List (String × α)) (absent : α) (x : α) : Prop :=
  ((o = none ∨ o = some none) ∧ x = absent) ∨ ∃ v, o = some (some v) ∧ (v, x) ∈ choices

/-- The part of a complex value that is plotted. -/
noncomputable def plotParts : List (String × (ℂ → ℝ)) :=
  [("abs", fun z => ‖z‖), ("real", fun z => z.re), ("imag", fun z => z.im), ("sum", fun z => z.re + z.im)]

/-- What a command line asks for: the function, the map to convolve with, the method with its angles, and the part of the values. -/
structure Reads (a : Args) (fn : AnyFn) (g : Option Fn) (s : Script.Args) (type : String) : Prop where
  function : (a.function, fn) ∈ sphereFunctions
  convolve : (a.convolve = none ∧ g = none) ∨ ∃ m h, a.convolve = some m ∧ g = some h ∧ (m, h) ∈ sphereMaps
  method : Chosen a.method [("north", Script.Method.north), ("rotate", .rotate), ("translate", .translate)] .north s.method
  view : Chosen a.perspective [("africa", Script.View.africa), ("south_america", .southAmerica)] .southAmerica s.view
  type : Chosen a.type [("abs", "abs"), ("real", "real"), ("imag", "imag"), ("sum", "sum")] "real" type
  alpha : s.alpha = a.alpha
  beta : s.beta = a.beta
  gamma : s.gamma = a.gamma
  annotations : s.annotations = true ↔ a.outline = false

private theorem names : Strings.classesToSnake Strings.COEFFICIENTS "" = sphereFunctions.map (·.1) := by decide +kernel

private theorem mapNames : Strings.classesToSnake Strings.MAPS_LM "" = sphereMaps.map (·.1) := by decide +kernel

theorem function_ok (p : String × AnyFn) (hp : p ∈ sphereFunctions) : validPlotting p.1 = .ok p.1 ∧
    Strings.lookup Strings.COEFFICIENTS "" p.1 = .ok p.2.className ∧ classNamed p.2.className = .ok p.2 := by
  refine ⟨?_, ?_, ?_⟩
  · unfold validPlotting
    rw [names, if_pos (by rw [List.contains_iff_mem]; exact List.mem_map_of_mem hp)]
  · revert p
    decide +kernel
  · revert p
    decide +kernel

theorem map_ok : ∀ p ∈ sphereMaps, validMaps p.1 = .ok p.1 ∧
    Strings.lookup Strings.MAPS_LM "" p.1 = .ok p.2.className ∧ classNamed p.2.className = .ok (.harmonic p.2) := by
  intro p hp
  simp only [sphereMaps, List.mem_cons, List.not_mem_nil, or_false] at hp
  rcases hp with rfl | rfl | rfl <;> exact ⟨by decide +kernel, by decide +kernel, rfl⟩

private theorem method_ok {o : Option (Option String)} {x : Script.Method}
    (h : Chosen o [("north", Script.Method.north), ("rotate", .rotate), ("translate", .translate)] .north x) :
    methodChoice (SphereScript.optional o "north" "north") = .ok x := by
  rcases h with ⟨rfl | rfl, rfl⟩ | ⟨v, rfl, hv⟩
  · rfl
  · rfl
  · simp only [List.mem_cons, List.not_mem_nil, or_false, Prod.mk.injEq] at hv
    rcases hv with ⟨rfl, rfl⟩ | ⟨rfl, rfl⟩ | ⟨rfl, rfl⟩ <;> rfl

private theorem view_ok {o : Option (Option String)} {x : Script.View}
    (h : Chosen o [("africa", Script.View.africa), ("south_america", .southAmerica)] .southAmerica x) :
    viewChoice (SphereScript.optional o "south_america" "south_america") = .ok x := by
  rcases h with ⟨rfl | rfl, rfl⟩ | ⟨v, rfl, hv⟩
  · rfl
  · rfl
  · simp only [List.mem_cons, List.not_mem_nil, or_false, Prod.mk.injEq] at hv
    rcases hv with ⟨rfl, rfl⟩ | ⟨rfl, rfl⟩ <;> rfl

private theorem type_ok {o : Option (Option String)} {x : String}
    (h : Chosen o [("abs", "abs"), ("real", "real"), ("imag", "imag"), ("sum", "sum")] "real" x) :
    typeChoice (SphereScript.optional o "real" "real") = .ok x := by
  rcases h with ⟨rfl | rfl, rfl⟩ | ⟨v, rfl, hv⟩
  · rfl
  · rfl
  · simp only [List.mem_cons, List.not_mem_nil, or_false, Prod.mk.injEq] at hv
    rcases hv with ⟨rfl, rfl⟩ | ⟨rfl, rfl⟩ | ⟨rfl, rfl⟩ | ⟨rfl, rfl⟩ <;> rfl

private theorem part_ok {o : Option (Option String)} {x : String}
    (h : Chosen o [("abs", "abs"), ("real", "real"), ("imag", "imag"), ("sum", "sum")] "real" x) {part : ℂ → ℝ}
    (hp : (x, part) ∈ plotParts) : Plot.plotTypeFun x = .ok part := by
  simp only [plotParts, List.mem_cons, List.not_mem_nil, or_false, Prod.mk.injEq] at hp
  rcases hp with ⟨rfl, rfl⟩ | ⟨rfl, rfl⟩ | ⟨rfl, rfl⟩ | ⟨rfl, rfl⟩ <;> simp [Plot.plotTypeFun]

theorem read_ok {a : Args} {fn : AnyFn} {g : Option Fn} {s : Script.Args} {type : String} (h : Reads a fn g s type) :
    readArgs a = .ok ⟨a.function, a.convolve, s.method, s.view, type⟩ := by
  have h1 := (function_ok _ h.function).1
  simp only at h1
  rcases h.convolve with ⟨hc, -⟩ | ⟨m, x, hc, -, hm⟩
  · simp only [readArgs, h1, hc, convolveChoice, method_ok h.method, view_ok h.view, type_ok h.type, bind, Except.bind, pure, Except.pure]
  · have h2 := (map_ok _ hm).1
    simp only at h2
    simp only [readArgs, h1, hc, convolveChoice, h2, Except.map, method_ok h.method, view_ok h.view, type_ok h.type, bind, Except.bind, pure, Except.pure]

/-- C85.  Every command line is either refused with an error about its values, whatever the data and the libraries, or asks for one of
the 27 functions with the default parameters, at most one of three maps, one of three methods, one of two views and one of four parts
of the values; what is left out means the position at the north pole, the view of South America and the real part. -/
theorem C85_command_line (a : Args) :
    (∃ fn g s type, Reads a fn g s type) ∨
      ∀ (limDen : ℚ → ℚ) (e : SphereEnv) (w : Noise.World), main limDen e a w = .error .valueError := by
  by_cases hf : a.function ∈ sphereFunctions.map (·.1)
  case neg =>
    right; intro limDen e w
    have : validPlotting a.function = .error .valueError := by
      unfold validPlotting
      rw [names, if_neg (by rwa [List.contains_iff_mem])]
    simp only [main, readArgs, this, bind, Except.bind]
  obtain ⟨p, hp, hpf⟩ := List.mem_map.1 hf
  have hfn : (a.function, p.2) ∈ sphereFunctions := by rw [← hpf]; exact hp
  have h1 := (function_ok _ hfn).1
  simp only at h1
  by_cases hc : ∃ g, (a.convolve = none ∧ g = none) ∨ ∃ m h, a.convolve = some m ∧ g = some h ∧ (m, h) ∈ sphereMaps
  case neg =>
    right; intro limDen e w
    cases hcv : a.convolve with
    | none => exact absurd ⟨none, .inl ⟨hcv, rfl⟩⟩ hc
    | some m =>
      have : validMaps m = .error .valueError := by
        unfold validMaps
        rw [mapNames, if_neg]
        rw [List.contains_iff_mem]
        intro hm
        obtain ⟨q, hq, rfl⟩ := List.mem_map.1 hm
        exact hc ⟨some q.2, .inr ⟨q.1, q.2, hcv, rfl, hq⟩⟩
      simp only [main, readArgs, h1, hcv, convolveChoice, this, bind, Except.bind, Except.map]
  obtain ⟨g, hg⟩ := hc
  have hcv : ∃ y, convolveChoice a.convolve = .ok y := by
    rcases hg with ⟨h, -⟩ | ⟨m, x, h, -, hm⟩
    · rw [h]; exact ⟨none, rfl⟩
    · have h2 := (map_ok _ hm).1
      simp only at h2
      rw [h]
      exact ⟨some m, by simp only [convolveChoice, h2, Except.map]⟩
  obtain ⟨y, hy⟩ := hcv
  by_cases hm : ∃ x, Chosen a.method [("north", Script.Method.north), ("rotate", .rotate), ("translate", .translate)] .north x
  case neg =>
    right; intro limDen e w
    have : methodChoice (SphereScript.optional a.method "north" "north") = .error .valueError := by
      rcases ho : a.method with _ | _ | v
      · exact absurd ⟨_, .inl ⟨.inl ho, rfl⟩⟩ hm
      · exact absurd ⟨_, .inl ⟨.inr ho, rfl⟩⟩ hm
      · unfold methodChoice SphereScript.optional
        dsimp only
        split_ifs with h1 h2 h3
        · exact absurd ⟨.north, .inr ⟨v, ho, by simp [h1]⟩⟩ hm
        · exact absurd ⟨.rotate, .inr ⟨v, ho, by simp [h2]⟩⟩ hm
        · exact absurd ⟨.translate, .inr ⟨v, ho, by simp [h3]⟩⟩ hm
        · rfl
    simp only [main, readArgs, h1, bind, Except.bind, hy, this]
  obtain ⟨x, hx⟩ := hm
  by_cases hv : ∃ x, Chosen a.perspective [("africa", Script.View.africa), ("south_america", .southAmerica)] .southAmerica x
  case neg =>
    right; intro limDen e w
    have : viewChoice (SphereScript.optional a.perspective "south_america" "south_america") = .error .valueError := by
      rcases ho : a.perspective with _ | _ | v
      · exact absurd ⟨_, .inl ⟨.inl ho, rfl⟩⟩ hv
      · exact absurd ⟨_, .inl ⟨.inr ho, rfl⟩⟩ hv
      · unfold viewChoice SphereScript.optional
        dsimp only
        split_ifs with h1 h2
        · exact absurd ⟨.africa, .inr ⟨v, ho, by simp [h1]⟩⟩ hv
        · exact absurd ⟨.southAmerica, .inr ⟨v, ho, by simp [h2]⟩⟩ hv
        · rfl
    simp only [main, readArgs, h1, bind, Except.bind, hy, method_ok hx, this]
  obtain ⟨z, hz⟩ := hv
  by_cases ht : ∃ x, Chosen a.type [("abs", "abs"), ("real", "real"), ("imag", "imag"), ("sum", "sum")] "real" x
  case neg =>
    right; intro limDen e w
    have : typeChoice (SphereScript.optional a.type "real" "real") = .error .valueError := by
      rcases ho : a.type with _ | _ | v
      · exact absurd ⟨_, .inl ⟨.inl ho, rfl⟩⟩ ht
      · exact absurd ⟨_, .inl ⟨.inr ho, rfl⟩⟩ ht
      · unfold typeChoice SphereScript.optional
        dsimp only
        rw [if_neg]
        rw [List.contains_iff_mem]
        intro hmem
        exact ht ⟨v, .inr ⟨v, ho, by simpa using hmem⟩⟩
    simp only [main, readArgs, h1, bind, Except.bind, hy, method_ok hx, view_ok hz, this]
  obtain ⟨t, ht⟩ := ht
  exact .inl ⟨p.2, g, ⟨a.alpha, a.beta, a.gamma, !a.outline, x, z⟩, t, hfn, hg, hx, hz, ht, rfl, rfl, rfl, by simp⟩

example : Reads { function := "gaussian" } (.harmonic (.gaussian 10)) none ⟨3 / 4, 1 / 8, 0, true, .north, .southAmerica⟩ "real" :=
  ⟨by simp [sphereFunctions], .inl ⟨rfl, rfl⟩, .inl ⟨.inl rfl, rfl⟩, .inl ⟨.inl rfl, rfl⟩, .inl ⟨.inl rfl, rfl⟩, rfl, rfl, rfl, by simp⟩

example (limDen : ℚ → ℚ) (e : SphereEnv) (w : Noise.World) : main limDen e { function := "gauss" } w = .error .valueError := by
  rcases C85_command_line { function := "gauss" } with ⟨fn, g, s, t, h⟩ | h
  · have := h.function
    simp [sphereFunctions] at this
  · exact h limDen e w

/-! ### the transforms -/

/-- The function with given coefficients in the functions `Y` of colatitude and longitude. -/
noncomputable def expansion (Y : ℕ → ℝ → ℝ → ℂ) (L : ℕ) (c : List ℂ) (θ φ : ℝ) : ℂ :=
  ∑ i ∈ Finset.range (L ^ 2), c.getD i 0 * Y i θ φ

/-- What is assumed of the external transforms.  `Y spin` are the spin-weighted harmonics, zero for degrees below the spin, so that the
forward transform returns the coefficients given to the inverse one except where the harmonic is zero.  The flag for real signals is only
assumed to work for real signals of spin zero. -/
structure GoodTransforms (e : SphereEnv) (L : ℕ) (Y : ℤ → ℕ → ℝ → ℝ → ℂ) : Prop where
  inverse : ∀ (reality : Bool) (spin : ℤ) (K : ℕ) (c : List ℂ), 1 ≤ K → c.length = K ^ 2 →
    (reality = true → RealSignal K c ∧ spin = 0) →
    e.inverse reality spin K c = Plot.rows fun (t : Fin (K + 1)) (p : Fin (2 * K)) => expansion (Y spin) K c (t * π / K) (p * π / K)
  forward : ∀ (reality : Bool) (spin : ℤ) (c : List ℂ), c.length = L ^ 2 → (reality = true → RealSignal L c ∧ spin = 0) →
    (e.forward reality spin L (e.inverse reality spin L c)).length = L ^ 2 ∧
    (reality = true → RealSignal L (e.forward reality spin L (e.inverse reality spin L c))) ∧
    ∀ i < L ^ 2, (e.forward reality spin L (e.inverse reality spin L c)).getD i 0 = c.getD i 0 ∨ ∀ θ φ, Y spin i θ φ = 0
  ylm : ∀ θ φ, RealSignal L (e.ylm L θ φ)
  rotate_length : ∀ c x y z, c.length = L ^ 2 → (e.env.S.rotate L c x y z).length = L ^ 2
  rotate_real : ∀ c x y z, RealSignal L c → RealSignal L (e.env.S.rotate L c x y z)

theorem getD_pad (c : List ℂ) (n i : ℕ) : (c ++ List.replicate n 0).getD i 0 = c.getD i 0 := by
  rcases Nat.lt_or_ge i c.length with h | h
  · rw [List.getD_append _ _ _ _ h]
  · rw [List.getD_append_right _ _ _ _ h, List.getD_eq_default _ _ h]
    rw [List.getD_eq_getElem?_getD, List.getElem?_replicate]
    split <;> rfl

theorem real_pad {L R : ℕ} (h : L ≤ R) {c : List ℂ} (hc : RealSignal L c) :
    RealSignal R (c ++ List.replicate (R ^ 2 - L ^ 2) 0) := by
  have h0 : L ^ 2 ≤ R ^ 2 := Nat.pow_le_pow_left h 2
  refine ⟨by simp [hc.1]; omega, fun l m hl hm => ?_⟩
  rw [getD_pad, getD_pad]
  by_cases hL : l < L
  · exact hc.2 l m hL hm
  · have h1 : ∀ m : ℤ, |m| ≤ l → c.getD (elm2ind l m) 0 = 0 := by
      intro m hm
      apply List.getD_eq_default
      rw [hc.1]
      by_contra h2
      exact hL ((elm2ind_lt_sq hm L).1 (by omega))
    rw [h1 m hm, h1 (-m) (by rwa [abs_neg])]
    simp

theorem boost_ok {e : SphereEnv} {L : ℕ} {Y : ℤ → ℕ → ℝ → ℝ → ℂ} (hg : GoodTransforms e L Y) (hL : 1 ≤ L) (reality : Bool)
    (spin : ℤ) (c : List ℂ) (hc : c.length = L ^ 2) (hr : reality = true → RealSignal L c ∧ spin = 0) (up : Bool) (R : ℕ)
    (hR : R = if up then Plot.calcPlotResolution L else L) :
    Plot.boostField (e.forward reality spin) (e.inverse reality spin) (e.inverse reality spin L c) L R up =
      .ok (Plot.rows fun (t : Fin (R + 1)) (p : Fin (2 * R)) => expansion (Y spin) L c (t * π / R) (p * π / R)) := by
  cases up with
  | false =>
    simp only [Bool.false_eq_true, if_false] at hR
    subst hR
    simp only [Plot.boostField, Bool.not_false, if_true]
    rw [hg.inverse reality spin R c hL hc hr]
  | true =>
    simp only [if_true] at hR
    have hle : L ≤ R := hR ▸ (C40_bounds L hL).2.1
    have h0 : L ^ 2 ≤ R ^ 2 := Nat.pow_le_pow_left hle 2
    have hz : (R : ℤ) ^ 2 - (L : ℤ) ^ 2 = ((R ^ 2 - L ^ 2 : ℕ) : ℤ) := by push_cast [h0]; rfl
    obtain ⟨f1, f2, f3⟩ := hg.forward reality spin c hc hr
    set d := e.forward reality spin L (e.inverse reality spin L c) with hd
    simp only [Plot.boostField, Bool.not_true, Bool.false_eq_true, if_false, invertFlmBoosted, boostCoefficientResolution,
      hz, if_neg (show ¬ ((R ^ 2 - L ^ 2 : ℕ) : ℤ) < 0 by omega), bind, Except.bind, pure, Except.pure, Int.toNat_natCast, ← hd]
    rw [hg.inverse reality spin R _ (by omega) (by simp [f1]; omega) fun h => ⟨real_pad hle (f2 h), (hr h).2⟩]
    congr 2
    funext t p
    have hsub : Finset.range (L ^ 2) ⊆ Finset.range (R ^ 2) := Finset.range_subset_range.2 h0
    unfold expansion
    rw [← Finset.sum_subset hsub]
    · refine Finset.sum_congr rfl fun i hi => ?_
      rw [Finset.mem_range] at hi
      rw [getD_pad]
      rcases f3 i hi with h | h
      · rw [h]
      · rw [h, mul_zero, mul_zero]
    · intro i hi hi'
      rw [Finset.mem_range] at hi hi'
      rw [getD_pad, List.getD_eq_default _ _ (by omega), zero_mul]

/-! ### the figure -/

/-- The picture of `part` of the function `F` at resolution `R`: rows of colatitudes `tπ/R`, columns of longitudes `pπ/R`, the first
meridian repeated at the end.  Samples inside have the colour `scale` of the value, the others the value `-1.56·10³⁰`. -/
structure Pictured (R : ℕ) (part : ℂ → ℝ) (F : ℝ → ℝ → ℂ) (inside : ℕ → ℕ → Bool) (scale : ℝ → ℝ) (fig : Shown) : Prop where
  rows : fig.colours.length = R + 1
  seen : ∀ t p : ℕ, t ≤ R → p < 2 * R → inside t p = true →
    at2 fig.colours t p = some (scale (part (F (t * π / R) (p * π / R))))
  unseen : ∀ t p : ℕ, t ≤ R → p < 2 * R → inside t p = false → at2 fig.colours t p = some (-156 * 10 ^ 28)
  closed : ∀ t : ℕ, t ≤ R → at2 fig.colours t (2 * R) = at2 fig.colours t 0

/-- The values of `part` of `F` on the grid of resolution `R`. -/
def samples (R : ℕ) (part : ℂ → ℝ) (F : ℝ → ℝ → ℂ) : Set ℝ := {x | ∃ t p : ℕ, t ≤ R ∧ p < 2 * R ∧ x = part (F (t * π / R) (p * π / R))}

theorem mem_samples {R : ℕ} {part : ℂ → ℝ} {F : ℝ → ℝ → ℂ} {x : ℝ} : x ∈ samples R part F ↔
    x ∈ (Plot.rows fun (t : Fin (R + 1)) (p : Fin (2 * R)) => part (F (t * π / R) (p * π / R))).flatten := by
  rw [Plot.mem_flatten_rows]
  constructor
  · rintro ⟨t, p, h1, h2, rfl⟩
    exact ⟨⟨t, by omega⟩, ⟨p, h2⟩, rfl⟩
  · rintro ⟨t, p, rfl⟩
    exact ⟨t, p, by omega, p.2, rfl⟩

/-- what is added to the file name. -/
def plotName (up normalise : Bool) (R : ℕ) (type : String) : String :=
  (if up then "_res" ++ toString R else "") ++ "_" ++ type ++ (if normalise then "_norm" else "")

/-- what is seen: everything of harmonic functions, the mask of the region of Slepian functions. -/
def Visible (e : SphereEnv) {L : ℕ} (f : Made L) (R : ℕ) (inside : ℕ → ℕ → Bool) : Prop :=
  match f.slepian with
  | none => ∀ i j, inside i j = true
  | some (_, r) => ∃ m st, Masks.maskRegion e.env.S R r e.env.store = .ok (m, st) ∧ m.shape = (R + 1, 2 * R) ∧ ∀ i j, inside i j = m.val i j

theorem display_ok (e : SphereEnv) {L : ℕ} (hL : 1 ≤ L) (f : Made L) (fig : Script.Figure) (amp : Option ℝ) (normalise : Bool)
    (type : String) (up : Bool) (field : List (List ℂ)) (hf : toField e f fig.reality fig.coefficients = .ok field) (R : ℕ)
    (hR : R = if up then Plot.calcPlotResolution L else L) (F : ℝ → ℝ → ℂ)
    (hB : Plot.boostField (e.forward fig.reality f.target.obj.spin) (e.inverse fig.reality f.target.obj.spin) field L R up =
      .ok (Plot.rows fun (t : Fin (R + 1)) (p : Fin (2 * R)) => F (t * π / R) (p * π / R))) (part : ℂ → ℝ)
    (hpart : Plot.plotTypeFun type = .ok part) (scale : ℝ → ℝ)
    (hs : Plot.normaliseFunction (Plot.rows fun (t : Fin (R + 1)) (p : Fin (2 * R)) => part (F (t * π / R) (p * π / R))).flatten normalise =
      .ok ((Plot.rows fun (t : Fin (R + 1)) (p : Fin (2 * R)) => part (F (t * π / R) (p * π / R))).flatten.map fun x => some (scale x)))
    (inside : ℕ → ℕ → Bool) (hin : Visible e f R inside) :
    ∃ shown A, display e f fig amp normalise type up = .ok (some shown) ∧ Pictured R part F inside scale shown ∧
      shown.filename = fig.filename ++ plotName up normalise R type ∧ shown.annotation = fig.annotation ∧
      IsGreatest ((fun x => |scale x|) '' samples R part F) A ∧
      shown.cmin = (if normalise then 0 else -(amp.getD A)) ∧ shown.cmax = (if normalise then 1 else amp.getD A) := by
  have hR1 : 1 ≤ R := by
    rw [hR]
    split
    · exact hL.trans (C40_bounds L hL).2.1
    · exact hL
  set bare : Plot.SphereSettings := ⟨L, amp, normalise, type, up, none⟩ with hbare
  have hres : bare.resolution = R := by rw [hR]; rfl
  have hmask : ∃ mask, (match f.slepian with
      | none => .ok none
      | some (_, r) => (Masks.maskRegion e.env.S bare.resolution r e.env.store).map fun m => some fun _ => maskRows m.1 :
        Except Err (Option (ℕ → List (List Bool)))) = .ok mask ∧
      (∀ M, mask = some M → M R = Plot.rows fun (t : Fin (R + 1)) (p : Fin (2 * R)) => inside t p) ∧
      (mask = none → ∀ i j, inside i j = true) := by
    unfold Visible at hin
    cases hsl : f.slepian with
    | none =>
      rw [hsl] at hin
      exact ⟨none, rfl, by simp, fun _ => hin⟩
    | some sr =>
      obtain ⟨s, r⟩ := sr
      rw [hsl] at hin
      obtain ⟨m, st, h1, h2, h3⟩ := hin
      refine ⟨some fun _ => maskRows m, ?_, ?_, by simp⟩
      · simp only [hres, h1, Except.map]
      · intro M hM
        cases hM
        obtain ⟨sh, v⟩ := m
        dsimp only at h2 h3
        subst h2
        simp only [maskRows, Plot.rows, h3]
  obtain ⟨mask, hm1, hm2, hm3⟩ := hmask
  obtain ⟨pf, A, p1, p2, p3, p4, p5, p6, p7⟩ := Plot.execute_spec (e.forward fig.reality f.target.obj.spin)
    (e.inverse fig.reality f.target.obj.spin) { bare with mask := mask } field R hR1 hres _ (by
      change Plot.boostField _ _ field L bare.resolution up = _
      rw [hres]; exact hB) part hpart scale hs (fun t p => inside t p) hm2
  refine ⟨⟨({ bare with mask := mask } : Plot.SphereSettings).filename fig.filename, pf.colours, pf.cmin, pf.cmax, fig.annotation⟩, A, ?_, ⟨p2, ?_, ?_, ?_⟩, ?_, rfl, ?_, p6, p7⟩
  · unfold display
    simp only [hf, bind, Except.bind]
    rw [← hbare]
    split
    · rename_i x hx
      exact absurd (hx.symm.trans hm1) (by simp)
    · rename_i x hx
      cases hx.symm.trans hm1
      have p1' : Plot.executeSphere (e.forward fig.reality f.target.obj.spin) (e.inverse fig.reality f.target.obj.spin)
        ⟨L, amp, normalise, type, up, mask⟩ field = .ok (some pf) := p1
      simp only [p1', pure, Except.pure, Option.map_some]
      rfl
  · intro t p ht hp hi
    have := p3 ⟨t, by omega⟩ ⟨p, hp⟩
    simp only [hi, Bool.or_true, if_true] at this
    exact this
  · intro t p ht hp hi
    have := p3 ⟨t, by omega⟩ ⟨p, hp⟩
    have hne : mask.isNone = false := by
      cases mask with
      | none => rw [hm3 rfl] at hi; cases hi
      | some _ => rfl
    simp only [hi, hne, Bool.or_false, Bool.false_eq_true, if_false] at this
    rw [this, Plot.sphereUnseen]
    norm_num
  · intro t ht
    exact p4 ⟨t, by omega⟩
  · change fig.filename ++ _ ++ _ ++ _ ++ _ = _
    unfold plotName
    have : ({ bare with mask := mask } : Plot.SphereSettings).resolution = R := hres
    rw [this]
    simp only [String.append_assoc]
    rfl
  · have : ((fun x => |scale x|) '' samples R part F) =
        Set.range fun x : Fin (R + 1) × Fin (2 * R) => |scale (part (F (x.1 * π / R) (x.2 * π / R)))| := by
      ext y
      constructor
      · rintro ⟨_, ⟨t, p, ht, hp, rfl⟩, rfl⟩
        exact ⟨(⟨t, by omega⟩, ⟨p, hp⟩), rfl⟩
      · rintro ⟨x, rfl⟩
        exact ⟨_, ⟨x.1, x.2, by omega, x.2.2, rfl⟩, rfl⟩
    rw [this]
    exact p5

/-- The region given to the function: the default region with `-r`, none without. -/
def RegionOf (e : SphereEnv) (a : Args) (region : Option Region.Obj) : Prop :=
  (a.region = false ∧ region = none) ∨ ∃ r, a.region = true ∧ e.defaultRegion = .ok r ∧ region = some r

/-- The map to convolve with, made after the function. -/
def MapMade (limDen : ℚ → ℚ) (e : SphereEnv) (L : ℕ) (g : Option Fn) (go : Option Functions.Obj) (w w' : Noise.World) : Prop :=
  (g = none ∧ go = none ∧ w' = w) ∨
    ∃ h x, g = some h ∧ go = some x ∧ h.construct limDen e.env none ⟨L, none, none, none⟩ w = .ok (x, w')

/-- The noise level asked for. -/
def noiseOf (a : Args) : Option ℚ := a.noise.map fun x : ℤ => (x : ℚ)

theorem main_ok {limDen : ℚ → ℚ} {e : SphereEnv} {a : Args} {w w₁ w₂ : Noise.World} {fn : AnyFn} {g : Option Fn}
    {s : Script.Args} {type : String} (hr : Reads a fn g s type) {region : Option Region.Obj} (hreg : RegionOf e a region)
    {f : Made a.bandlimit} (hf : build limDen e a.bandlimit fn a.extra region (noiseOf a) a.smoothing w = .ok (f, w₁))
    {go : Option Functions.Obj} (hgo : MapMade limDen e a.bandlimit g go w₁ w₂) :
    main limDen e a w = (do
      let amp ← amplitude e f
      let fig ← Script.plot limDen e.env.S f.target go s
      let shown ← display e f fig amp (!a.unnormalise) type (!a.unzeropad)
      return (shown, w₂)) := by
  obtain ⟨-, h2, h3⟩ := function_ok _ hr.function
  simp only at h2 h3
  have hmask : (if a.region then e.defaultRegion.map some else .ok none : Except Err (Option Region.Obj)) = .ok region := by
    rcases hreg with ⟨h, rfl⟩ | ⟨r, h, h', rfl⟩
    · simp [h]
    · simp [h, h', Except.map]
  have hother : otherMap limDen e a.bandlimit a.convolve w₁ = .ok (go, w₂) := by
    rcases hgo with ⟨h1, rfl, rfl⟩ | ⟨h, x, h1, rfl, hx⟩
    · rcases hr.convolve with ⟨h, -⟩ | ⟨m, y, h, hy, -⟩
      · rw [h]; rfl
      · rw [h1] at hy; cases hy
    · rcases hr.convolve with ⟨-, hy⟩ | ⟨m, y, hm, hy, hmem⟩
      · rw [h1] at hy; cases hy
      · rw [h1] at hy
        cases hy
        obtain ⟨-, k2, k3⟩ := map_ok _ hmem
        simp only at k2 k3
        rw [hm]
        simp only [otherMap, k2, k3, hx, bind, Except.bind, pure, Except.pure]
  have hs : s = ⟨a.alpha, a.beta, a.gamma, !a.outline, s.method, s.view⟩ := by
    obtain ⟨x1, x2, x3, x4, x5, x6⟩ := s
    have e1 := hr.alpha
    have e2 := hr.beta
    have e3 := hr.gamma
    have e4 := hr.annotations
    simp only at e1 e2 e3 e4
    subst e1 e2 e3
    congr 1
    cases x4 <;> cases ho : a.outline <;> simp_all
  have hf' : build limDen e a.bandlimit fn a.extra region (a.noise.map fun x : ℤ => (x : ℚ)) a.smoothing w = .ok (f, w₁) := hf
  simp only [main, read_ok hr, bind, Except.bind, hmask, h2, h3, hf', hother]
  rw [← hs]

/-- The figure that the command shows: the part of the values of `F` at resolution `R` where `inside`; without normalisation the values
themselves with the colour scale from `-A` to `A`, otherwise the values mapped affinely from their range to `[0, 1]`, or the constant
`1/2` if they are all zero. -/
structure FigureOf (limDen : ℚ → ℚ) (e : SphereEnv) (a : Args) (w w' : Noise.World) (R : ℕ) (type : String) (part : ℂ → ℝ)
    (F : ℝ → ℝ → ℂ) (inside : ℕ → ℕ → Bool) (name : String) (points : List (ℝ × ℝ)) (A : ℝ) : Prop where
  plain : a.unnormalise = true → ∃ fig, main limDen e a w = .ok (some fig, w') ∧ Pictured R part F inside id fig ∧
    fig.cmin = -A ∧ fig.cmax = A ∧ fig.filename = name ++ plotName (!a.unzeropad) false R type ∧ fig.annotation = points
  normalised : a.unnormalise = false → ∀ lo hi, IsLeast (samples R part F) lo → IsGreatest (samples R part F) hi →
    1 / 10 ^ 8 + 1 / 10 ^ 5 * |hi| < hi - lo → ∃ fig, main limDen e a w = .ok (some fig, w') ∧
      Pictured R part F inside (fun x => (x - lo) / (hi - lo)) fig ∧ fig.cmin = 0 ∧ fig.cmax = 1 ∧
      fig.filename = name ++ plotName (!a.unzeropad) true R type ∧ fig.annotation = points
  zero : a.unnormalise = false → (∀ x ∈ samples R part F, x = 0) → ∃ fig, main limDen e a w = .ok (some fig, w') ∧
      Pictured R part F inside (fun _ => 1 / 2) fig ∧ fig.cmin = 0 ∧ fig.cmax = 1 ∧
      fig.filename = name ++ plotName (!a.unzeropad) true R type ∧ fig.annotation = points

private theorem figure_ok {limDen : ℚ → ℚ} {e : SphereEnv} {a : Args} {w w₁ w₂ : Noise.World} {fn : AnyFn} {g : Option Fn}
    {s : Script.Args} {type : String} (hr : Reads a fn g s type) {region : Option Region.Obj} (hreg : RegionOf e a region)
    {f : Made a.bandlimit} (hf : build limDen e a.bandlimit fn a.extra region (noiseOf a) a.smoothing w = .ok (f, w₁))
    {go : Option Functions.Obj} (hgo : MapMade limDen e a.bandlimit g go w₁ w₂) (hL : 1 ≤ a.bandlimit) (amp : Option ℝ)
    (hamp : amplitude e f = .ok amp) (fig : Script.Figure) (hfig : Script.plot limDen e.env.S f.target go s = .ok fig)
    (field : List (List ℂ)) (hfield : toField e f fig.reality fig.coefficients = .ok field) (R : ℕ)
    (hR : R = if a.unzeropad then a.bandlimit else Plot.calcPlotResolution a.bandlimit) (F : ℝ → ℝ → ℂ)
    (hB : Plot.boostField (e.forward fig.reality f.target.obj.spin) (e.inverse fig.reality f.target.obj.spin) field a.bandlimit R
      (!a.unzeropad) = .ok (Plot.rows fun (t : Fin (R + 1)) (p : Fin (2 * R)) => F (t * π / R) (p * π / R))) (part : ℂ → ℝ)
    (hpart : (type, part) ∈ plotParts) (inside : ℕ → ℕ → Bool) (hin : Visible e f R inside) :
    ∃ A, FigureOf limDen e a w w₂ R type part F inside fig.filename fig.annotation A ∧
      (amp = none → IsGreatest ((fun x => |x|) '' samples R part F) A) ∧ ∀ b, amp = some b → A = b := by
  have hR' : R = if (!a.unzeropad) then Plot.calcPlotResolution a.bandlimit else a.bandlimit := by
    rw [hR]; cases a.unzeropad <;> rfl
  have hp := part_ok hr.type hpart
  have hD := display_ok e hL f fig amp
  obtain ⟨sh, A, d1, d2, d3, d4, d5, d6, d7⟩ := hD false type (!a.unzeropad) field hfield R hR' F hB part hp id (C42_normalise _).1 inside hin
  simp only [Bool.false_eq_true, if_false] at d6 d7
  refine ⟨amp.getD A, ⟨fun hu => ?_, fun hu lo hi hlo hhi hgap => ?_, fun hu hz => ?_⟩, fun h => ?_, fun b hb => ?_⟩
  · refine ⟨sh, ?_, d2, d6, d7, d3, d4⟩
    rw [main_ok hr hreg hf hgo, hamp]
    simp only [hfig, hu, bind, Except.bind, Bool.not_true, d1, pure, Except.pure]
  · have hn := ((C42_normalise _).2.2 lo hi (mem_samples.1 hlo.1) (mem_samples.1 hhi.1) (fun x hx =>
      ⟨hlo.2 (mem_samples.2 hx), hhi.2 (mem_samples.2 hx)⟩)).1 ⟨lo, mem_samples.1 hlo.1, by
        rw [abs_sub_comm]; exact hgap.trans_le (le_abs_self _)⟩
    obtain ⟨sh, A, d1, d2, d3, d4, -, d6, d7⟩ := hD true type (!a.unzeropad) field hfield R hR' F hB part hp
      (fun x => (x - lo) / (hi - lo)) hn.1 inside hin
    simp only [if_true] at d6 d7
    refine ⟨sh, ?_, d2, d6, d7, d3, d4⟩
    rw [main_ok hr hreg hf hgo, hamp]
    simp only [hfig, hu, bind, Except.bind, Bool.not_false, d1, pure, Except.pure]
  · have hn := (C42_normalise (Plot.rows fun (t : Fin (R + 1)) (p : Fin (2 * R)) => part (F (t * π / R) (p * π / R))).flatten).2.1
      fun x hx => hz x (mem_samples.2 hx)
    obtain ⟨sh, A, d1, d2, d3, d4, -, d6, d7⟩ := hD true type (!a.unzeropad) field hfield R hR' F hB part hp
      (fun _ => 1 / 2) hn inside hin
    simp only [if_true] at d6 d7
    refine ⟨sh, ?_, d2, d6, d7, d3, d4⟩
    rw [main_ok hr hreg hf hgo, hamp]
    simp only [hfig, hu, bind, Except.bind, Bool.not_false, d1, pure, Except.pure]
  · subst h
    exact d5
  · subst hb
    rfl

/-- what noise changes in an object. -/
private theorem postInit_noise {limDen : ℚ → ℚ} {h : Functions.Hooks} {L : ℕ} {noise : Option ℚ} {region : Option Region.Obj}
    {smoothing : Option ℤ} {mk : List ℂ → ℝ → Noise.World → Except Err (List ℂ × Noise.World)} {w w' : Noise.World} {o : Functions.Obj}
    (ho : Functions.postInit limDen h ⟨L, noise, region, smoothing⟩ (Functions.addNoiseWith mk noise) w = .ok (o, w')) :
    o.L = L ∧ o.spin = h.spin ∧ o.reality = h.reality ∧ (noise = none → o.unnoised = none) ∧ (noise ≠ none → ∃ o₀ w₀,
      Functions.postInit limDen h ⟨L, none, region, smoothing⟩ (Functions.addNoiseWith mk none) w = .ok (o₀, w₀) ∧
      o.unnoised = some o₀.coefficients ∧ o₀.reality = o.reality ∧ o₀.spin = o.spin ∧
      ∃ (q : ℚ) (n : List ℂ) (w₃ w₄ : Noise.World), mk o₀.coefficients q w₃ = .ok (n, w₄) ∧
        NumPy.broadcast (· + ·) o₀.coefficients n = .ok o.coefficients) := by
  unfold Functions.postInit at ho ⊢
  cases h1 : h.setupArgs with
  | error x => rw [h1] at ho; cases ho
  | ok _ =>
    rw [h1] at ho
    cases h2 : h.create w with
    | error x => rw [h2] at ho; cases ho
    | ok p =>
      rw [h2] at ho
      cases noise with
      | none =>
        simp only [bind, Except.bind, Functions.addNoiseWith, pure, Except.pure, Except.ok.injEq, Prod.mk.injEq] at ho
        obtain ⟨rfl, -⟩ := ho
        exact ⟨rfl, rfl, rfl, fun _ => rfl, fun h => absurd rfl h⟩
      | some n =>
        simp only [bind, Except.bind, Functions.addNoiseWith] at ho
        cases h3 : mk p.1 n p.2 with
        | error x => rw [h3] at ho; cases ho
        | ok q =>
          rw [h3] at ho
          dsimp only at ho
          cases h4 : NumPy.broadcast (· + ·) p.1 q.1 with
          | error x => rw [h4] at ho; cases ho
          | ok c =>
            rw [h4] at ho
            simp only [pure, Except.pure, Except.ok.injEq, Prod.mk.injEq] at ho
            obtain ⟨rfl, -⟩ := ho
            refine ⟨rfl, rfl, rfl, by simp, fun _ => ⟨_, _, rfl, rfl, rfl, rfl, n, q.1, _, _, h3, h4⟩⟩

private theorem construct_noise {limDen : ℚ → ℚ} {e : Env} {fn : Fn} {extra : Option (List ℤ)} {L : ℕ} {noise : Option ℚ}
    {region : Option Region.Obj} {smoothing : Option ℤ} {w w' : Noise.World} {o : Functions.Obj}
    (ho : fn.construct limDen e extra ⟨L, noise, region, smoothing⟩ w = .ok (o, w')) :
    o.L = L ∧ (noise = none → o.unnoised = none) ∧ (noise ≠ none → ∃ o₀ w₀,
      fn.construct limDen e extra ⟨L, none, region, smoothing⟩ w = .ok (o₀, w₀) ∧
      o.unnoised = some o₀.coefficients ∧ o₀.reality = o.reality ∧ o₀.spin = o.spin) := by
  unfold Fn.construct at ho ⊢
  simp only at ho ⊢
  cases h1 : fn.setupArgs e.jMax L extra with
  | error x => rw [h1] at ho; cases ho
  | ok fn' =>
    rw [h1] at ho
    simp only [bind, Except.bind, Functions.flm, Functions.flmNoise] at ho ⊢
    obtain ⟨k1, -, -, k2, k3⟩ := postInit_noise ho
    refine ⟨k1, k2, fun h => ?_⟩
    obtain ⟨o₀, w₀, k4, k5, k6, k7, -⟩ := k3 h
    exact ⟨o₀, w₀, k4, k5, k6, k7⟩

private theorem norm_greatest (L : ℕ) (hL : 1 ≤ L) (F : ℝ → ℝ → ℂ) : ∃ A,
    Plot.amax ((Plot.rows fun (t : Fin (L + 1)) (p : Fin (2 * L)) => F (t * π / L) (p * π / L)).flatten.map fun z => ‖z‖) = .ok A ∧
      IsGreatest (samples L (fun z => ‖z‖) F) A := by
  have hflat : ((Plot.rows fun (t : Fin (L + 1)) (p : Fin (2 * L)) => F (t * π / L) (p * π / L)).flatten.map fun z => ‖z‖) =
      (Plot.rows fun (t : Fin (L + 1)) (p : Fin (2 * L)) => ‖F (t * π / L) (p * π / L)‖).flatten := by
    rw [List.map_flatten]
    simp only [Plot.rows, List.map_ofFn, Function.comp_def]
  rw [hflat]
  have hne : (Plot.rows fun (t : Fin (L + 1)) (p : Fin (2 * L)) => ‖F (t * π / L) (p * π / L)‖).flatten ≠ [] := by
    intro h
    have := congrArg List.length h
    rw [Plot.flatten_rows_length] at this
    have h2 : 0 < (L + 1) * (2 * L) := by positivity
    simp only [List.length_nil] at this
    omega
  obtain ⟨A, h1, h2, h3⟩ := Plot.exists_amax hne
  exact ⟨A, h1, mem_samples.2 h2, fun x hx => h3 x (mem_samples.1 hx)⟩

/-- C85.  Plots of harmonic functions, for every function, map, bandlimit, method, view, part, noise level and combination of flags for
which the objects can be made (the identity excepted: it is flagged as real and is not).  The picture is that of the whole function with
the coefficients after the method, the convolution and the view.  Without normalisation the colour scale goes to the greatest absolute
value shown, or if noise was added, to the greatest modulus of the function without noise on its own grid. -/
theorem C85_harmonic (limDen : ℚ → ℚ) (e : SphereEnv) (a : Args) (w w₁ w₂ : Noise.World) (fn : Fn) (g : Option Fn) (s : Script.Args)
    (type : String) (hr : Reads a (.harmonic fn) g s type) (region : Option Region.Obj) (hreg : RegionOf e a region)
    (Y : ℤ → ℕ → ℝ → ℝ → ℂ) (he : GoodEnv e.env a.bandlimit) (hY : GoodTransforms e a.bandlimit Y) (hi : fn ≠ .identity)
    (o : Functions.Obj) (ho : fn.construct limDen e.env a.extra ⟨a.bandlimit, noiseOf a, region, a.smoothing⟩ w = .ok (o, w₁))
    (go : Option Functions.Obj) (hgo : MapMade limDen e a.bandlimit g go w₁ w₂) (R : ℕ)
    (hR : R = if a.unzeropad then a.bandlimit else Plot.calcPlotResolution a.bandlimit) (part : ℂ → ℝ)
    (hpart : (type, part) ∈ plotParts) :
    ∃ (c₁ c₂ c : List ℂ) (points : List (ℝ × ℝ)) (A : ℝ),
      HarmonicMethod e.env.S (e.ylm a.bandlimit) a.bandlimit o.name o.coefficients s c₁ ∧
      (go = none → c₂ = c₁) ∧
      (∀ x, go = some x → ∀ i < a.bandlimit ^ 2, c₂.getD i 0 = x.coefficients.getD i 0 * (starRingEnd ℂ) (c₁.getD i 0)) ∧
      ViewSpec e.env.S a.bandlimit (Functions.contains "earth" (o.name ++ methodName limDen s ++ convolvedName go)) s.view c₂ c ∧
      (points = [] ↔ ¬ (s.method = .translate ∧ a.outline = false)) ∧
      (∀ p ∈ points, NearestSample a.bandlimit a.alpha a.beta p.1 p.2) ∧
      FigureOf limDen e a w w₂ R type part (expansion (Y o.spin) a.bandlimit c) (fun _ _ => true)
        (o.name ++ methodName limDen s ++ convolvedName go ++
          (if Functions.contains "earth" (o.name ++ methodName limDen s ++ convolvedName go) = true ∧ s.view = .africa then "_africa"
            else "")) points A ∧
      (a.noise = none → IsGreatest ((fun x => |x|) '' samples R part (expansion (Y o.spin) a.bandlimit c)) A) ∧
      (a.noise ≠ none → ∃ o₀ w₀, fn.construct limDen e.env a.extra ⟨a.bandlimit, none, region, a.smoothing⟩ w = .ok (o₀, w₀) ∧
        IsGreatest (samples a.bandlimit (fun z => ‖z‖) (expansion (Y o.spin) a.bandlimit o₀.coefficients)) A) := by
  have hL : 1 ≤ a.bandlimit := he.pos
  obtain ⟨hoL, hn1, hn2⟩ := construct_noise ho
  have hlen := C70_length limDen e.env fn a.extra _ he w w₁ o ho
  have hreal : o.reality = true → RealSignal a.bandlimit o.coefficients ∧ o.spin = 0 := fun h =>
    C70_reality_partial limDen e.env fn a.extra _ he w w₁ o ho h hi
  have hgl : ∀ x, go = some x → x.coefficients.length = a.bandlimit ^ 2 := by
    intro x hx
    rcases hgo with ⟨-, h, -⟩ | ⟨h, y, -, hy, hc⟩
    · rw [h] at hx; cases hx
    · rw [hy] at hx
      cases hx
      exact C70_length limDen e.env h none _ he w₁ w₂ x hc
  have hbuild : build limDen e a.bandlimit (.harmonic fn) a.extra region (noiseOf a) a.smoothing w =
      .ok (⟨Script.harmonic e.env.S (e.ylm a.bandlimit) o, none⟩, w₁) := by
    simp only [build, ho, bind, Except.bind, pure, Except.pure]
  obtain ⟨c₁, c₂, fig, h1, h2, h3, h4, h5, h6, h7, h8, h9⟩ := C75_harmonic limDen e.env.S (e.ylm a.bandlimit) o go s (by omega)
    (by rw [hoL]; exact hlen) (by rw [hoL]; exact hgl) (by rw [hoL]; exact fun t p => (hY.ylm t p).1)
    (by rw [hoL]; exact hY.rotate_length)
  rw [hoL] at h2 h3 h5 h6 h9
  have hname := C75_filename limDen e.env.S _ go s fig h1
  have hc2 : c₂.length = a.bandlimit ^ 2 := by
    cases go with
    | none => rw [h4 rfl]; exact h3
    | some x => exact (h5 x rfl).1
  have hview : ∀ P : List ℂ → Prop, P c₂ → (∀ x y z, P (e.env.S.rotate a.bandlimit c₂ x y z)) → P fig.coefficients := by
    intro P p1 p2
    obtain ⟨v1, v2, v3⟩ := h6
    cases hc : Functions.contains "earth" (o.name ++ methodName limDen s ++ convolvedName go) with
    | false => rw [v1 hc]; exact p1
    | true =>
      cases hv : s.view with
      | africa => rw [v2 hc hv]; exact p2 _ _ _
      | southAmerica => rw [v3 hc hv]; exact p2 _ _ _
  have hclen : fig.coefficients.length = a.bandlimit ^ 2 := hview (fun c => c.length = _) hc2 fun x y z => hY.rotate_length _ _ _ _ hc2
  have hcreal : fig.reality = true → RealSignal a.bandlimit fig.coefficients ∧ o.spin = 0 := by
    intro hfr
    obtain ⟨r1, r2, r3⟩ := h7.1 hfr
    obtain ⟨r4, r5⟩ := hreal r1
    refine ⟨?_, r5⟩
    have hc1 : RealSignal a.bandlimit c₁ := by
      unfold HarmonicMethod at h2
      cases hm : s.method with
      | north => rw [hm] at h2; dsimp only at h2; rw [h2]; exact r4
      | rotate =>
        rw [hm] at h2
        obtain ⟨al, be, -, rfl⟩ := h2
        exact hY.rotate_real _ _ _ _ r4
      | translate =>
        rw [hm] at h2
        obtain ⟨al, be, -, hv⟩ := h2
        have hd := r3 hm
        refine ⟨h3, fun l m hl hm => ?_⟩
        have hy := (hY.ylm be al).2 l m hl hm
        rw [hv _ ((elm2ind_lt_sq (by rwa [abs_neg]) _).2 hl), hv _ ((elm2ind_lt_sq hm _).2 hl), if_pos hd, if_pos hd, hy]
        simp
    rw [← h4 r2] at hc1
    exact hview (RealSignal a.bandlimit) hc1 fun x y z => hY.rotate_real _ _ _ _ hc1
  have hR' : R = if (!a.unzeropad) then Plot.calcPlotResolution a.bandlimit else a.bandlimit := by
    rw [hR]; cases a.unzeropad <;> rfl
  have hB := boost_ok hY hL fig.reality o.spin fig.coefficients hclen hcreal (!a.unzeropad) R hR'
  have hnoise : ∃ amp, amplitude e (⟨Script.harmonic e.env.S (e.ylm a.bandlimit) o, none⟩ : Made a.bandlimit) = .ok amp ∧
      (a.noise = none → amp = none) ∧ (a.noise ≠ none → ∃ A o₀ w₀, amp = some A ∧
        fn.construct limDen e.env a.extra ⟨a.bandlimit, none, region, a.smoothing⟩ w = .ok (o₀, w₀) ∧
        IsGreatest (samples a.bandlimit (fun z => ‖z‖) (expansion (Y o.spin) a.bandlimit o₀.coefficients)) A) := by
    cases hno : a.noise with
    | none =>
      refine ⟨none, ?_, fun _ => rfl, fun h => absurd rfl h⟩
      have : o.unnoised = none := hn1 (by simp [noiseOf, hno])
      simp only [amplitude, Script.harmonic, this]
    | some n =>
      obtain ⟨o₀, w₀, k1, k2, k3, k4⟩ := hn2 (by simp [noiseOf, hno])
      have l0 := C70_length limDen e.env fn a.extra _ he w w₀ o₀ k1
      obtain ⟨A, a1, a2⟩ := norm_greatest a.bandlimit hL (expansion (Y o.spin) a.bandlimit o₀.coefficients)
      refine ⟨some A, ?_, by simp, fun _ => ⟨A, o₀, w₀, rfl, k1, a2⟩⟩
      have hinv := hY.inverse o.reality o.spin a.bandlimit o₀.coefficients hL l0 (by
        intro h
        rw [← k3] at h
        obtain ⟨q1, q2⟩ := C70_reality_partial limDen e.env fn a.extra _ he w w₀ o₀ k1 h hi
        exact ⟨q1, by rw [← k4]; exact q2⟩)
      simp only [amplitude, Script.harmonic, k2, toField, hinv, bind, Except.bind, a1, pure, Except.pure]
  obtain ⟨amp, hamp, na, sa⟩ := hnoise
  obtain ⟨A, hA, hA1, hA2⟩ := figure_ok hr hreg hbuild hgo hL amp hamp fig h1 _ rfl R hR (expansion (Y o.spin) a.bandlimit fig.coefficients) hB
    part hpart (fun _ _ => true) (fun _ _ => rfl)
  have hann : s.annotations = true ↔ a.outline = false := hr.annotations
  refine ⟨c₁, c₂, fig.coefficients, fig.annotation, A, h2, h4, fun x hx => (h5 x hx).2, h6, by rw [← hann]; exact h8, ?_, ?_, fun h => hA1 (na h),
    fun h => ?_⟩
  · rw [← hr.alpha, ← hr.beta]
    exact h9
  · rw [hname] at hA
    exact hA
  · obtain ⟨B, o₀, w₀, b1, b2, b3⟩ := sa h
    rw [hA2 B b1]
    exact ⟨o₀, w₀, b2, b3⟩

/-! ### Slepian functions -/

private theorem length_broadcast {op : ℂ → ℂ → ℂ} {x y z : List ℂ} {n : ℕ} (h : NumPy.broadcast op x y = .ok z) (hx : n ≤ x.length)
    (hy : n ≤ y.length) : n ≤ z.length := by
  unfold NumPy.broadcast at h
  split at h
  · cases h; simp; omega
  · split at h
    · cases h; simpa using hy
    · cases h; simpa using hx
    · cases h

private theorem sconstruct_noise {L : ℕ} {Pix : Type} [Fintype Pix] {limDen : ℚ → ℚ} {e : SEnv L Pix} {fn : SFn}
    {extra : Option (List ℤ)} {noise : Option ℚ} {smoothing : Option ℤ} {w w' : Noise.World} {o : Functions.Obj}
    (h : fn.construct limDen e extra noise smoothing w = .ok (o, w')) :
    o.L = L ∧ o.spin = 0 ∧ o.reality = false ∧ (noise = none → o.unnoised = none) ∧ (noise ≠ none → ∃ o₀ w₀,
      fn.construct limDen e extra none smoothing w = .ok (o₀, w₀) ∧ o.unnoised = some o₀.coefficients ∧
      ∃ (q : ℚ) (n : List ℂ) (w₃ w₄ : Noise.World), Noise.createSlepianNoise e.env.normals
            (Transform.slepianInverse e.slepian.sl e.slepian.synth) e.slepian.sshtForward
            (fun nlm => Transform.slepianForward e.slepian.sl e.slepian.synth e.slepian.weight { flm := some (Functions.asVec L nlm) } none) L
            o₀.coefficients q w₃ = .ok (n, w₄) ∧ NumPy.broadcast (· + ·) o₀.coefficients n = .ok o.coefficients) := by
  unfold SFn.construct at h ⊢
  cases h1 : fn.setupArgs e.env.jMax L extra with
  | error x => rw [h1] at h; cases h
  | ok fn' =>
    rw [h1] at h
    simp only [bind, Except.bind] at h ⊢
    split at h
    · cases h
    rename_i v hv
    have hvo : v = (o, w') := by
      split at h
      · split at h
        · cases h
        · simpa [pure, Except.pure] using h
      · simpa [pure, Except.pure] using h
    subst hvo
    simp only [Functions.fp, Functions.fpNoise] at hv ⊢
    obtain ⟨k1, k2, k0, k3, k4⟩ := postInit_noise hv
    refine ⟨k1, k2, k0, k3, fun hn => ?_⟩
    obtain ⟨o₀, w₀, j1, j2, -, -, j3⟩ := k4 hn
    refine ⟨o₀, w₀, ?_, j2, j3⟩
    rw [j1]
    dsimp only
    cases hx : fn'.expects with
    | none => rfl
    | some x =>
      rw [hx] at h
      dsimp only at h ⊢
      cases hc : checkRegion x e.region.nameEnding with
      | error y => rw [hc] at h; cases h
      | ok u => rfl

private theorem region_or {e : SphereEnv} {region : Option Region.Obj} {r : Region.Obj} (h : regionOr e.defaultRegion region = .ok r) :
    region = some r ∨ region = none ∧ e.defaultRegion = .ok r := by
  cases region with
  | some r' => cases h; exact .inl rfl
  | none => exact .inr ⟨rfl, h⟩

private theorem slepian_build {limDen : ℚ → ℚ} {e : SphereEnv} {L : ℕ} {fn : AnyFn} (hfn : ∀ f, fn ≠ .harmonic f)
    {extra : Option (List ℤ)} {region : Option Region.Obj} {noise : Option ℚ} {smoothing : Option ℤ} {w w₁ : Noise.World} {f : Made L}
    (hb : build limDen e L fn extra region noise smoothing w = .ok (f, w₁)) :
    ∃ S r o, f = ⟨Script.slepian S.env S.pixel o, some (S, r)⟩ ∧ (region = some r ∨ region = none ∧ e.defaultRegion = .ok r) ∧
      e.slepian L r = .ok S ∧ o.L = L ∧ o.spin = 0 ∧ o.reality = false ∧ (noise = none → o.unnoised = none) ∧
      (noise ≠ none → ∃ o₀ w₀, build limDen e L fn extra region none smoothing w =
          .ok (⟨Script.slepian S.env S.pixel o₀, some (S, r)⟩, w₀) ∧ o.unnoised = some o₀.coefficients ∧
        ∃ (q : ℚ) (n : List ℂ) (w₃ w₄ : Noise.World), Noise.createSlepianNoise e.env.normals
            (Transform.slepianInverse S.env.sl S.env.synth) S.env.sshtForward
            (fun nlm => Transform.slepianForward S.env.sl S.env.synth S.env.weight { flm := some (Functions.asVec L nlm) } none) L
            o₀.coefficients q w₃ = .ok (n, w₄) ∧ NumPy.broadcast (· + ·) o₀.coefficients n = .ok o.coefficients) := by
  cases fn with
  | harmonic f => exact absurd rfl (hfn f)
  | slepian rank =>
    unfold build at hb ⊢
    simp only at hb ⊢
    cases h1 : Ranks.checkRank rank with
    | error x => rw [h1] at hb; cases hb
    | ok _ =>
    rw [h1] at hb
    cases h2 : Ranks.validateSlepian L extra with
    | error x => rw [h2] at hb; cases hb
    | ok _ =>
    rw [h2] at hb
    simp only [bind, Except.bind] at hb ⊢
    split at hb
    · cases hb
    rename_i r h3
    cases h4 : e.slepian L r with
    | error x => rw [h4] at hb; cases hb
    | ok S =>
    rw [h4] at hb
    dsimp only at hb
    unfold slepianObject at hb
    cases h5 : Ranks.setupRank rank extra with
    | error x => rw [h5] at hb; cases hb
    | ok rk =>
    rw [h5] at hb
    simp only [bind, Except.bind] at hb
    cases h6 : slepianName e.fmt r.nameEnding S rk.toNat with
    | error x => rw [h6] at hb; cases hb
    | ok name =>
    rw [h6] at hb
    simp only [Functions.fp, Functions.fpNoise] at hb
    split at hb
    · cases hb
    rename_i p hp
    simp only [pure, Except.pure, Except.ok.injEq, Prod.mk.injEq] at hb
    obtain ⟨rfl, rfl⟩ := hb
    obtain ⟨k1, k2, k0, k3, k4⟩ := postInit_noise (o := p.1) (w' := p.2) hp
    refine ⟨S, r, p.1, rfl, region_or h3, h4, k1, k2, k0, k3, fun h => ?_⟩
    obtain ⟨o₀, w₀, j1, j2, -, -, j3⟩ := k4 h
    refine ⟨o₀, w₀, ?_, j2, j3⟩
    simp only [slepianObject, bind, Except.bind, h5, h6, Functions.fp, Functions.fpNoise]
    rw [j1]
    rfl
  | slepianFn f =>
    unfold build at hb ⊢
    simp only [bind, Except.bind] at hb ⊢
    split at hb
    · cases hb
    rename_i r h3
    cases h4 : e.slepian L r with
    | error x => rw [h4] at hb; cases hb
    | ok S =>
    rw [h4] at hb
    dsimp only at hb
    split at hb
    · cases hb
    rename_i p hp
    simp only [pure, Except.pure, Except.ok.injEq, Prod.mk.injEq] at hb
    obtain ⟨rfl, rfl⟩ := hb
    obtain ⟨k1, k2, k3, k4, k5⟩ := sconstruct_noise (o := p.1) (w' := p.2) hp
    refine ⟨S, r, p.1, rfl, region_or h3, h4, k1, k2, k3, k4, fun h => ?_⟩
    obtain ⟨o₀, w₀, j1, j2, j3⟩ := k5 h
    refine ⟨o₀, w₀, ?_, j2, j3⟩
    rw [j1]
    rfl

/-- The function with given Slepian coefficients: the sum of the first `N` Slepian functions, each the expansion of its eigenvector. -/
noncomputable def slepianExpansion (Y : ℕ → ℝ → ℝ → ℂ) {L : ℕ} (sl : Transform.Slepian (L ^ 2)) (c : List ℂ) (θ φ : ℝ) : ℂ :=
  ∑ p ∈ Finset.range sl.N, c.getD p 0 * ∑ i : Fin (L ^ 2), sl.evecs.getD p (fun _ => 0) i * Y i θ φ

/-- What is assumed of the Slepian object of a region: the eigenvectors are there, `ssht.inverse` evaluates them on the grid, and there
is a generating function for each rank. -/
structure GoodSlepian (e : SphereEnv) {L : ℕ} (S : SlepianOf L) (Y : ℤ → ℕ → ℝ → ℝ → ℂ) : Prop where
  rows : HasRows S.env.sl
  synth : ∀ v x, S.env.synth v x = ∑ i : Fin (L ^ 2), v i * Y 0 i (x.1 * π / L) (x.2 * π / L)
  kappas : ∀ B jMin, ∀ k ∈ e.env.kappas (L ^ 2) B jMin, k.length = L ^ 2

theorem inverse_ok {L : ℕ} {e : SphereEnv} {S : SlepianOf L} {Y : ℤ → ℕ → ℝ → ℝ → ℂ} (h : GoodSlepian e S Y) (c : List ℂ)
    (hc : S.env.sl.N ≤ c.length) : Transform.slepianInverse S.env.sl S.env.synth c =
      .ok fun x => slepianExpansion (Y 0) S.env.sl c (x.1 * π / L) (x.2 * π / L) := by
  have hrow : ∀ p : Fin S.env.sl.N, S.env.sl.evecs[(p : ℕ)]? = some (S.env.sl.evecs.getD p fun _ => 0) := by
    intro p
    have hp : (p : ℕ) < S.env.sl.evecs.length := lt_of_lt_of_le p.2 h.rows.2
    rw [List.getD_eq_getElem?_getD, List.getElem?_eq_getElem hp]
    rfl
  have h1 := Transform.slepianInverse_ok S.env.sl S.env.synth _ rfl hrow fun p => c.getD p 0
  have h2 : Transform.slepianInverse S.env.sl S.env.synth c =
      Transform.slepianInverse S.env.sl S.env.synth (List.ofFn fun p : Fin S.env.sl.N => c.getD p 0) := by
    unfold Transform.slepianInverse
    have : c.take S.env.sl.N = (List.ofFn fun p : Fin S.env.sl.N => c.getD p 0).take S.env.sl.N := by
      apply List.ext_getElem
      · simp; omega
      · intro i h1 h2
        simp only [List.length_take] at h1
        have : i < c.length := by omega
        simp [List.getD_eq_getElem?_getD, this]
    rw [this]
  rw [h2, h1]
  congr 1
  funext x
  unfold slepianExpansion
  rw [Finset.sum_range fun p => c.getD p 0 * ∑ i : Fin (L ^ 2), S.env.sl.evecs.getD p (fun _ => 0) i * Y 0 i (x.1 * π / L) (x.2 * π / L)]
  refine Finset.sum_congr rfl fun p _ => ?_
  rw [h.synth]

/-- the harmonic coefficients of a sum of Slepian functions. -/
theorem slepian_as_harmonic (Y : ℕ → ℝ → ℝ → ℂ) {L : ℕ} (sl : Transform.Slepian (L ^ 2)) (c : List ℂ) :
    ∃ d : List ℂ, d.length = L ^ 2 ∧ ∀ θ φ, slepianExpansion Y sl c θ φ = expansion Y L d θ φ := by
  refine ⟨List.ofFn fun i : Fin (L ^ 2) => ∑ p ∈ Finset.range sl.N, c.getD p 0 * sl.evecs.getD p (fun _ => 0) i, by simp, fun θ φ => ?_⟩
  unfold slepianExpansion expansion
  rw [Finset.sum_range fun i => (List.ofFn fun i : Fin (L ^ 2) => ∑ p ∈ Finset.range sl.N, c.getD p 0 *
    sl.evecs.getD p (fun _ => 0) i).getD i 0 * Y i θ φ]
  have : ∀ i : Fin (L ^ 2), (List.ofFn fun i : Fin (L ^ 2) => ∑ p ∈ Finset.range sl.N, c.getD p 0 *
      sl.evecs.getD p (fun _ => 0) i).getD i 0 = ∑ p ∈ Finset.range sl.N, c.getD p 0 * sl.evecs.getD p (fun _ => 0) i := by
    intro i
    simp [List.getD_eq_getElem?_getD]
  simp only [this, Finset.mul_sum, Finset.sum_mul]
  rw [Finset.sum_comm]
  refine Finset.sum_congr rfl fun i _ => Finset.sum_congr rfl fun p _ => ?_
  ring

private theorem clean_length {limDen : ℚ → ℚ} {e : SphereEnv} {L : ℕ} (hL : 1 ≤ L) {fn : AnyFn} {extra : Option (List ℤ)}
    {region : Option Region.Obj} {smoothing : Option ℤ} {w w₁ : Noise.World} {S : SlepianOf L} {r : Region.Obj} {o : Functions.Obj}
    {Y : ℤ → ℕ → ℝ → ℝ → ℂ} (hS : GoodSlepian e S Y) (hr : region = some r ∨ region = none ∧ e.defaultRegion = .ok r)
    (hSr : e.slepian L r = .ok S) (hfn : ∀ f, fn ≠ .harmonic f)
    (hb : build limDen e L fn extra region none smoothing w = .ok (⟨Script.slepian S.env S.pixel o, some (S, r)⟩, w₁)) :
    S.env.sl.N ≤ o.coefficients.length := by
  have hro : regionOr e.defaultRegion region = .ok r := by
    rcases hr with rfl | ⟨rfl, h⟩
    · rfl
    · exact h
  have hobj : ∀ o' : Functions.Obj, (Script.slepian S.env S.pixel o') = Script.slepian S.env S.pixel o → o' = o := by
    intro o' h
    exact congrArg Script.Target.obj h
  cases fn with
  | harmonic f => exact absurd rfl (hfn f)
  | slepian rank =>
    unfold build at hb
    simp only at hb
    cases h1 : Ranks.checkRank rank with
    | error x => rw [h1] at hb; cases hb
    | ok _ =>
    rw [h1] at hb
    cases h2 : Ranks.validateSlepian L extra with
    | error x => rw [h2] at hb; cases hb
    | ok _ =>
    rw [h2] at hb
    simp only [bind, Except.bind] at hb
    rw [hro] at hb
    dsimp only at hb
    rw [hSr] at hb
    dsimp only at hb
    split at hb
    · cases hb
    rename_i p hp
    simp only [pure, Except.pure, Except.ok.injEq, Prod.mk.injEq] at hb
    have e1 : p.1 = o := hobj _ (congrArg Made.target hb.1)
    rw [← e1]
    unfold slepianObject at hp
    simp only [bind, Except.bind] at hp
    split at hp
    · cases hp
    split at hp
    · cases hp
    simp only [Functions.fp, Functions.postInit, Functions.fpNoise, Functions.addNoiseWith, bind, Except.bind] at hp
    split at hp
    · cases hp
    rename_i q hq
    simp only [pure, Except.pure, Except.ok.injEq] at hp
    rw [← hp]
    split at hq
    · cases hq
    rename_i v hv
    have hrow : ∀ p : Fin S.env.sl.N, S.env.sl.evecs[(p : ℕ)]? = some (S.env.sl.evecs.getD p fun _ => 0) := by
      intro p
      have hp : (p : ℕ) < S.env.sl.evecs.length := lt_of_lt_of_le p.2 hS.rows.2
      rw [List.getD_eq_getElem?_getD, List.getElem?_eq_getElem hp]
      rfl
    rw [forward_flm S.env.sl S.env.synth S.env.weight _ rfl hS.rows.1 hrow v] at hq
    simp only [pure, Except.pure, Except.ok.injEq] at hq
    rw [← hq]
    simp
  | slepianFn f =>
    unfold build at hb
    simp only [bind, Except.bind] at hb
    rw [hro] at hb
    dsimp only at hb
    rw [hSr] at hb
    dsimp only at hb
    split at hb
    · cases hb
    rename_i p hp
    simp only [pure, Except.pure, Except.ok.injEq, Prod.mk.injEq] at hb
    have e1 : p.1 = o := hobj _ (congrArg Made.target hb.1)
    rw [← e1]
    have hgood : GoodSEnv (S.senv e.env r) := by
      refine ⟨hS.rows, ?_, hS.kappas⟩
      intro h
      have h2 : 0 < (L + 1) * (2 * L) := by positivity
      have h3 := Plot.flatten_rows_length fun (t : Fin (L + 1)) (p : Fin (2 * L)) => ((t, p) : Pix L)
      have h4 : (Plot.rows fun (t : Fin (L + 1)) (p : Fin (2 * L)) => ((t, p) : Pix L)).flatten.length = 0 := congrArg List.length h
      omega
    have hc := C72_counts limDen (S.senv e.env r) hgood f extra smoothing w p.2 p.1 hp
    by_cases ha : AllFunctions f
    · rw [hc.1 ha]; exact hS.rows.1
    · exact (hc.2 ha).ge

private theorem plot_reality {limDen : ℚ → ℚ} {S : Masks.Sphere} {f : Script.Target} {g : Option Functions.Obj} {s : Script.Args}
    {fig : Script.Figure} (hf : f.obj.reality = false) (h : Script.plot limDen S f g s = .ok fig) : fig.reality = false := by
  have htr : ∀ x, (Functions.translate f.obj x f.shannon).2 = false := by
    intro x
    unfold Functions.translate
    split
    · exact hf
    · split
      · exact hf
      · rfl
  have hm : ∀ x, Script.applyMethod limDen f s = .ok x → x.2.1 = false := by
    intro x hx
    unfold Script.applyMethod at hx
    split at hx
    · cases hx; exact hf
    · simp only [bind, Except.bind] at hx
      split at hx
      · cases hx
      · cases hx; exact hf
    · simp only [bind, Except.bind] at hx
      split at hx
      · cases hx
      · rename_i v hv
        cases hx
        simp only [Script.translationHelper, bind, Except.bind] at hv
        split at hv
        · cases hv
        split at hv
        · cases hv
        cases hv
        exact htr _
  unfold Script.plot at h
  simp only [bind, Except.bind] at h
  split at h
  · cases h
  rename_i x hx
  split at h
  · cases h
  rename_i y hy
  cases h
  dsimp only
  unfold Script.applyConvolution at hy
  split at hy
  · cases hy; exact hm x hx
  · simp only [Script.convolutionHelper, bind, Except.bind] at hy
    split at hy
    · cases hy
    split at hy
    · cases hy
    cases hy
    rfl

/-- C85.  Plots of Slepian functions: the picture is that of the sum of the first `N` Slepian functions with the coefficients after the
method and the convolution, with everything outside the region's mask hidden.  (Rotation is not implemented, C75; figures named after
the Earth rotate these coefficients as if they were harmonic ones, C75, and are excepted here.) -/
theorem C85_slepian (limDen : ℚ → ℚ) (e : SphereEnv) (a : Args) (w w₁ w₂ : Noise.World) (fn : AnyFn) (hfn : ∀ f, fn ≠ .harmonic f)
    (g : Option Fn) (s : Script.Args) (type : String) (hr : Reads a fn g s type) (region : Option Region.Obj)
    (hreg : RegionOf e a region) (Y : ℤ → ℕ → ℝ → ℝ → ℂ) (hL : 1 ≤ a.bandlimit) (hY : GoodTransforms e a.bandlimit Y)
    (S : SlepianOf a.bandlimit) (hS : GoodSlepian e S Y) (r : Region.Obj) (o : Functions.Obj)
    (hb : build limDen e a.bandlimit fn a.extra region (noiseOf a) a.smoothing w =
      .ok (⟨Script.slepian S.env S.pixel o, some (S, r)⟩, w₁))
    (go : Option Functions.Obj) (hgo : MapMade limDen e a.bandlimit g go w₁ w₂) (hm : s.method ≠ .rotate)
    (hne : Functions.contains "earth" (o.name ++ methodName limDen s ++ convolvedName go) = false) (R : ℕ)
    (hR : R = if a.unzeropad then a.bandlimit else Plot.calcPlotResolution a.bandlimit) (part : ℂ → ℝ)
    (hpart : (type, part) ∈ plotParts) (m : Masks.Mask) (st : Masks.Store)
    (hmask : Masks.maskRegion e.env.S R r e.env.store = .ok (m, st)) (hshape : m.shape = (R + 1, 2 * R)) :
    e.defaultRegion = .ok r ∧ e.slepian a.bandlimit r = .ok S ∧
    ∃ (c₁ c : List ℂ) (points : List (ℝ × ℝ)) (A : ℝ),
      SlepianMethod S.env S.pixel a.bandlimit o.name o.coefficients s c₁ ∧
      (go = none → c = c₁) ∧
      (∀ x, go = some x → ∀ (p : ℕ) (v : Fin (a.bandlimit ^ 2) → ℂ), p < S.env.sl.N → S.env.sl.evecs[p]? = some v →
        c.getD p 0 = (∑ i : Fin (a.bandlimit ^ 2), x.coefficients.getD i 0 * (starRingEnd ℂ) (v i)) * (starRingEnd ℂ) (c₁.getD p 0)) ∧
      (points = [] ↔ ¬ (s.method = .translate ∧ a.outline = false)) ∧
      FigureOf limDen e a w w₂ R type part (slepianExpansion (Y 0) S.env.sl c) m.val
        (o.name ++ methodName limDen s ++ convolvedName go) points A ∧
      (a.noise = none → IsGreatest ((fun x => |x|) '' samples R part (slepianExpansion (Y 0) S.env.sl c)) A) ∧
      (a.noise ≠ none → ∃ o₀ w₀, build limDen e a.bandlimit fn a.extra region none a.smoothing w =
          .ok (⟨Script.slepian S.env S.pixel o₀, some (S, r)⟩, w₀) ∧
        IsGreatest (samples a.bandlimit (fun z => ‖z‖) (slepianExpansion (Y 0) S.env.sl o₀.coefficients)) A) := by
  obtain ⟨S', r', o', hf, hrr, hSr, hoL, hspin, hreal, hn1, hn2⟩ := slepian_build hfn hb
  have hfs := congrArg Made.slepian hf
  have hft := congrArg Made.target hf
  simp only [Option.some.injEq, Prod.mk.injEq] at hfs
  obtain ⟨rfl, rfl⟩ := hfs
  have hoo : o = o' := congrArg Script.Target.obj hft
  subst hoo
  have hdef : e.defaultRegion = .ok r := by
    rcases hrr with rfl | ⟨-, h⟩
    · rcases hreg with ⟨-, h⟩ | ⟨x, -, h, h'⟩
      · cases h
      · cases h'; exact h
    · exact h
  have hlen : S.env.sl.N ≤ o.coefficients.length := by
    cases hno : noiseOf a with
    | none => rw [hno] at hb; exact clean_length hL hS hrr hSr hfn hb
    | some q =>
      obtain ⟨o₀, w₀, k1, k2, q, n, w₃, w₄, k3, k4⟩ := hn2 (by simp [hno])
      have l0 := clean_length hL hS hrr hSr hfn k1
      obtain ⟨n', hn', hall⟩ := fp_noise e.env.normals S.env hS.rows o₀.coefficients l0 (q : ℝ)
      rw [hall] at k3
      cases k3
      exact length_broadcast k4 l0 hn'.ge
  obtain ⟨c₁, c₂, fig, h1, h2, h3, h4, h5, h6, h8⟩ := C75_slepian limDen e.env.S S.env hS.rows S.pixel o go s (by omega) hlen hm
  rw [hoL] at h2
  have hname := C75_filename limDen e.env.S _ go s fig h1
  have hno : (Script.slepian S.env S.pixel o).obj.name = o.name := rfl
  rw [hno, hne] at hname
  simp only [Bool.false_eq_true, false_and, if_false, String.append_empty] at hname
  have hc : fig.coefficients = c₂ := h6.1 hne
  have hclen : S.env.sl.N ≤ c₂.length := by
    cases go with
    | none => rw [h4 rfl]; exact h3
    | some x => exact (h5 x rfl).1.ge
  obtain ⟨d, hd1, hd2⟩ := slepian_as_harmonic (Y 0) S.env.sl c₂
  have hfield : ∀ reality, toField e (⟨Script.slepian S.env S.pixel o, some (S, r)⟩ : Made a.bandlimit) reality fig.coefficients =
      .ok (e.inverse false 0 a.bandlimit d) := by
    intro reality
    rw [hc]
    simp only [toField, inverse_ok hS c₂ hclen, Except.map]
    rw [hY.inverse false 0 a.bandlimit d hL hd1 (by simp)]
    simp only [toRows, Plot.rows, hd2]
  have hfr : fig.reality = false := plot_reality hreal h1
  have hR' : R = if (!a.unzeropad) then Plot.calcPlotResolution a.bandlimit else a.bandlimit := by
    rw [hR]; cases a.unzeropad <;> rfl
  have hB := boost_ok hY hL false 0 d hd1 (by simp) (!a.unzeropad) R hR'
  simp only [← hd2] at hB
  have hnoise : ∃ amp, amplitude e (⟨Script.slepian S.env S.pixel o, some (S, r)⟩ : Made a.bandlimit) = .ok amp ∧
      (a.noise = none → amp = none) ∧ (a.noise ≠ none → ∃ A o₀ w₀, amp = some A ∧
        build limDen e a.bandlimit fn a.extra region none a.smoothing w = .ok (⟨Script.slepian S.env S.pixel o₀, some (S, r)⟩, w₀) ∧
        IsGreatest (samples a.bandlimit (fun z => ‖z‖) (slepianExpansion (Y 0) S.env.sl o₀.coefficients)) A) := by
    cases hno : a.noise with
    | none =>
      refine ⟨none, ?_, fun _ => rfl, fun h => absurd rfl h⟩
      have : o.unnoised = none := hn1 (by simp [noiseOf, hno])
      simp only [amplitude, Script.slepian, this]
    | some n =>
      obtain ⟨o₀, w₀, k1, k2, -⟩ := hn2 (by simp [noiseOf, hno])
      have l0 := clean_length hL hS hrr hSr hfn k1
      obtain ⟨A, a1, a2⟩ := norm_greatest a.bandlimit hL (slepianExpansion (Y 0) S.env.sl o₀.coefficients)
      refine ⟨some A, ?_, by simp, fun _ => ⟨A, o₀, w₀, rfl, k1, a2⟩⟩
      have e1 : (toRows fun x : Pix a.bandlimit => slepianExpansion (Y 0) S.env.sl o₀.coefficients (x.1 * π / a.bandlimit)
          (x.2 * π / a.bandlimit)) = Plot.rows fun (t : Fin (a.bandlimit + 1)) (p : Fin (2 * a.bandlimit)) =>
          slepianExpansion (Y 0) S.env.sl o₀.coefficients (t * π / a.bandlimit) (p * π / a.bandlimit) := rfl
      simp only [amplitude, Script.slepian, k2, toField, inverse_ok hS o₀.coefficients l0, bind, Except.bind, Except.map, e1, a1, pure,
        Except.pure]
  obtain ⟨amp, hamp, na, sa⟩ := hnoise
  obtain ⟨A, hA, hA1, hA2⟩ := figure_ok hr hreg hb hgo hL amp hamp fig h1 _ (hfield _) R hR (slepianExpansion (Y 0) S.env.sl c₂)
    (by rw [hfr]; simp only [Script.slepian, hspin]; exact hB) part hpart m.val ⟨m, st, hmask, hshape, fun _ _ => rfl⟩
  have hann : s.annotations = true ↔ a.outline = false := hr.annotations
  refine ⟨hdef, hSr, c₁, c₂, fig.annotation, A, h2, h4, fun x hx => (h5 x hx).2, by rw [← hann]; exact h8, ?_, fun h => hA1 (na h),
    fun h => ?_⟩
  · rw [hname] at hA
    exact hA
  · obtain ⟨B, o₀, w₀, b1, b2, b3⟩ := sa h
    rw [hA2 B b1]
    exact ⟨o₀, w₀, b2, b3⟩

/-- C85.  The flag `-o` only removes the annotations. -/
theorem C85_outline (limDen : ℚ → ℚ) (e : SphereEnv) (a : Args) (w : Noise.World) :
    main limDen e { a with outline := true } w =
      (main limDen e { a with outline := false } w).map fun x => (x.1.map fun s => { s with annotation := [] }, x.2) := by
  have hplot : ∀ (f : Script.Target) (g : Option Functions.Obj) (x y z : ℚ) (m : Script.Method) (v : Script.View),
      Script.plot limDen e.env.S f g ⟨x, y, z, false, m, v⟩ =
        (Script.plot limDen e.env.S f g ⟨x, y, z, true, m, v⟩).map fun fig => { fig with annotation := [] } := by
    intro f g x y z m v
    have hm : Script.applyMethod limDen f ⟨x, y, z, false, m, v⟩ =
        (Script.applyMethod limDen f ⟨x, y, z, true, m, v⟩).map fun r => (r.1, r.2.1, r.2.2.1, []) := by
      unfold Script.applyMethod
      cases m with
      | north => rfl
      | rotate =>
        simp only [Script.rotationHelper, bind, Except.bind]
        cases Plot.calcNearestGridPoint f.obj.L x y with
        | error _ => rfl
        | ok p =>
          dsimp only
          cases f.rotate p.1 p.2 ((z : ℝ) * π) <;> rfl
      | translate =>
        simp only [Script.translationHelper, bind, Except.bind]
        cases Plot.calcNearestGridPoint f.obj.L x y with
        | error _ => rfl
        | ok p =>
          dsimp only
          cases (Functions.translate f.obj (f.helper p.1 p.2) f.shannon).1 <;> rfl
    unfold Script.plot
    rw [hm]
    cases Script.applyMethod limDen f ⟨x, y, z, true, m, v⟩ with
    | error _ => rfl
    | ok r =>
      simp only [bind, Except.bind, Except.map]
      cases Script.applyConvolution f g r.1 r.2.1 r.2.2.1 <;> rfl
  have hdisplay : ∀ {L : ℕ} (f : Made L) (fig : Script.Figure) (amp : Option ℝ) (n : Bool) (t : String) (u : Bool),
      display e f { fig with annotation := [] } amp n t u =
        (display e f fig amp n t u).map fun x => x.map fun s => { s with annotation := [] } := by
    intro L f fig amp n t u
    unfold display
    simp only [bind, Except.bind]
    cases toField e f fig.reality fig.coefficients with
    | error _ => rfl
    | ok field =>
      dsimp only
      split
      · rfl
      · split
        · rfl
        · rename_i x _
          cases x <;> rfl
  unfold main
  have hread : readArgs { a with outline := true } = readArgs { a with outline := false } := rfl
  rw [hread]
  cases readArgs { a with outline := false } with
  | error _ => rfl
  | ok p =>
    simp only [bind, Except.bind]
    cases (if a.region = true then Except.map some e.defaultRegion else Except.ok none : Except Err (Option Region.Obj)) with
    | error _ => rfl
    | ok mask =>
    dsimp only
    cases Strings.lookup Strings.COEFFICIENTS "" p.function with
    | error _ => rfl
    | ok cls =>
    dsimp only
    cases classNamed cls with
    | error _ => rfl
    | ok fn =>
    dsimp only
    cases build limDen e a.bandlimit fn a.extra mask (a.noise.map fun x : ℤ => (x : ℚ)) a.smoothing w with
    | error _ => rfl
    | ok f =>
    dsimp only
    cases otherMap limDen e a.bandlimit p.convolve f.2 with
    | error _ => rfl
    | ok g =>
    dsimp only
    cases amplitude e f.1 with
    | error _ => rfl
    | ok amp =>
    simp only [Bool.not_true, Bool.not_false]
    rw [hplot]
    cases Script.plot limDen e.env.S f.1.target g.1 ⟨a.alpha, a.beta, a.gamma, true, p.method, p.view⟩ with
    | error _ => rfl
    | ok fig =>
      simp only [Except.map]
      rw [hdisplay]
      cases display e f.1 fig amp (!a.unnormalise) p.type (!a.unzeropad) <;> rfl

/-- C85 (violated).  The flag `-r` "masks the function for a region".  Of a Slepian function it changes nothing at all. -/
theorem C85_region_violation_slepian (limDen : ℚ → ℚ) (e : SphereEnv) (a : Args) (w : Noise.World) (fn : AnyFn)
    (hfn : ∀ f, fn ≠ .harmonic f) (g : Option Fn) (s : Script.Args) (type : String) (hr : Reads a fn g s type) (r : Region.Obj)
    (hd : e.defaultRegion = .ok r) : main limDen e { a with region := true } w = main limDen e { a with region := false } w := by
  have hb : ∀ noise smoothing, build limDen e a.bandlimit fn a.extra (some r) noise smoothing w =
      build limDen e a.bandlimit fn a.extra none noise smoothing w := by
    intro noise smoothing
    cases fn with
    | harmonic f => exact absurd rfl (hfn f)
    | slepian rank => simp only [build, regionOr, hd]
    | slepianFn f => simp only [build, regionOr, hd]
  obtain ⟨-, h2, h3⟩ := function_ok _ hr.function
  simp only at h2 h3
  have hread : readArgs { a with region := true } = readArgs a := rfl
  have hread' : readArgs { a with region := false } = readArgs a := rfl
  simp only [main, hread, hread', read_ok hr, bind, Except.bind, hd, Except.map, if_true, Bool.false_eq_true, if_false, h2, h3, hb]

private theorem plot_content {limDen : ℚ → ℚ} {S : Masks.Sphere} {ylm : ℝ → ℝ → List ℂ} {o : Functions.Obj} {n : String}
    {g : Option Functions.Obj} {s : Script.Args} (hd : Functions.contains "dirac_delta" n = Functions.contains "dirac_delta" o.name)
    (he : Functions.contains "earth" (n ++ methodName limDen s ++ convolvedName g) =
      Functions.contains "earth" (o.name ++ methodName limDen s ++ convolvedName g)) :
    ∃ f : Script.Figure → String, Script.plot limDen S (Script.harmonic S ylm { o with name := n }) g s =
      (Script.plot limDen S (Script.harmonic S ylm o) g s).map fun fig => { fig with filename := f fig } := by
  have key : ∀ x y : Except Err Script.Figure, x.map (fun fig => (fig.coefficients, fig.reality, fig.annotation)) =
      y.map (fun fig => (fig.coefficients, fig.reality, fig.annotation)) → ∃ f : Script.Figure → String, x = y.map fun fig => { fig with filename := f fig } := by
    intro x y h
    cases x with
    | error x =>
      cases y with
      | error y => cases h; exact ⟨fun _ => "", rfl⟩
      | ok y => cases h
    | ok x =>
      cases y with
      | error y => cases h
      | ok y =>
        refine ⟨fun _ => x.filename, ?_⟩
        simp only [Except.map, Except.ok.injEq, Prod.mk.injEq] at h ⊢
        obtain ⟨x1, x2, x3, x4⟩ := x
        simp only at h ⊢
        obtain ⟨rfl, rfl, rfl⟩ := h
        rfl
  apply key
  have hm : ∀ x : Functions.Obj, Functions.contains "dirac_delta" x.name = Functions.contains "dirac_delta" o.name →
      x.L = o.L → x.coefficients = o.coefficients → x.reality = o.reality →
      Script.applyMethod limDen (Script.harmonic S ylm x) s = (Script.applyMethod limDen (Script.harmonic S ylm o) s).map fun r =>
        (r.1, r.2.1, x.name ++ methodName limDen s, r.2.2.2) := by
    intro x h1 h2 h3 h4
    unfold Script.applyMethod methodName
    cases s.method with
    | north => simp [Script.harmonic, h3, h4, Except.map]
    | rotate =>
      simp only [Script.rotationHelper, bind, Except.bind, Script.harmonic, h2, h3, h4]
      cases Plot.calcNearestGridPoint o.L s.alpha s.beta with
      | error _ => rfl
      | ok p => simp [Except.map, pure, Except.pure, String.append_assoc]
    | translate =>
      simp only [Script.translationHelper, bind, Except.bind, Script.harmonic, h2]
      cases Plot.calcNearestGridPoint o.L s.alpha s.beta with
      | error _ => rfl
      | ok p =>
        have ht : ∀ y, Functions.translate x y none = Functions.translate o y none := by
          intro y
          unfold Functions.translate
          cases y with
          | error _ => simp only [h4]
          | ok _ => simp only [h1, h3, h4]
        dsimp only
        rw [ht]
        cases (Functions.translate o (Functions.flmHelper ylm p.1 p.2) none).1 with
        | error _ => rfl
        | ok _ => simp [Except.map, pure, Except.pure, String.append_assoc]
  have h1 := hm { o with name := n } hd rfl rfl rfl
  have h2 := hm o rfl rfl rfl rfl
  unfold Script.plot
  rw [h1, h2]
  cases Script.applyMethod limDen (Script.harmonic S ylm o) s with
  | error _ => rfl
  | ok r =>
    simp only [Except.map, bind, Except.bind]
    have hv : ∀ (L : ℕ) (c : List ℂ) (n n' : String), Functions.contains "earth" n = Functions.contains "earth" n' →
        (Script.applyView S L c n s.view).1 = (Script.applyView S L c n' s.view).1 := by
      intro L c n n' h
      unfold Script.applyView
      rw [h]
      split
      · cases s.view <;> rfl
      · rfl
    cases g with
    | none =>
      simp only [convolvedName, String.append_empty] at he
      simp only [Script.applyConvolution, pure, Except.pure, hv _ _ _ _ he]
      rfl
    | some g =>
      simp only [convolvedName] at he
      simp only [Script.applyConvolution, Script.convolutionHelper, Script.harmonic, bind, Except.bind]
      cases (Functions.convolve g.coefficients r.1 none).1 with
      | error _ => rfl
      | ok c =>
        simp only [pure, Except.pure, String.append_assoc] at he ⊢
        simp only [hv _ _ _ _ he]

/-- C85 (violated).  Of a harmonic function the flag `-r` only changes the name of the figure: nothing is masked.  (The region's name must
not decide whether the figure is taken for one of the Earth or of a Dirac delta.) -/
theorem C85_region_violation (limDen : ℚ → ℚ) (e : SphereEnv) (a : Args) (w w₁ w₁' : Noise.World) (fn : Fn) (g : Option Fn) (s : Script.Args)
    (type : String) (hr : Reads a (.harmonic fn) g s type) (r : Region.Obj) (hd : e.defaultRegion = .ok r) (o o' : Functions.Obj)
    (ho : fn.construct limDen e.env a.extra ⟨a.bandlimit, noiseOf a, none, a.smoothing⟩ w = .ok (o, w₁))
    (ho' : fn.construct limDen e.env a.extra ⟨a.bandlimit, noiseOf a, some r, a.smoothing⟩ w = .ok (o', w₁'))
    (go : Option Functions.Obj) (w₂ : Noise.World) (hgo : MapMade limDen e a.bandlimit g go w₁ w₂)
    (hdirac : Functions.contains "dirac_delta" o'.name = Functions.contains "dirac_delta" o.name)
    (hearth : Functions.contains "earth" (o'.name ++ methodName limDen s ++ convolvedName go) =
      Functions.contains "earth" (o.name ++ methodName limDen s ++ convolvedName go)) :
    (main limDen e { a with region := true } w).map (fun x => (x.1.map fun s => (s.colours, s.cmin, s.cmax, s.annotation), x.2)) =
      (main limDen e { a with region := false } w).map (fun x => (x.1.map fun s => (s.colours, s.cmin, s.cmax, s.annotation), x.2)) := by
  have hc : w₁' = w₁ ∧ o' = { o with name := o'.name } := by
    unfold Fn.construct at ho ho'
    simp only at ho ho'
    cases h1 : fn.setupArgs e.env.jMax a.bandlimit a.extra with
    | error x => rw [h1] at ho; cases ho
    | ok fn' =>
      rw [h1] at ho ho'
      simp only [bind, Except.bind] at ho ho'
      have := C52_region_ignored limDen e.env.normals
        { setupArgs := .ok (), name := fn'.name limDen, spin := fn'.spin, reality := fn'.reality,
          create := fn'.create e.env a.bandlimit a.smoothing } a.bandlimit (noiseOf a) a.smoothing r w
      rw [ho, ho'] at this
      simp only [Except.map, Content, Except.ok.injEq, Prod.mk.injEq] at this
      obtain ⟨⟨h1, h2, h3, h4, h5, h6⟩, h7⟩ := this
      refine ⟨h7, ?_⟩
      cases o; cases o'
      simp only at h1 h2 h3 h4 h5 h6
      subst h1 h2 h3 h4 h5 h6
      rfl
  obtain ⟨rfl, hc⟩ := hc
  have hb : build limDen e a.bandlimit (.harmonic fn) a.extra none (noiseOf a) a.smoothing w =
      .ok (⟨Script.harmonic e.env.S (e.ylm a.bandlimit) o, none⟩, w₁') := by
    simp only [build, ho, bind, Except.bind, pure, Except.pure]
  have hb' : build limDen e a.bandlimit (.harmonic fn) a.extra (some r) (noiseOf a) a.smoothing w =
      .ok (⟨Script.harmonic e.env.S (e.ylm a.bandlimit) o', none⟩, w₁') := by
    simp only [build, ho', bind, Except.bind, pure, Except.pure]
  have hr1 : Reads { a with region := true } (.harmonic fn) g s type :=
    ⟨hr.function, hr.convolve, hr.method, hr.view, hr.type, hr.alpha, hr.beta, hr.gamma, hr.annotations⟩
  have hr2 : Reads { a with region := false } (.harmonic fn) g s type :=
    ⟨hr.function, hr.convolve, hr.method, hr.view, hr.type, hr.alpha, hr.beta, hr.gamma, hr.annotations⟩
  rw [main_ok hr1 (.inr ⟨r, rfl, hd, rfl⟩) hb' hgo, main_ok hr2 (.inl ⟨rfl, rfl⟩) hb hgo]
  obtain ⟨f, hf⟩ := plot_content (limDen := limDen) (S := e.env.S) (ylm := e.ylm a.bandlimit) hdirac hearth
  rw [← hc] at hf
  have hamp : amplitude e (⟨Script.harmonic e.env.S (e.ylm a.bandlimit) o', none⟩ : Made a.bandlimit) =
      amplitude e (⟨Script.harmonic e.env.S (e.ylm a.bandlimit) o, none⟩ : Made a.bandlimit) := by
    rw [hc]; rfl
  rw [hamp]
  cases amplitude e (⟨Script.harmonic e.env.S (e.ylm a.bandlimit) o, none⟩ : Made a.bandlimit) with
  | error _ => rfl
  | ok amp =>
    simp only [bind, Except.bind, hf]
    cases Script.plot limDen e.env.S (Script.harmonic e.env.S (e.ylm a.bandlimit) o) go s with
    | error _ => rfl
    | ok fig =>
      simp only [Except.map]
      have hdisp : (display e (⟨Script.harmonic e.env.S (e.ylm a.bandlimit) o', none⟩ : Made a.bandlimit) { fig with filename := f fig } amp
          (!a.unnormalise) type (!a.unzeropad)).map (fun x => x.map fun s => (s.colours, s.cmin, s.cmax, s.annotation)) =
          (display e (⟨Script.harmonic e.env.S (e.ylm a.bandlimit) o, none⟩ : Made a.bandlimit) fig amp
          (!a.unnormalise) type (!a.unzeropad)).map (fun x => x.map fun s => (s.colours, s.cmin, s.cmax, s.annotation)) := by
        rw [hc]
        unfold display
        simp only [bind, Except.bind, toField, Script.harmonic]
        split
        · rfl
        · rename_i x _
          cases x <;> rfl
      have fin : ∀ x y : Except Err (Option Shown), x.map (fun x => x.map fun s => (s.colours, s.cmin, s.cmax, s.annotation)) =
          y.map (fun x => x.map fun s => (s.colours, s.cmin, s.cmax, s.annotation)) →
          (x.map fun z => (z, w₂)).map (fun x => (x.1.map fun s => (s.colours, s.cmin, s.cmax, s.annotation), x.2)) =
          (y.map fun z => (z, w₂)).map (fun x => (x.1.map fun s => (s.colours, s.cmin, s.cmax, s.annotation), x.2)) := by
        intro x y h
        cases x <;> cases y <;> simp only [Except.map, Except.ok.injEq, Except.error.injEq, reduceCtorEq] at h ⊢ <;> rw [h]
      exact fin _ _ hdisp

/-- C85.  "For the noised maps fix the amplitude to the initial data": the moduli of a harmonic function, plotted with `-u` and `-z` at the
north pole without convolution, have the same colour scale with noise and without.  (Other parts, upsampled plots and other methods do
not: see `C85_noise_scale_violation`.) -/
theorem C85_noise_scale_partial (limDen : ℚ → ℚ) (e : SphereEnv) (a : Args) (n : ℤ) (w w₁ w₁' : Noise.World) (fn : Fn) (s : Script.Args)
    (hr : Reads a (.harmonic fn) none s "abs") (hm : s.method = .north) (region : Option Region.Obj) (hreg : RegionOf e a region)
    (Y : ℤ → ℕ → ℝ → ℝ → ℂ) (he : GoodEnv e.env a.bandlimit) (hY : GoodTransforms e a.bandlimit Y) (hi : fn ≠ .identity)
    (hu : a.unnormalise = true) (hz : a.unzeropad = true) (o o' : Functions.Obj)
    (ho : fn.construct limDen e.env a.extra ⟨a.bandlimit, none, region, a.smoothing⟩ w = .ok (o, w₁))
    (ho' : fn.construct limDen e.env a.extra ⟨a.bandlimit, some (n : ℚ), region, a.smoothing⟩ w = .ok (o', w₁'))
    (hearth : Functions.contains "earth" o.name = false) :
    ∃ fig fig' w₂ w₂', main limDen e { a with noise := none } w = .ok (some fig, w₂) ∧
      main limDen e { a with noise := some n } w = .ok (some fig', w₂') ∧ fig'.cmin = fig.cmin ∧ fig'.cmax = fig.cmax := by
  have hr1 : ∀ x, Reads { a with noise := x } (.harmonic fn) none s "abs" := fun x =>
    ⟨hr.function, hr.convolve, hr.method, hr.view, hr.type, hr.alpha, hr.beta, hr.gamma, hr.annotations⟩
  have hpart : ("abs", fun z : ℂ => ‖z‖) ∈ plotParts := by simp [plotParts]
  obtain ⟨c₁, c₂, c, pts, A, h1, h2, -, h4, -, -, h5, h6, -⟩ := C85_harmonic limDen e { a with noise := none } w w₁ w₁ fn none s "abs" (hr1 _)
    region hreg Y he hY hi o ho none (.inl ⟨rfl, rfl, rfl⟩) a.bandlimit (by simp [hz]) _ hpart
  obtain ⟨-, -, c', pts', A', -, -, -, -, -, -, h5', -, h7⟩ := C85_harmonic limDen e { a with noise := some n } w w₁' w₁' fn none s "abs"
    (hr1 _) region hreg Y he hY hi o' ho' none (.inl ⟨rfl, rfl, rfl⟩) a.bandlimit (by simp [hz]) _ hpart
  obtain ⟨o₀, w₀, k1, k2⟩ := h7 (by simp)
  dsimp only at k1 k2 h5 h5'
  rw [ho] at k1
  cases k1
  obtain ⟨-, -, hn⟩ := construct_noise ho'
  obtain ⟨o₁, w₁, j1, -, -, j2⟩ := hn (by simp)
  rw [ho] at j1
  cases j1
  obtain ⟨fig, f1, -, f2, f3, -⟩ := h5.plain hu
  obtain ⟨fig', f1', -, f2', f3', -⟩ := h5'.plain hu
  have hcc : c = o.coefficients := by
    unfold HarmonicMethod at h1
    rw [hm] at h1
    simp only [methodName, hm, convolvedName, String.append_empty] at h4
    rw [h4.1 hearth, h2 rfl, h1]
  have hset : ((fun x => |x|) '' samples a.bandlimit (fun z => ‖z‖) (expansion (Y o.spin) a.bandlimit c)) =
      samples a.bandlimit (fun z => ‖z‖) (expansion (Y o.spin) a.bandlimit o.coefficients) := by
    rw [hcc]
    ext x
    constructor
    · rintro ⟨y, ⟨t, p, ht, hp, rfl⟩, rfl⟩
      exact ⟨t, p, ht, hp, by simp⟩
    · rintro ⟨t, p, ht, hp, rfl⟩
      exact ⟨_, ⟨t, p, ht, hp, rfl⟩, by simp⟩
  have h6' := h6 rfl
  dsimp only at h6'
  rw [hset] at h6'
  rw [← j2] at k2
  have hA : A' = A := k2.unique h6'
  exact ⟨fig, fig', _, _, f1, f1', by rw [f2, f2', hA], by rw [f3, f3', hA]⟩

/-! ### examples -/

/-- functions for the examples: the `i`-th is one at colatitude `π/2` and longitude `iπ/2`. -/
noncomputable def spike (_spin : ℤ) (i : ℕ) (θ φ : ℝ) : ℂ := if θ = π / 2 ∧ φ = i * π / 2 then 1 else 0

/-- the Slepian object of the examples: one function, the first spike. -/
noncomputable def sampleSlepian (L : ℕ) (h : 0 < 2 * L) : SlepianOf L where
  env := ⟨⟨1, [1 / 2], [fun i => if (i : ℕ) = 0 then 1 else 0]⟩,
    fun v x => ∑ i : Fin (L ^ 2), v i * spike 0 i (x.1 * π / L) (x.2 * π / L), fun _ => 1, fun _ => List.replicate (L ^ 2) 0⟩
  orders := some [0]
  pixel := fun _ _ => ⟨0, ⟨0, h⟩⟩

/-- a world at bandlimit 2, whose default region is the northern cap up to `π/4`. -/
noncomputable def sampleSphere : SphereEnv where
  env := { sampleEnv with S := { sampleEnv.S with shape := fun L => (L + 1, 2 * L), theta := fun L i _ => i * π / L } }
  defaultRegion := .ok ⟨{ thetaMax := π / 4 }, "polar45", "polar"⟩
  slepian := fun L _ => if h : 0 < 2 * L then .ok (sampleSlepian L h) else .error .valueError
  ylm := fun L _ _ => (List.range (L ^ 2)).map fun i => if i = 0 then 1 else 0
  inverse := fun _ spin K c => Plot.rows fun (t : Fin (K + 1)) (p : Fin (2 * K)) => expansion (spike spin) K c (t * π / K) (p * π / K)
  forward := fun _ _ K f => (List.range (K ^ 2)).map fun i => (f.getD 1 []).getD i 0
  fmt := fun _ => "5.000000e-01"

theorem sampleSphere_good : GoodEnv sampleSphere.env 2 :=
  ⟨sampleEnv_good.forward_length, sampleEnv_good.forward_real, sampleEnv_good.smoothing, sampleEnv_good.pos, sampleEnv_good.earth_length,
    sampleEnv_good.earth_real, sampleEnv_good.kappas⟩

private theorem expansion_spike (spin : ℤ) (c : List ℂ) (i : ℕ) (h : i < 2 ^ 2) :
    expansion (spike spin) 2 c ((1 : ℕ) * π / (2 : ℕ)) (i * π / (2 : ℕ)) = c.getD i 0 := by
  unfold expansion
  rw [Finset.sum_eq_single i]
  · simp [spike]
  · intro j _ hj
    have : ¬ ((i : ℝ) * π / (2 : ℕ) = j * π / 2) := by
      intro h
      have h1 : (i : ℝ) * π = j * π := by push_cast at h; linarith
      have h2 := mul_right_cancel₀ Real.pi_ne_zero h1
      exact hj (by exact_mod_cast h2.symm)
    simp only [spike, this, and_false, if_false, mul_zero]
  · intro h'
    exact absurd (Finset.mem_range.2 h) h'

theorem sampleSphere_transforms : GoodTransforms sampleSphere 2 spike where
  inverse := fun _ _ _ _ _ _ _ => rfl
  forward := by
    intro reality spin c hc hr
    have hv : ∀ i < 2 ^ 2, (sampleSphere.forward reality spin 2 (sampleSphere.inverse reality spin 2 c)).getD i 0 = c.getD i 0 := by
      intro i hi
      simp only [sampleSphere, List.getD_eq_getElem?_getD, List.getElem?_map, List.getElem?_range hi, Option.map_some, Option.getD_some]
      rw [Plot.rows, List.getElem?_ofFn]
      simp only [show 1 < 2 + 1 by norm_num, dif_pos, Option.getD_some]
      rw [List.getElem?_ofFn, dif_pos (by omega), Option.getD_some]
      have := expansion_spike spin c i hi
      rw [List.getD_eq_getElem?_getD] at this
      exact this
    have hlen : (sampleSphere.forward reality spin 2 (sampleSphere.inverse reality spin 2 c)).length = 2 ^ 2 := by simp [sampleSphere]
    refine ⟨hlen, fun h => ⟨hlen, fun l m hl hm => ?_⟩, fun i hi => .inl (hv i hi)⟩
    rw [hv _ ((elm2ind_lt_sq (by rwa [abs_neg]) 2).2 hl), hv _ ((elm2ind_lt_sq hm 2).2 hl)]
    exact (hr h).1.2 l m hl hm
  ylm := by
    intro θ φ
    refine ⟨by simp [sampleSphere], fun l m hl hm => ?_⟩
    have h0 : ∀ m : ℤ, |m| ≤ l → (sampleSphere.ylm 2 θ φ).getD (elm2ind l m) 0 = if l = 0 then 1 else 0 := by
      intro m hm
      simp only [sampleSphere, List.getD_eq_getElem?_getD, List.getElem?_map, List.getElem?_range ((elm2ind_lt_sq hm 2).2 hl),
        Option.map_some, Option.getD_some]
      congr 1
      rw [abs_le] at hm
      unfold elm2ind
      rw [eq_iff_iff]
      constructor
      · intro h
        by_contra hl0
        have : 1 ≤ l * l := Nat.mul_pos (by omega) (by omega)
        have h2 : (0 : ℤ) < (l * l : ℕ) := by exact_mod_cast this
        push_cast at h2
        omega
      · rintro rfl; omega
    rw [h0 m hm, h0 (-m) (by rwa [abs_neg])]
    split
    · rename_i hl0
      have : m = 0 := by rw [hl0] at hm; simpa using hm
      simp [this]
    · simp
  rotate_length := fun _ _ _ _ h => h
  rotate_real := fun _ _ _ _ h => h

/-- the command `sphere gaussian -L 2 -t imag -u -z`. -/
def sampleCommand : Args := { function := "gaussian", bandlimit := 2, type := some (some "imag"), unnormalise := true, unzeropad := true }

private theorem sampleReads (noise : Option ℤ) : Reads { sampleCommand with noise := noise } (.harmonic (.gaussian 10)) none
    ⟨3 / 4, 1 / 8, 0, true, .north, .southAmerica⟩ "imag" :=
  ⟨by simp [sphereFunctions, sampleCommand], .inl ⟨rfl, rfl⟩, .inl ⟨.inl rfl, rfl⟩, .inl ⟨.inl rfl, rfl⟩,
    .inr ⟨"imag", rfl, by simp⟩, rfl, rfl, rfl, by simp [sampleCommand]⟩

theorem sample_gaussian (limDen : ℚ → ℚ) (w : Noise.World) : ∃ (c : List ℂ) (o : Functions.Obj),
    Fn.construct limDen sampleSphere.env (.gaussian 10) none ⟨2, none, none, none⟩ w = .ok (o, w) ∧ o.coefficients = c ∧ c.getD 0 0 = 1 ∧
    (∀ i < 2 ^ 2, (c.getD i 0).im = 0) ∧
    ∀ n : ℚ, ∃ o' w', Fn.construct limDen sampleSphere.env (.gaussian 10) none ⟨2, some n, none, none⟩ w = .ok (o', w') := by
  obtain ⟨c, h1, h2, h3, -⟩ := (C55_gaussian 2 ((10 : ℚ) : ℝ)).1 (by norm_num)
  have hc : Fn.create sampleSphere.env 2 none (.gaussian 10) w = .ok (c, w) := by
    simp only [Fn.create, h1, Except.map]
  refine ⟨c, ⟨2, Functions.addDetails limDen ⟨2, none, none, none⟩ ((Fn.gaussian 10).name limDen), 0, true, c, none, none⟩, ?_, rfl,
    ?_, ?_, ?_⟩
  · have hargs : (Fn.gaussian 10).setupArgs sampleSphere.env.jMax 2 none = .ok (.gaussian 10) := rfl
    simp only [Fn.construct, hargs, bind, Except.bind, Functions.flm, Functions.postInit, hc, Functions.flmNoise,
      Functions.addNoiseWith, pure, Except.pure]
    rfl
  · have := h3 0 0 (by norm_num) (by norm_num)
    simpa [elm2ind] using this
  · intro i hi
    have key : ∀ (l : ℕ) (m : ℤ), l < 2 → |m| ≤ l → (c.getD (elm2ind l m) 0).im = 0 := by
      intro l m hl hm
      rw [h3 l m hl hm]
      split
      · exact Complex.ofReal_im _
      · rfl
    interval_cases i
    · exact key 0 0 (by norm_num) (by norm_num)
    · exact key 1 (-1) (by norm_num) (by norm_num)
    · exact key 1 0 (by norm_num) (by norm_num)
    · exact key 1 1 (by norm_num) (by norm_num)
  · intro n
    obtain ⟨n', hn, hall⟩ := C53_harmonic_noise (L := 2) limDen sampleSphere.env.normals n c h2
    obtain ⟨o, w₂, h3, -⟩ := hall
      { setupArgs := .ok (), name := (Fn.gaussian 10).name limDen, spin := 0, reality := true,
        create := Fn.create sampleSphere.env 2 none (.gaussian 10) } none none w w rfl hc
    exact ⟨o, w₂, h3⟩

/-- C85 (violated).  The colour scale of a noisy plot is not that of the clean one: `sphere gaussian -L 2 -t imag -u -z` shows zeros on a
scale from 0 to 0, and with `-n 10` the scale reaches at least to 1. -/
theorem C85_noise_scale_violation (limDen : ℚ → ℚ) (w : Noise.World) (n : ℤ) : ∃ (e : SphereEnv) (a : Args) (fig fig' : Shown)
    (w₂ w₂' : Noise.World), GoodEnv e.env a.bandlimit ∧ GoodTransforms e a.bandlimit spike ∧ a.noise = none ∧
      main limDen e a w = .ok (some fig, w₂) ∧ main limDen e { a with noise := some n } w = .ok (some fig', w₂') ∧
      fig.cmax = 0 ∧ 1 ≤ fig'.cmax := by
  obtain ⟨c, o, ho, rfl, hc0, hcr, hn⟩ := sample_gaussian limDen w
  obtain ⟨o', w', ho'⟩ := hn n
  have hpart : ("imag", fun z : ℂ => z.im) ∈ plotParts := by simp [plotParts]
  obtain ⟨c₁, c₂, c, pts, A, h1, h2, -, h4, -, -, h5, h6, -⟩ := C85_harmonic limDen sampleSphere sampleCommand w w w (.gaussian 10) none _
    "imag" (sampleReads none) none (.inl ⟨rfl, rfl⟩) spike sampleSphere_good sampleSphere_transforms (by simp) o ho none
    (.inl ⟨rfl, rfl, rfl⟩) 2 rfl _ hpart
  obtain ⟨-, -, c', pts', A', -, -, -, -, -, -, h5', -, h7⟩ := C85_harmonic limDen sampleSphere { sampleCommand with noise := some n } w w' w'
    (.gaussian 10) none _ "imag" (sampleReads (some n)) none (.inl ⟨rfl, rfl⟩) spike sampleSphere_good sampleSphere_transforms (by simp) o'
    ho' none (.inl ⟨rfl, rfl, rfl⟩) 2 rfl _ hpart
  obtain ⟨fig, f1, -, -, f3, -⟩ := h5.plain rfl
  obtain ⟨fig', f1', -, -, f3', -⟩ := h5'.plain rfl
  refine ⟨sampleSphere, sampleCommand, fig, fig', _, _, sampleSphere_good, sampleSphere_transforms, rfl, f1, f1', ?_, ?_⟩
  · rw [f3]
    have hcc : c = o.coefficients := by
      obtain ⟨v1, -, v3⟩ := h4
      have h1' : c₁ = o.coefficients := h1
      rw [← h1', ← h2 rfl]
      cases hx : Functions.contains "earth" (o.name ++ methodName limDen ⟨3 / 4, 1 / 8, 0, true, .north, .southAmerica⟩ ++ convolvedName none)
      · exact v1 hx
      · exact v3 hx rfl
    obtain ⟨_, ⟨t, p, -, -, rfl⟩, hA⟩ := (h6 rfl).1
    rw [← hA, hcc]
    dsimp only
    rw [abs_eq_zero, expansion, Complex.im_sum]
    refine Finset.sum_eq_zero fun i hi => ?_
    rw [Complex.mul_im, hcr i (Finset.mem_range.1 hi)]
    unfold spike
    split <;> simp
  · rw [f3']
    obtain ⟨o₀, w₀, k1, k2⟩ := h7 (by simp)
    have k1' : Fn.construct limDen sampleSphere.env (.gaussian 10) none ⟨2, none, none, none⟩ w = .ok (o₀, w₀) := k1
    rw [ho] at k1'
    cases k1'
    refine k2.2 ⟨1, 0, by norm_num [sampleCommand], by norm_num [sampleCommand], ?_⟩
    have := expansion_spike o'.spin o.coefficients 0 (by norm_num)
    rw [hc0] at this
    have e2 : ((sampleCommand.bandlimit : ℕ) : ℝ) = ((2 : ℕ) : ℝ) := rfl
    change (1 : ℝ) = ‖expansion (spike o'.spin) 2 o.coefficients ((1 : ℕ) * π / (2 : ℕ)) ((0 : ℕ) * π / (2 : ℕ))‖
    rw [this]
    simp

/-- C85.  What is plotted by `sphere slepian`: the Slepian function of the rank given with `-e` (or the first one), that is with
coefficient one at that rank and zero at the others when the eigenvectors are orthonormal; the file is named after the region, the
order of the function if it has one, the rank and the eigenvalue. -/
theorem C85_slepian_function (limDen : ℚ → ℚ) (e : SphereEnv) {L : ℕ} (rank : ℕ) (extra : Option (List ℤ)) (k : ℕ)
    (hk : extra = some [(k : ℤ)] ∨ extra = none ∧ k = rank) (region : Option Region.Obj) (r : Region.Obj)
    (hr : region = some r ∨ region = none ∧ e.defaultRegion = .ok r) (smoothing : Option ℤ) (S : SlepianOf L)
    (hS : e.slepian L r = .ok S) (hrows : HasRows S.env.sl) (hN : k < S.env.sl.N) (lam : ℝ) (hlam : S.env.sl.evals[k]? = some lam)
    (order : String) (ho : S.orders = none ∧ order = "" ∨ ∃ os m, S.orders = some os ∧ os[k]? = some m ∧ order = "_m" ++ toString m)
    (horth : ∀ (p q : ℕ) (u v : Fin (L ^ 2) → ℂ), S.env.sl.evecs[p]? = some u → S.env.sl.evecs[q]? = some v →
      ∑ i, u i * (starRingEnd ℂ) (v i) = if p = q then 1 else 0) :
    ∃ o, (∀ w, build limDen e L (.slepian rank) extra region none smoothing w = .ok (⟨Script.slepian S.env S.pixel o, some (S, r)⟩, w)) ∧
      o.coefficients.length = S.env.sl.N ∧ (∀ p < S.env.sl.N, o.coefficients.getD p 0 = if p = k then 1 else 0) ∧
      o.name = Functions.addDetails limDen ⟨L, none, some r, smoothing⟩ (String.ofList
        (((("slepian_" ++ r.nameEnding ++ order ++ "_rank" ++ toString k ++ "_lam" ++ e.fmt lam).toList.map fun c =>
          if c = '.' then '-' else c)).filter fun c => c ≠ '+')) := by
  have hk1 : k < S.env.sl.evecs.length := lt_of_lt_of_le hN hrows.2
  have hv := List.getElem?_eq_getElem hk1
  have hrow : ∀ p : Fin S.env.sl.N, S.env.sl.evecs[(p : ℕ)]? = some (S.env.sl.evecs[(p : ℕ)]'(lt_of_lt_of_le p.2 hrows.2)) := fun p =>
    List.getElem?_eq_getElem _
  have hfwd := forward_flm S.env.sl S.env.synth S.env.weight _ rfl hrows.1 hrow (S.env.sl.evecs[k]'hk1)
  have hsum : (fun p : Fin S.env.sl.N => ∑ i, (S.env.sl.evecs[k]'hk1) i *
      (starRingEnd ℂ) ((S.env.sl.evecs[(p : ℕ)]'(lt_of_lt_of_le p.2 hrows.2)) i)) = fun p : Fin S.env.sl.N => if k = p then (1 : ℂ) else 0 := by
    funext p
    exact horth k p _ _ hv (hrow p)
  rw [hsum] at hfwd
  have hitem : NumPy.item S.env.sl.evecs k = .ok (S.env.sl.evecs[k]'hk1) := by simp [NumPy.item, hv]
  have hev : NumPy.item S.env.sl.evals k = .ok lam := by simp [NumPy.item, hlam]
  have hname : slepianName e.fmt r.nameEnding S k =
      .ok (tidy ("slepian_" ++ r.nameEnding ++ order ++ "_rank" ++ toString k ++ "_lam" ++ e.fmt lam)) := by
    rcases ho with ⟨h1, h2⟩ | ⟨os, m, h1, h2, h3⟩
    · simp only [slepianName, h1, hev, h2, bind, Except.bind, pure, Except.pure]
    · have hm : NumPy.item os k = .ok m := by simp [NumPy.item, h2]
      simp only [slepianName, h1, hm, hev, h3, Except.map, bind, Except.bind, pure, Except.pure]
  have hreg : regionOr e.defaultRegion region = .ok r := by
    rcases hr with h | ⟨h, h'⟩
    · rw [h]; rfl
    · rw [h, h']; rfl
  have h0 : Ranks.checkRank (rank : ℤ) = .ok () := by simp [Ranks.checkRank]
  have hkL : (k : ℤ) < (L : ℤ) ^ 2 := by
    have : k < L ^ 2 := lt_of_lt_of_le hN hrows.1
    exact_mod_cast this
  have h1 : Ranks.validateSlepian L extra = .ok () := by
    rcases hk with h | ⟨h, -⟩ <;> rw [h]
    · simp only [Ranks.validateSlepian]; rw [if_neg (by omega)]
    · rfl
  have h2 : Ranks.setupRank rank extra = .ok (k : ℤ) := by
    rcases hk with h | ⟨h, h'⟩ <;> rw [h]
    · have : Ranks.checkRank (k : ℤ) = .ok () := by simp [Ranks.checkRank]
      simp only [Ranks.setupRank, this, bind, Except.bind, pure, Except.pure]
    · rw [h']; rfl
  refine ⟨⟨L, Functions.addDetails limDen ⟨L, none, some r, smoothing⟩
      (tidy ("slepian_" ++ r.nameEnding ++ order ++ "_rank" ++ toString k ++ "_lam" ++ e.fmt lam)), 0, false,
      List.ofFn fun p : Fin S.env.sl.N => if k = p then (1 : ℂ) else 0, none, none⟩, fun w => ?_, by simp, fun p hp => ?_, rfl⟩
  · have hobj : slepianObject limDen e L r S rank extra none smoothing w = .ok (⟨L, Functions.addDetails limDen ⟨L, none, some r, smoothing⟩
        (tidy ("slepian_" ++ r.nameEnding ++ order ++ "_rank" ++ toString k ++ "_lam" ++ e.fmt lam)), 0, false,
        List.ofFn fun p : Fin S.env.sl.N => if k = p then (1 : ℂ) else 0, none, none⟩, w) := by
      simp only [slepianObject, h2, bind, Except.bind, Int.toNat_natCast, hname, Functions.fp, Functions.postInit, hitem, hfwd,
        Functions.fpNoise, Functions.addNoiseWith, pure, Except.pure]
    simp only [build, h0, h1, hreg, hS, hobj, bind, Except.bind, pure, Except.pure]
  · simp only [List.getD_eq_getElem?_getD, List.getElem?_ofFn, hp, dite_true, Option.getD_some, eq_comm]

/-- the hypotheses of `C85_slepian_function` are met by the second of two Slepian functions. -/
example : ∃ (e : SphereEnv) (S : SlepianOf 2) (r : Region.Obj), e.defaultRegion = .ok r ∧ e.slepian 2 r = .ok S ∧ HasRows S.env.sl ∧
    1 < S.env.sl.N ∧ S.env.sl.evals[1]? = some (1 / 2) ∧ (∃ os m, S.orders = some os ∧ os[1]? = some m ∧ "_m-1" = "_m" ++ toString m) ∧
    ∀ (p q : ℕ) (u v : Fin (2 ^ 2) → ℂ), S.env.sl.evecs[p]? = some u → S.env.sl.evecs[q]? = some v →
      ∑ i, u i * (starRingEnd ℂ) (v i) = if p = q then 1 else 0 := by
  refine ⟨{ sampleSphere with slepian := fun L _ => if h : 0 < 2 * L then .ok { sampleSlepian L h with
      env := { (sampleSlepian L h).env with sl := ⟨2, [1, 1 / 2], [fun i => if (i : ℕ) = 0 then 1 else 0, fun i => if (i : ℕ) = 1 then 1 else 0]⟩ }
      orders := some [0, -1] } else .error .valueError },
    { sampleSlepian 2 (by norm_num) with
      env := { (sampleSlepian 2 (by norm_num)).env with
        sl := ⟨2, [1, 1 / 2], [fun i => if (i : ℕ) = 0 then 1 else 0, fun i => if (i : ℕ) = 1 then 1 else 0]⟩ }
      orders := some [0, -1] }, ⟨{ thetaMax := π / 4 }, "polar45", "polar"⟩, rfl, ?_, ⟨by norm_num, by simp⟩, by norm_num, by simp,
      ⟨_, -1, rfl, rfl, by decide +kernel⟩, ?_⟩
  · simp
  · intro p q u v hu hv
    rcases p with _ | _ | p <;> rcases q with _ | _ | q <;> simp at hu hv <;> subst hu <;> subst hv <;> simp [Fin.sum_univ_succ]

/-- the hypotheses of C85 for Slepian functions are met: `sphere slepian -L 2 -u -z`, with part of the grid hidden. -/
example (limDen : ℚ → ℚ) (w : Noise.World) : ∃ (o : Functions.Obj) (m : Masks.Mask) (st : Masks.Store),
    Reads { function := "slepian", bandlimit := 2, unnormalise := true, unzeropad := true } (.slepian 0) none
      ⟨3 / 4, 1 / 8, 0, true, .north, .southAmerica⟩ "real" ∧
    GoodSlepian sampleSphere (sampleSlepian 2 (by norm_num)) spike ∧
    build limDen sampleSphere 2 (.slepian 0) none none none none w = .ok (⟨Script.slepian (sampleSlepian 2 (by norm_num)).env
      (sampleSlepian 2 (by norm_num)).pixel o, some (sampleSlepian 2 (by norm_num), ⟨{ thetaMax := π / 4 }, "polar45", "polar"⟩)⟩, w) ∧
    Functions.contains "earth" o.name = false ∧
    Masks.maskRegion sampleSphere.env.S 2 ⟨{ thetaMax := π / 4 }, "polar45", "polar"⟩ sampleSphere.env.store = .ok (m, st) ∧
    m.shape = (2 + 1, 2 * 2) ∧ m.val 0 0 = true ∧ m.val 1 0 = false := by
  have hrows : HasRows (sampleSlepian 2 (by norm_num)).env.sl := ⟨by simp [sampleSlepian], by simp [sampleSlepian]⟩
  have hrow : ∀ p : Fin (sampleSlepian 2 (by norm_num)).env.sl.N, (sampleSlepian 2 (by norm_num)).env.sl.evecs[(p : ℕ)]? =
      some (fun i : Fin (2 ^ 2) => if (i : ℕ) = 0 then (1 : ℂ) else 0) := by
    intro p
    have : (p : ℕ) = 0 := by have := p.2; simp only [sampleSlepian] at this; omega
    rw [this]
    rfl
  obtain ⟨cs, hfw⟩ : ∃ cs, Transform.slepianForward (sampleSlepian 2 (by norm_num)).env.sl (sampleSlepian 2 (by norm_num)).env.synth
      (sampleSlepian 2 (by norm_num)).env.weight { flm := some (fun i : Fin (2 ^ 2) => if (i : ℕ) = 0 then (1 : ℂ) else 0) } none = .ok cs :=
    ⟨_, forward_flm _ _ _ _ rfl hrows.1 hrow _⟩
  refine ⟨⟨2, "slepian_polar45_m0_rank0_lam5-000000e-01_L2", 0, false, cs, none, none⟩, ⟨(2 + 1, 2 * 2), fun i _ => open Classical in
    decide (Region.inMask ⟨{ thetaMax := π / 4 }, "polar45", "polar"⟩ (i * π / (2 : ℕ)) 0)⟩, sampleSphere.env.store, ?_, ?_, ?_, ?_, ?_, rfl,
    ?_, ?_⟩
  · exact ⟨by simp [sphereFunctions], .inl ⟨rfl, rfl⟩, .inl ⟨.inl rfl, rfl⟩, .inl ⟨.inl rfl, rfl⟩, .inl ⟨.inl rfl, rfl⟩, rfl, rfl, rfl,
      by simp⟩
  · exact ⟨hrows, fun _ _ => rfl, by intro B j k hk; simp [sampleSphere, sampleEnv] at hk; rcases hk with rfl | rfl | rfl <;> simp⟩
  · have hsl : sampleSphere.slepian 2 ⟨{ thetaMax := π / 4 }, "polar45", "polar"⟩ = .ok (sampleSlepian 2 (by norm_num)) := by
      simp [sampleSphere]
    have hname : slepianName sampleSphere.fmt "polar45" (sampleSlepian 2 (by norm_num)) 0 =
        .ok "slepian_polar45_m0_rank0_lam5-000000e-01" := by
      simp only [slepianName, sampleSlepian, sampleSphere, NumPy.item, List.getElem?_cons_zero, Except.map, bind, Except.bind, pure,
        Except.pure, Except.ok.injEq]
      decide +kernel
    have hitem : NumPy.item (sampleSlepian 2 (by norm_num)).env.sl.evecs 0 =
        .ok (fun i : Fin (2 ^ 2) => if (i : ℕ) = 0 then (1 : ℂ) else 0) := rfl
    have hdet : Functions.addDetails limDen ⟨2, none, some ⟨{ thetaMax := π / 4 }, "polar45", "polar"⟩, none⟩
        "slepian_polar45_m0_rank0_lam5-000000e-01" = "slepian_polar45_m0_rank0_lam5-000000e-01_L2" := by
      have : Functions.namesSlepian "slepian_polar45_m0_rank0_lam5-000000e-01" = true := by decide +kernel
      simp only [Functions.addDetails, this, if_true]
      decide +kernel
    have hobj : slepianObject limDen sampleSphere 2 ⟨{ thetaMax := π / 4 }, "polar45", "polar"⟩ (sampleSlepian 2 (by norm_num)) 0 none none
        none w = .ok (⟨2, "slepian_polar45_m0_rank0_lam5-000000e-01_L2", 0, false, cs, none, none⟩, w) := by
      simp only [slepianObject, Ranks.setupRank, bind, Except.bind, Int.toNat_zero, hname, Functions.fp, Functions.postInit, hitem, hfw, hdet,
        Functions.fpNoise, Functions.addNoiseWith, pure, Except.pure]
    have hreg : regionOr sampleSphere.defaultRegion none = .ok ⟨{ thetaMax := π / 4 }, "polar45", "polar"⟩ := rfl
    have h0 : Ranks.checkRank 0 = .ok () := rfl
    have h1 : Ranks.validateSlepian 2 none = .ok () := rfl
    simp only [build, h0, h1, hreg, hsl, hobj, bind, Except.bind, pure, Except.pure]
  · change Functions.contains "earth" "slepian_polar45_m0_rank0_lam5-000000e-01_L2" = false
    decide +kernel
  · rfl
  · simp [Region.inMask]
    positivity
  · simp [Region.inMask]
    linarith [Real.pi_pos]

/-- the hypotheses of the theorems on `-r` and `-n` are met: the Dirac delta with the northern cap, and with noise. -/
example (limDen : ℚ → ℚ) (w : Noise.World) (n : ℚ) : ∃ (o o' o'' : Functions.Obj) (w'' : Noise.World) (r : Region.Obj),
    sampleSphere.defaultRegion = .ok r ∧
    Fn.construct limDen sampleSphere.env .diracDelta none ⟨2, none, none, none⟩ w = .ok (o, w) ∧
    Fn.construct limDen sampleSphere.env .diracDelta none ⟨2, none, some r, none⟩ w = .ok (o', w) ∧
    Fn.construct limDen sampleSphere.env .diracDelta none ⟨2, some n, none, none⟩ w = .ok (o'', w'') ∧
    Functions.contains "dirac_delta" o'.name = Functions.contains "dirac_delta" o.name ∧ o'.name ≠ o.name ∧
    Functions.contains "earth" o'.name = Functions.contains "earth" o.name ∧ Functions.contains "earth" o.name = false := by
  obtain ⟨c, h1, h2, -, -⟩ := C55_dirac_delta 2
  have hc : Fn.create sampleSphere.env 2 none .diracDelta w = .ok (c, w) := by
    simp only [Fn.create, h1, Except.map]
  obtain ⟨n', hn, hall⟩ := C53_harmonic_noise (L := 2) limDen sampleSphere.env.normals n c h2
  obtain ⟨o, w₂, h3, -⟩ := hall
    { setupArgs := .ok (), name := Fn.diracDelta.name limDen, spin := 0, reality := true,
      create := Fn.create sampleSphere.env 2 none .diracDelta } none none w w rfl hc
  have hname : Fn.diracDelta.name limDen = "dirac_delta" := by
    simp only [Fn.name]
    decide +kernel
  have hargs : Fn.diracDelta.setupArgs sampleSphere.env.jMax 2 none = .ok .diracDelta := rfl
  have hd : Functions.addDetails limDen ⟨2, none, none, none⟩ "dirac_delta" = "dirac_delta_L2" := rfl
  have hs : Functions.namesSlepian "dirac_delta" = false := by decide +kernel
  have hd' : Functions.addDetails limDen ⟨2, none, some ⟨{ thetaMax := π / 4 }, "polar45", "polar"⟩, none⟩ "dirac_delta" =
      "dirac_delta_polar45_L2" := by
    simp only [Functions.addDetails, hs, Bool.false_eq_true, if_false]
    decide +kernel
  refine ⟨⟨2, "dirac_delta_L2", 0, true, c, none, none⟩, ⟨2, "dirac_delta_polar45_L2", 0, true, c, none, none⟩, o, w₂,
    ⟨{ thetaMax := π / 4 }, "polar45", "polar"⟩, rfl, ?_, ?_, h3, ?_, ?_, ?_, ?_⟩
  · simp only [Fn.construct, hargs, bind, Except.bind, Functions.flm, Functions.postInit, hc, Functions.flmNoise,
      Functions.addNoiseWith, pure, Except.pure, hname, hd]
    rfl
  · simp only [Fn.construct, hargs, bind, Except.bind, Functions.flm, Functions.postInit, hc, Functions.flmNoise,
      Functions.addNoiseWith, pure, Except.pure, hname, hd']
    rfl
  · change Functions.contains "dirac_delta" "dirac_delta_polar45_L2" = Functions.contains "dirac_delta" "dirac_delta_L2"
    decide +kernel
  · change "dirac_delta_polar45_L2" ≠ "dirac_delta_L2"
    decide +kernel
  · change Functions.contains "earth" "dirac_delta_polar45_L2" = Functions.contains "earth" "dirac_delta_L2"
    decide +kernel
  · change Functions.contains "earth" "dirac_delta_L2" = false
    decide +kernel

end Sleplet.Props
