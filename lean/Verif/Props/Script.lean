import Verif.Lemmas.Strings
import Verif.Model.Script
import Verif.Props.FunctionObjects
import Verif.Props.Plot
import Verif.Props.SlepianClasses
import Verif.Props.Strings

/-!
C75: what the sphere plotting command computes, and how it names its figures.
-/
namespace Sleplet.Props

open Complex NumPy Script Functions

variable {L : ℕ} {Pix : Type} [Fintype Pix]

/-- `(alpha, beta)` is a sample of the grid nearest to the fractions of π asked for. -/
def NearestSample (L : ℕ) (a b : ℝ) (alpha beta : ℝ) : Prop :=
  ∃ p t : ℕ, p < 2 * L ∧ t ≤ L ∧ alpha = p * Real.pi / L ∧ beta = t * Real.pi / L ∧
    (∀ q < 2 * L, |alpha - a * Real.pi| ≤ |q * Real.pi / L - a * Real.pi|) ∧
    (∀ s ≤ L, |beta - b * Real.pi| ≤ |s * Real.pi / L - b * Real.pi|)

/-- The coefficients turned to the view asked for if the figure is about the Earth. -/
def ViewSpec (S : Masks.Sphere) (L : ℕ) (earthly : Bool) (view : View) (c c' : List ℂ) : Prop :=
  (earthly = false → c' = c) ∧
  (earthly = true → view = .africa →
    c' = S.rotate L c (44 * Real.pi / 180) (87 * Real.pi / 180) (341 * Real.pi / 180)) ∧
  (earthly = true → view = .southAmerica →
    c' = S.rotate L c (54 * Real.pi / 180) (108 * Real.pi / 180) (63 * Real.pi / 180))

/-- What the method does to the coefficients `c` of a harmonic function. -/
def HarmonicMethod (S : Masks.Sphere) (ylm : ℝ → ℝ → List ℂ) (L : ℕ) (name : String) (c : List ℂ) (a : Args) (c' : List ℂ) : Prop :=
  match a.method with
  | .north => c' = c
  | .rotate => ∃ alpha beta, NearestSample L a.alpha a.beta alpha beta ∧ c' = S.rotate L c alpha beta (a.gamma * Real.pi)
  | .translate => ∃ alpha beta, NearestSample L a.alpha a.beta alpha beta ∧ ∀ i < L ^ 2, c'.getD i 0 =
      if contains "dirac_delta" name then (starRingEnd ℂ) ((ylm beta alpha).getD i 0) else c.getD i 0 * (ylm beta alpha).getD i 0

/-- the part of the file name that records the method. -/
def methodName (limDen : ℚ → ℚ) (a : Args) : String :=
  match a.method with
  | .north => ""
  | .rotate => "_rotate_" ++ Strings.filenameAngle limDen a.alpha a.beta a.gamma
  | .translate => "_translate_" ++ Strings.filenameAngle limDen a.alpha a.beta 0

/-- the part of the file name that records the other map. -/
def convolvedName (g : Option Functions.Obj) : String :=
  match g with
  | none => ""
  | some g => "_convolved_" ++ g.name

private theorem nearest (L : ℕ) (h : 1 ≤ L) (a b : ℝ) :
    ∃ alpha beta, Plot.calcNearestGridPoint L a b = .ok (alpha, beta) ∧ NearestSample L a b alpha beta := by
  obtain ⟨p, t, hp, ht, hr, h1, -, h2, -⟩ := C41_nearest_grid_point L h a b
  exact ⟨_, _, hr, p, t, hp, ht, rfl, rfl, h1, h2⟩

private theorem deg' (x : ℝ) : Py.deg2rad x = x * Real.pi / 180 := by
  unfold Py.deg2rad
  ring

private theorem getD_zip {a b : List ℂ} {n i : ℕ} (ha : a.length = n) (hb : b.length = n) (hi : i < n) :
    (List.zipWith (· * ·) a b).getD i 0 = a.getD i 0 * b.getD i 0 := by
  have h1 : i < a.length := by omega
  have h2 : i < b.length := by omega
  simp [List.getD_eq_getElem?_getD, h1, h2]

private theorem sift_none {f g : List ℂ} {n : ℕ} (hf : f.length = n) (hg : g.length = n) :
    ∃ t, Wavelets.sift f g none = .ok t ∧ t.length = n ∧ ∀ i < n, t.getD i 0 = f.getD i 0 * (starRingEnd ℂ) (g.getD i 0) := by
  refine ⟨List.zipWith (· * ·) f (g.map (starRingEnd ℂ)), ?_, by simp [hf, hg], fun i hi => ?_⟩
  · simp [Wavelets.sift, upTo, broadcast, hf, hg]
  · rw [getD_zip hf (by simp [hg]) hi]
    have : i < g.length := by omega
    simp [List.getD_eq_getElem?_getD, this]

private theorem sift_some {f g : List ℂ} {n : ℕ} (hf : n ≤ f.length) (hg : n ≤ g.length) :
    ∃ t, Wavelets.sift f g (some n) = .ok t ∧ t.length = n ∧ ∀ i < n, t.getD i 0 = f.getD i 0 * (starRingEnd ℂ) (g.getD i 0) := by
  refine ⟨List.zipWith (· * ·) (f.take n) ((g.map (starRingEnd ℂ)).take n), ?_, by simp [hf, hg], fun i hi => ?_⟩
  · simp [Wavelets.sift, upTo, broadcast, hf, hg]
  · rw [getD_zip (n := n) (by simp [hf]) (by simp [hg]) hi]
    have h1 : i < g.length := by omega
    have h2 : i < f.length := by omega
    simp [List.getD_eq_getElem?_getD, h1, h2, hi]

private theorem view_step (S : Masks.Sphere) (Lf : ℕ) (c : List ℂ) (filename : String) (v : View) :
    ViewSpec S Lf (contains "earth" filename) v c (applyView S Lf c filename v).1 ∧
      (applyView S Lf c filename v).2 = filename ++ (if contains "earth" filename = true ∧ v = .africa then "_africa" else "") := by
  unfold applyView
  by_cases h : contains "earth" filename = true
  · simp only [h, if_true]
    cases v
    · refine ⟨⟨by simp, fun _ _ => ?_, by simp⟩, by simp⟩
      simp only [Masks.rotateToAfrica, deg']
    · refine ⟨⟨by simp, by simp, fun _ _ => ?_⟩, by simp⟩
      simp only [Masks.rotateToSouthAmerica, deg']
  · rw [Bool.not_eq_true] at h
    simp only [h, Bool.false_eq_true, if_false]
    exact ⟨⟨fun _ => rfl, by simp, by simp⟩, by simp⟩

/-- C75.  Harmonic functions: the coefficients shown are those of the function after the method asked for, then the product of the
other map's coefficients with the conjugates of these if another map is given, then turned to the view if the file name contains
`earth`; the field is declared real only if nothing but a rotation, or the translation of a Dirac delta, happened to a real function;
and the sample translated to is annotated unless that is switched off. -/
theorem C75_harmonic (limDen : ℚ → ℚ) (S : Masks.Sphere) (ylm : ℝ → ℝ → List ℂ) (o : Functions.Obj) (g : Option Functions.Obj)
    (a : Args) (hL : 1 ≤ o.L) (hc : o.coefficients.length = o.L ^ 2) (hg : ∀ g', g = some g' → g'.coefficients.length = o.L ^ 2)
    (hy : ∀ t p, (ylm t p).length = o.L ^ 2) (hrot : ∀ c x y z, c.length = o.L ^ 2 → (S.rotate o.L c x y z).length = o.L ^ 2) :
    ∃ (c₁ c₂ : List ℂ) (fig : Figure), plot limDen S (harmonic S ylm o) g a = .ok fig ∧
      HarmonicMethod S ylm o.L o.name o.coefficients a c₁ ∧ c₁.length = o.L ^ 2 ∧
      (g = none → c₂ = c₁) ∧
      (∀ g', g = some g' → c₂.length = o.L ^ 2 ∧ ∀ i < o.L ^ 2, c₂.getD i 0 = g'.coefficients.getD i 0 * (starRingEnd ℂ) (c₁.getD i 0)) ∧
      ViewSpec S o.L (contains "earth" (o.name ++ methodName limDen a ++ convolvedName g)) a.view c₂ fig.coefficients ∧
      (fig.reality = true ↔ o.reality = true ∧ g = none ∧ (a.method = .translate → contains "dirac_delta" o.name = true)) ∧
      (fig.annotation = [] ↔ ¬ (a.method = .translate ∧ a.annotations = true)) ∧
      (∀ p ∈ fig.annotation, NearestSample o.L a.alpha a.beta p.1 p.2) := by
  obtain ⟨alpha, beta, hn, hnear⟩ := nearest o.L hL a.alpha a.beta
  -- the method
  have hmethod : ∃ (c₁ : List ℂ) (r : Bool) (ann : List (ℝ × ℝ)),
      applyMethod limDen (harmonic S ylm o) a =
        .ok (c₁, r, o.name ++ methodName limDen a, ann) ∧
      HarmonicMethod S ylm o.L o.name o.coefficients a c₁ ∧ c₁.length = o.L ^ 2 ∧
      (r = true ↔ o.reality = true ∧ (a.method = .translate → contains "dirac_delta" o.name = true)) ∧
      (ann = [] ↔ ¬ (a.method = .translate ∧ a.annotations = true)) ∧
      (∀ p ∈ ann, NearestSample o.L a.alpha a.beta p.1 p.2) := by
    unfold HarmonicMethod methodName applyMethod
    cases hm : a.method with
    | north => exact ⟨o.coefficients, o.reality, [], by simp [harmonic], rfl, hc, by simp, by simp, by simp⟩
    | rotate =>
      refine ⟨S.rotate o.L o.coefficients alpha beta (a.gamma * Real.pi), o.reality, [], ?_, ⟨alpha, beta, hnear, rfl⟩, hrot _ _ _ _ hc, by simp,
        by simp, by simp⟩
      simp only [rotationHelper, harmonic, hn, bind, Except.bind, pure, Except.pure, String.append_assoc]
    | translate =>
      obtain ⟨h1, h2⟩ := C54_harmonic_translation ylm alpha beta (hy beta alpha) o hc
      have hann : ∀ (ann : List (ℝ × ℝ)), ann = (if a.annotations then [(alpha, beta)] else []) →
          (ann = [] ↔ ¬ (Method.translate = Method.translate ∧ a.annotations = true)) ∧
          (∀ p ∈ ann, NearestSample o.L a.alpha a.beta p.1 p.2) := by
        rintro ann rfl
        cases a.annotations <;> simp [hnear]
      by_cases hd : contains "dirac_delta" o.name = true
      · obtain ⟨t, ht, htl, htv⟩ := h2 hd
        refine ⟨t, o.reality, _, ?_, ⟨alpha, beta, hnear, fun i hi => by rw [if_pos hd]; exact htv i hi⟩, htl, by simp [hd], (hann _ rfl).1,
          (hann _ rfl).2⟩
        simp only [translationHelper, harmonic, hn, bind, Except.bind, ht, pure, Except.pure, String.append_assoc]
      · rw [Bool.not_eq_true] at hd
        obtain ⟨t, ht, htl, htv⟩ := h1 hd
        refine ⟨t, false, _, ?_, ⟨alpha, beta, hnear, fun i hi => by rw [if_neg (by simp [hd])]; exact htv i hi⟩, htl, by simp [hd],
          (hann _ rfl).1, (hann _ rfl).2⟩
        simp only [translationHelper, harmonic, hn, bind, Except.bind, ht, pure, Except.pure, String.append_assoc]
  obtain ⟨c₁, r, ann, h1, h2, h3, h4, h5, h6⟩ := hmethod
  -- the other map
  have hconv : ∃ (c₂ : List ℂ) (r' : Bool),
      applyConvolution (harmonic S ylm o) g c₁ r (o.name ++ methodName limDen a) =
        .ok (c₂, r', o.name ++ methodName limDen a ++ convolvedName g) ∧ (g = none → c₂ = c₁) ∧
      (∀ g', g = some g' → c₂.length = o.L ^ 2 ∧ ∀ i < o.L ^ 2, c₂.getD i 0 = g'.coefficients.getD i 0 * (starRingEnd ℂ) (c₁.getD i 0)) ∧
      (r' = true ↔ r = true ∧ g = none) := by
    cases g with
    | none => exact ⟨c₁, r, by simp [convolvedName, applyConvolution], fun _ => rfl, by simp, by simp⟩
    | some g =>
      obtain ⟨t, ht, htl, htv⟩ := sift_none (hg g rfl) h3
      refine ⟨t, false, ?_, by simp, fun g' hg' => ?_, by simp⟩
      · simp only [applyConvolution, convolutionHelper, harmonic, bind, Except.bind, convolve, ht, pure, Except.pure, convolvedName, String.append_assoc]
      · cases hg'
        exact ⟨htl, htv⟩
  obtain ⟨c₂, r', h7, h8, h9, h10⟩ := hconv
  refine ⟨c₁, c₂, ⟨(applyView S o.L c₂ (o.name ++ methodName limDen a ++ convolvedName g) a.view).1, r',
    (applyView S o.L c₂ (o.name ++ methodName limDen a ++ convolvedName g) a.view).2, ann⟩, ?_, h2, h3, h8, h9,
    (view_step S o.L c₂ _ a.view).1, ?_, h5, h6⟩
  · simp only [plot, h1, h7, bind, Except.bind, pure, Except.pure]
    rfl
  · rw [h10, h4]
    tauto

/-- C75.  Rotating a Slepian function raises `NotImplementedError`. -/
theorem C75_slepian_rotate (limDen : ℚ → ℚ) (S : Masks.Sphere) (e : SlepianEnv L Pix) (pixel : ℝ → ℝ → Pix) (o : Functions.Obj)
    (g : Option Functions.Obj) (a : Args) (hL : 1 ≤ o.L) (hm : a.method = .rotate) :
    plot limDen S (slepian e pixel o) g a = .error .notImplementedError := by
  obtain ⟨alpha, beta, hn, -⟩ := nearest o.L hL a.alpha a.beta
  simp only [plot, applyMethod, hm, rotationHelper, slepian, hn, bind, Except.bind]

/-- What the method does to the coefficients of a Slepian function with Shannon number `N`. -/
def SlepianMethod (e : SlepianEnv L Pix) (pixel : ℝ → ℝ → Pix) (Lf : ℕ) (name : String) (c : List ℂ) (a : Args) (c' : List ℂ) : Prop :=
  match a.method with
  | .north => c' = c
  | .rotate => False
  | .translate => ∃ alpha beta, NearestSample Lf a.alpha a.beta alpha beta ∧
      ∀ (p : ℕ) (v : Fin (L ^ 2) → ℂ), p < e.sl.N → e.sl.evecs[p]? = some v → c'.getD p 0 =
        if contains "dirac_delta" name then (starRingEnd ℂ) (e.synth v (pixel alpha beta)) else c.getD p 0 * e.synth v (pixel alpha beta)

/-- C75.  Slepian functions: as for harmonic functions, with the values of the Slepian functions in place of those of the harmonics, and
the Slepian coefficients of the other map. -/
theorem C75_slepian (limDen : ℚ → ℚ) (S : Masks.Sphere) (e : SlepianEnv L Pix) (he : HasRows e.sl) (pixel : ℝ → ℝ → Pix)
    (o : Functions.Obj) (g : Option Functions.Obj) (a : Args) (hL : 1 ≤ o.L) (hc : e.sl.N ≤ o.coefficients.length)
    (hm : a.method ≠ .rotate) :
    ∃ (c₁ c₂ : List ℂ) (fig : Figure), plot limDen S (slepian e pixel o) g a = .ok fig ∧
      SlepianMethod e pixel o.L o.name o.coefficients a c₁ ∧ e.sl.N ≤ c₁.length ∧
      (g = none → c₂ = c₁) ∧
      (∀ g', g = some g' → c₂.length = e.sl.N ∧ ∀ (p : ℕ) (v : Fin (L ^ 2) → ℂ), p < e.sl.N → e.sl.evecs[p]? = some v →
        c₂.getD p 0 = (∑ i : Fin (L ^ 2), g'.coefficients.getD i 0 * (starRingEnd ℂ) (v i)) * (starRingEnd ℂ) (c₁.getD p 0)) ∧
      ViewSpec S o.L (contains "earth" (o.name ++ methodName limDen a ++ convolvedName g)) a.view c₂ fig.coefficients ∧
      (fig.annotation = [] ↔ ¬ (a.method = .translate ∧ a.annotations = true)) := by
  obtain ⟨alpha, beta, hn, hnear⟩ := nearest o.L hL a.alpha a.beta
  obtain ⟨h, hh, hhl, hhv⟩ := fpHelper_ok e he (pixel alpha beta)
  have hval : ∀ (p : ℕ) (v : Fin (L ^ 2) → ℂ), p < e.sl.N → e.sl.evecs[p]? = some v →
      h.getD p 0 = (starRingEnd ℂ) (e.synth v (pixel alpha beta)) := by
    intro p v hp hv
    rw [hhv p, dif_pos hp]
    rw [List.getElem?_eq_getElem (lt_of_lt_of_le hp he.2)] at hv
    cases hv
    rfl
  have hmethod : ∃ (c₁ : List ℂ) (r : Bool) (ann : List (ℝ × ℝ)), applyMethod limDen (slepian e pixel o) a =
        .ok (c₁, r, o.name ++ methodName limDen a, ann) ∧
      SlepianMethod e pixel o.L o.name o.coefficients a c₁ ∧ e.sl.N ≤ c₁.length ∧
      (ann = [] ↔ ¬ (a.method = .translate ∧ a.annotations = true)) := by
    unfold SlepianMethod methodName applyMethod
    cases hm' : a.method with
    | rotate => exact absurd hm' hm
    | north => exact ⟨o.coefficients, o.reality, [], by simp [slepian], rfl, hc, by simp⟩
    | translate =>
      by_cases hd : contains "dirac_delta" o.name = true
      · refine ⟨h, o.reality, if a.annotations then [(alpha, beta)] else [], ?_,
          ⟨alpha, beta, hnear, fun p v hp hv => by rw [if_pos hd]; exact hval p v hp hv⟩, by rw [hhl]; exact he.1, ?_⟩
        · simp only [translationHelper, slepian, hn, bind, Except.bind, translate, hh, hd, if_true, pure, Except.pure, String.append_assoc]
        · cases a.annotations <;> simp
      · obtain ⟨t, ht, htl, htv⟩ := sift_some hc (g := h) (by rw [hhl]; exact he.1)
        refine ⟨t, false, if a.annotations then [(alpha, beta)] else [], ?_,
          ⟨alpha, beta, hnear, fun p v hp hv => ?_⟩, htl.ge, ?_⟩
        · simp only [translationHelper, slepian, hn, bind, Except.bind, translate, hh, hd, Bool.false_eq_true, if_false, convolve, ht, pure,
            Except.pure, String.append_assoc]
        · rw [if_neg hd, htv p hp, hval p v hp hv, Complex.conj_conj]
        · cases a.annotations <;> simp
  obtain ⟨c₁, r, ann, h1, h2, h3, h4⟩ := hmethod
  have hconv : ∃ (c₂ : List ℂ) (r' : Bool), applyConvolution (slepian e pixel o) g c₁ r (o.name ++ methodName limDen a) =
        .ok (c₂, r', o.name ++ methodName limDen a ++ convolvedName g) ∧ (g = none → c₂ = c₁) ∧
      (∀ g', g = some g' → c₂.length = e.sl.N ∧ ∀ (p : ℕ) (v : Fin (L ^ 2) → ℂ), p < e.sl.N → e.sl.evecs[p]? = some v →
        c₂.getD p 0 = (∑ i : Fin (L ^ 2), g'.coefficients.getD i 0 * (starRingEnd ℂ) (v i)) * (starRingEnd ℂ) (c₁.getD p 0)) := by
    cases g with
    | none => exact ⟨c₁, r, by simp [convolvedName, applyConvolution], fun _ => rfl, by simp⟩
    | some g =>
      have hrow : ∀ p : Fin e.sl.N, e.sl.evecs[(p : ℕ)]? =
          some (e.sl.evecs[(p : ℕ)]'(lt_of_lt_of_le p.2 he.2)) := fun p => List.getElem?_eq_getElem _
      have hf := forward_flm e.sl e.synth e.weight _ rfl he.1 hrow (Functions.asVec L g.coefficients)
      obtain ⟨t, ht, htl, htv⟩ := sift_some (n := e.sl.N) (f := List.ofFn fun p : Fin e.sl.N =>
        ∑ i, Functions.asVec L g.coefficients i * (starRingEnd ℂ) ((e.sl.evecs[(p : ℕ)]'(lt_of_lt_of_le p.2 he.2)) i)) (by simp) h3
      refine ⟨t, false, ?_, by simp, fun g' hg' => ?_⟩
      · simp only [applyConvolution, convolutionHelper, slepian, hf, bind, Except.bind, convolve, ht, pure, Except.pure, convolvedName,
          String.append_assoc]
      · cases hg'
        refine ⟨htl, fun p v hp hv => ?_⟩
        rw [htv p hp]
        rw [List.getElem?_eq_getElem (lt_of_lt_of_le hp he.2)] at hv
        cases hv
        simp [List.getD_eq_getElem?_getD, hp, Functions.asVec]
  obtain ⟨c₂, r', h7, h8, h9⟩ := hconv
  refine ⟨c₁, c₂, ⟨(applyView S o.L c₂ (o.name ++ methodName limDen a ++ convolvedName g) a.view).1, r',
    (applyView S o.L c₂ (o.name ++ methodName limDen a ++ convolvedName g) a.view).2, ann⟩, ?_, h2, h3, h8, h9,
    (view_step S o.L c₂ _ a.view).1, h4⟩
  simp only [plot, h1, h7, bind, Except.bind, pure, Except.pure]
  rfl

/-- C75.  The file name: the name of the function, the method with its angles, the other map, and `_africa` for figures about the Earth
seen from there. -/
theorem C75_filename (limDen : ℚ → ℚ) (S : Masks.Sphere) (f : Target) (g : Option Functions.Obj) (a : Args) (fig : Figure)
    (h : plot limDen S f g a = .ok fig) :
    fig.filename = f.obj.name ++ methodName limDen a ++ convolvedName g ++
      (if contains "earth" (f.obj.name ++ methodName limDen a ++ convolvedName g) = true ∧ a.view = .africa then "_africa" else "") := by
  unfold plot at h
  cases h1 : applyMethod limDen f a with
  | error x => rw [h1] at h; cases h
  | ok p =>
    obtain ⟨c, r, n, ann⟩ := p
    have hn : n = f.obj.name ++ methodName limDen a := by
      unfold applyMethod at h1
      unfold methodName
      cases hm : a.method with
      | north => rw [hm] at h1; simp only [Except.ok.injEq, Prod.mk.injEq] at h1; rw [← h1.2.2.1]; simp
      | rotate =>
        rw [hm] at h1
        simp only [rotationHelper, bind, Except.bind] at h1
        split at h1
        · cases h1
        · rename_i v hv
          split at hv
          · cases hv
          · split at hv
            · cases hv
            · simp only [pure, Except.pure, Except.ok.injEq] at hv h1
              rw [← hv] at h1
              simp only [Prod.mk.injEq] at h1
              rw [← h1.2.2.1, String.append_assoc]
      | translate =>
        rw [hm] at h1
        simp only [translationHelper, bind, Except.bind] at h1
        split at h1
        · cases h1
        · rename_i v hv
          split at hv
          · cases hv
          · split at hv
            · cases hv
            · simp only [pure, Except.pure, Except.ok.injEq] at hv h1
              rw [← hv] at h1
              simp only [Prod.mk.injEq] at h1
              rw [← h1.2.2.1, String.append_assoc]
    rw [h1] at h
    simp only [bind, Except.bind] at h
    cases h2 : applyConvolution f g c r n with
    | error x => rw [h2] at h; cases h
    | ok q =>
      obtain ⟨c', r', n'⟩ := q
      have hn' : n' = n ++ convolvedName g := by
        unfold applyConvolution at h2
        cases g with
        | none => simp only [Except.ok.injEq, Prod.mk.injEq] at h2; rw [← h2.2.2]; simp [convolvedName]
        | some g =>
          simp only [convolutionHelper, bind, Except.bind] at h2
          split at h2
          · cases h2
          · split at h2
            · cases h2
            · simp only [pure, Except.pure, Except.ok.injEq, Prod.mk.injEq] at h2
              rw [← h2.2.2]; simp [convolvedName, String.append_assoc]
      rw [h2] at h
      simp only [pure, Except.pure, Except.ok.injEq] at h
      rw [← h]
      simp only
      rw [(view_step S f.obj.L c' n' a.view).2, hn', hn]

/-- C75 is violated by the order of the factors: the help says that `f` is multiplied with the conjugate of `g`, but the figure shows
the conjugate of that product. -/
theorem C75_convolution_violation (limDen : ℚ → ℚ) (S : Masks.Sphere) (ylm : ℝ → ℝ → List ℂ) (o g : Functions.Obj) (a : Args)
    (hm : a.method = .north) (hc : o.coefficients.length = o.L ^ 2) (hg : g.coefficients.length = o.L ^ 2)
    (he : contains "earth" (o.name ++ "_convolved_" ++ g.name) = false) :
    ∃ fig, plot limDen S (harmonic S ylm o) (some g) a = .ok fig ∧
      ∀ i < o.L ^ 2, fig.coefficients.getD i 0 = (starRingEnd ℂ) (o.coefficients.getD i 0 * (starRingEnd ℂ) (g.coefficients.getD i 0)) ∧
        (fig.coefficients.getD i 0 = o.coefficients.getD i 0 * (starRingEnd ℂ) (g.coefficients.getD i 0) ↔
          (o.coefficients.getD i 0 * (starRingEnd ℂ) (g.coefficients.getD i 0)).im = 0) := by
  obtain ⟨t, ht, htl, htv⟩ := sift_none hg hc
  refine ⟨⟨t, false, o.name ++ "_convolved_" ++ g.name, []⟩, ?_, fun i hi => ?_⟩
  · simp only [plot, applyMethod, hm, applyConvolution, convolutionHelper, harmonic, convolve, ht, applyView, he, bind, Except.bind, pure,
      Except.pure, Bool.false_eq_true, if_false]
  · have h1 : t.getD i 0 = (starRingEnd ℂ) (o.coefficients.getD i 0 * (starRingEnd ℂ) (g.coefficients.getD i 0)) := by
      rw [htv i hi, map_mul, Complex.conj_conj, mul_comm]
    refine ⟨h1, ?_⟩
    change t.getD i 0 = _ ↔ _
    rw [h1, Complex.conj_eq_iff_im]

/-- C75 is violated by the test for `earth`: when a Slepian function is convolved with the Earth, its Slepian coefficients, of which
there are `N`, are rotated as if they were harmonic coefficients. -/
theorem C75_slepian_earth_violation (limDen : ℚ → ℚ) (S : Masks.Sphere) (e : SlepianEnv L Pix) (he : HasRows e.sl)
    (pixel : ℝ → ℝ → Pix) (o g : Functions.Obj) (a : Args) (hL : 1 ≤ o.L) (hm : a.method = .north) (hv : a.view = .southAmerica)
    (hc : e.sl.N ≤ o.coefficients.length) (hg : g.name = "earth_L" ++ toString o.L) :
    ∃ fig c, plot limDen S (slepian e pixel o) (some g) a = .ok fig ∧ c.length = e.sl.N ∧
      (∀ (p : ℕ) (v : Fin (L ^ 2) → ℂ), p < e.sl.N → e.sl.evecs[p]? = some v →
        c.getD p 0 = (∑ i : Fin (L ^ 2), g.coefficients.getD i 0 * (starRingEnd ℂ) (v i)) * (starRingEnd ℂ) (o.coefficients.getD p 0)) ∧
      fig.coefficients = S.rotate o.L c (54 * Real.pi / 180) (108 * Real.pi / 180) (63 * Real.pi / 180) := by
  obtain ⟨c₁, c₂, fig, h1, h2, -, -, h3, h4, -⟩ := C75_slepian limDen S e he pixel o (some g) a hL hc (by rw [hm]; decide)
  have hearth : contains "earth" (o.name ++ methodName limDen a ++ convolvedName (some g)) = true := by
    unfold contains convolvedName
    rw [decide_eq_true_eq]
    dsimp only
    rw [hg]
    simp only [String.toList_append]
    refine ⟨(o.name.toList ++ (methodName limDen a).toList) ++ "_convolved_".toList, "_L".toList ++ (toString o.L).toList, ?_⟩
    have : "earth_L".toList = "earth".toList ++ "_L".toList := rfl
    rw [this]
    simp only [List.append_assoc]
  unfold SlepianMethod at h2
  rw [hm] at h2
  dsimp only at h2
  subst h2
  exact ⟨fig, c₂, h1, (h3 g rfl).1, (h3 g rfl).2, h4.2.2 hearth hv⟩

/-! ### file names -/

/-- the name of a function object with a bandlimit (C67). -/
def EndsInBandlimit (n : String) : Prop := ∃ (x : String) (K : ℕ), n = x ++ "_L" ++ toString K

private def EndsWithoutA (s : List Char) : Prop := ∃ u v : List Char, s = u ++ v ∧ v ≠ [] ∧ 'a' ∉ v

private theorem EndsWithoutA.append {s : List Char} (u : List Char) (h : EndsWithoutA s) : EndsWithoutA (u ++ s) := by
  obtain ⟨a, b, rfl, h1, h2⟩ := h
  exact ⟨u ++ a, b, by simp, h1, h2⟩

private theorem not_africa {s t : List Char} (h : EndsWithoutA s) : s ≠ t ++ "_africa".toList := by
  obtain ⟨u, v, rfl, h1, h2⟩ := h
  intro h3
  have h4 := congrArg List.getLast? h3
  rw [List.getLast?_append_of_ne_nil _ h1, List.getLast?_append_of_ne_nil _ (by decide)] at h4
  have h5 : "_africa".toList.getLast? = some 'a' := by decide
  rw [h5] at h4
  exact h2 (List.mem_of_getLast? h4)

private theorem endsWithoutA_bandlimit {n : String} (h : EndsInBandlimit n) : EndsWithoutA n.toList := by
  obtain ⟨x, K, rfl⟩ := h
  exact ⟨(x ++ "_L").toList, (toString K).toList, by simp only [String.toList_append], Names.nat_toList_ne_nil K,
    Names.not_mem_nat (by decide)⟩

theorem angleField_chars (num : ℤ) (den : ℕ) {c : Char} (h1 : c.isDigit = false) (h2 : c ≠ '-') (h3 : c ≠ 'p') (h4 : c ≠ 'i') :
    c ∉ (Strings.angleField num den).toList := by
  unfold Strings.angleField Strings.piInFilename
  have e : "pi".toList = ['p', 'i'] := rfl
  have e0 : "0".toList = ['0'] := rfl
  split_ifs
  · rw [e0]
    intro hc
    rw [List.mem_singleton] at hc
    subst hc
    exact absurd h1 (by decide)
  · simp only [String.toList_append, List.mem_append, not_or, e, List.mem_cons, List.not_mem_nil, or_false]
    exact ⟨⟨Names.not_mem_int h1 h2, h3, h4⟩, Names.not_mem_nat h1⟩
  · simp only [String.toList_append, List.mem_append, not_or, e, List.mem_cons, List.not_mem_nil, or_false, String.toList_empty,
      not_false_eq_true, and_true]
    exact ⟨Names.not_mem_int h1 h2, h3, h4⟩

private theorem angleField_ne (num : ℤ) (den : ℕ) : (Strings.angleField num den).toList ≠ [] := by
  unfold Strings.angleField Strings.piInFilename
  have e : "pi".toList = ['p', 'i'] := rfl
  split_ifs
  · decide
  · simp [String.toList_append, e]
  · simp [String.toList_append, e]

private theorem angle_ends (limDen : ℚ → ℚ) (a b g : ℚ) : EndsWithoutA (Strings.filenameAngle limDen a b g).toList := by
  rw [Strings.filenameAngle_eq]
  split_ifs
  · refine ⟨("alpha" ++ Strings.angleField (limDen a).num (limDen a).den ++ "_beta").toList,
      (Strings.angleField (limDen b).num (limDen b).den).toList, by simp [String.toList_append], angleField_ne _ _,
      angleField_chars _ _ (by decide) (by decide) (by decide) (by decide)⟩
  · refine ⟨("alpha" ++ Strings.angleField (limDen a).num (limDen a).den ++ "_beta" ++
      Strings.angleField (limDen b).num (limDen b).den ++ "_gamma").toList,
      (Strings.angleField (limDen g).num (limDen g).den).toList, by simp [String.toList_append], angleField_ne _ _,
      angleField_chars _ _ (by decide) (by decide) (by decide) (by decide)⟩

private theorem angle_no_c (limDen : ℚ → ℚ) (a b g : ℚ) : 'c' ∉ (Strings.filenameAngle limDen a b g).toList := by
  have hf : ∀ n d, 'c' ∉ (Strings.angleField n d).toList :=
    fun n d => angleField_chars n d (by decide) (by decide) (by decide) (by decide)
  have e1 : 'c' ∉ "alpha".toList := by decide
  have e2 : 'c' ∉ "_beta".toList := by decide
  have e3 : 'c' ∉ "_gamma".toList := by decide
  rw [Strings.filenameAngle_eq]
  split_ifs <;> simp only [String.toList_append, List.mem_append, not_or, String.toList_empty, List.not_mem_nil, not_false_eq_true,
    and_true] <;> simp only [e1, e2, e3, hf, not_false_eq_true, and_self]

private theorem methodName_no_c (limDen : ℚ → ℚ) (a : Args) : 'c' ∉ (methodName limDen a).toList := by
  have e1 : 'c' ∉ "_rotate_".toList := by decide
  have e2 : 'c' ∉ "_translate_".toList := by decide
  unfold methodName
  split
  · decide
  · simp only [String.toList_append, List.mem_append, not_or]; exact ⟨e1, angle_no_c _ _ _ _⟩
  · simp only [String.toList_append, List.mem_append, not_or]; exact ⟨e2, angle_no_c _ _ _ _⟩

private theorem base_ends (limDen : ℚ → ℚ) (name : String) (hn : EndsInBandlimit name) (a : Args) (g : Option Functions.Obj)
    (hg : ∀ g', g = some g' → EndsInBandlimit g'.name) :
    EndsWithoutA (name ++ methodName limDen a ++ convolvedName g).toList := by
  cases g with
  | some g =>
    simp only [convolvedName, String.toList_append]
    exact EndsWithoutA.append _ (EndsWithoutA.append _ (endsWithoutA_bandlimit (hg g rfl)))
  | none =>
    have e : (name ++ methodName limDen a ++ convolvedName none).toList = name.toList ++ (methodName limDen a).toList := by
      simp [convolvedName, String.toList_append]
    rw [e]
    unfold methodName
    split
    · simpa using endsWithoutA_bandlimit hn
    · simp only [String.toList_append]
      exact EndsWithoutA.append _ (EndsWithoutA.append _ (angle_ends _ _ _ _))
    · simp only [String.toList_append]
      exact EndsWithoutA.append _ (EndsWithoutA.append _ (angle_ends _ _ _ _))

/-- C75.  Figures of the same function with the same file name were made by the same method with the same angles (up to
`limit_denominator`; the third only matters for rotations), with maps of the same name, and, if they are about the Earth, with the
same view: figures do not overwrite each other. -/
theorem C75_filename_determines (limDen : ℚ → ℚ) (S : Masks.Sphere) (f f' : Target) (hf : f.obj.name = f'.obj.name)
    (hn : EndsInBandlimit f.obj.name) (g g' : Option Functions.Obj) (hg : ∀ x, g = some x → EndsInBandlimit x.name)
    (hg' : ∀ x, g' = some x → EndsInBandlimit x.name) (a a' : Args) (fig fig' : Figure)
    (h : plot limDen S f g a = .ok fig) (h' : plot limDen S f' g' a' = .ok fig') (hname : fig.filename = fig'.filename) :
    a.method = a'.method ∧
    (a.method ≠ .north → limDen a.alpha = limDen a'.alpha ∧ limDen a.beta = limDen a'.beta) ∧
    (a.method = .rotate → limDen a.gamma = limDen a'.gamma) ∧
    g.map (·.name) = g'.map (·.name) ∧
    (contains "earth" fig.filename = true → a.view = a'.view) := by
  have h1 := C75_filename limDen S f g a fig h
  have h2 := C75_filename limDen S f' g' a' fig' h'
  rw [← hf] at h2
  set B := f.obj.name ++ methodName limDen a ++ convolvedName g with hB
  set B' := f.obj.name ++ methodName limDen a' ++ convolvedName g' with hB'
  have hbe := base_ends limDen f.obj.name hn a g hg
  have hbe' := base_ends limDen f.obj.name hn a' g' hg'
  rw [← hB] at hbe
  rw [← hB'] at hbe'
  have hfile : fig.filename = fig'.filename := hname
  rw [h1, h2] at hfile
  have hl := congrArg String.toList hfile
  simp only [String.toList_append] at hl
  -- the view
  have hview : B = B' ∧ ((contains "earth" B = true ∧ a.view = .africa) ↔ (contains "earth" B' = true ∧ a'.view = .africa)) := by
    by_cases p : contains "earth" B = true ∧ a.view = .africa <;> by_cases q : contains "earth" B' = true ∧ a'.view = .africa
    · rw [if_pos p, if_pos q] at hl
      exact ⟨String.toList_injective (List.append_cancel_right hl), by simp [p, q]⟩
    · rw [if_pos p, if_neg q] at hl
      simp only [String.toList_empty, List.append_nil] at hl
      exact absurd hl.symm (not_africa hbe')
    · rw [if_neg p, if_pos q] at hl
      simp only [String.toList_empty, List.append_nil] at hl
      exact absurd hl (not_africa hbe)
    · rw [if_neg p, if_neg q] at hl
      simp only [String.toList_empty, List.append_nil] at hl
      exact ⟨String.toList_injective hl, by tauto⟩
  obtain ⟨hBB, hv⟩ := hview
  have hl2 := congrArg String.toList hBB
  rw [hB, hB'] at hl2
  simp only [String.toList_append, List.append_assoc] at hl2
  have hl3 := List.append_cancel_left hl2
  have c1 := methodName_no_c limDen a
  have c2 := methodName_no_c limDen a'
  have e : "_convolved_".toList = '_' :: 'c' :: "onvolved_".toList := rfl
  -- the other map
  have hsplit : methodName limDen a = methodName limDen a' ∧ g.map (·.name) = g'.map (·.name) := by
    cases g with
    | none =>
      cases g' with
      | none =>
        simp only [convolvedName, String.toList_empty, List.append_nil] at hl3
        exact ⟨String.toList_injective hl3, rfl⟩
      | some x =>
        simp only [convolvedName, String.toList_empty, List.append_nil, String.toList_append, e] at hl3
        exact absurd (by rw [hl3]; simp) c1
    | some y =>
      cases g' with
      | none =>
        simp only [convolvedName, String.toList_empty, List.append_nil, String.toList_append, e] at hl3
        exact absurd (by rw [← hl3]; simp) c2
      | some x =>
        simp only [convolvedName, String.toList_append, e, List.cons_append] at hl3
        have hl4 : ((methodName limDen a).toList ++ ['_']) ++ 'c' :: ("onvolved_".toList ++ y.name.toList) =
            ((methodName limDen a').toList ++ ['_']) ++ 'c' :: ("onvolved_".toList ++ x.name.toList) := by
          simpa using hl3
        obtain ⟨p1, p2⟩ := Names.split_first (by simp [c1]) (by simp [c2]) hl4
        refine ⟨String.toList_injective (List.append_cancel_right p1), ?_⟩
        simp [String.toList_injective (List.append_cancel_left p2)]
  obtain ⟨hmm, hgg⟩ := hsplit
  have e1 : "_rotate_".toList = '_' :: 'r' :: "otate_".toList := rfl
  have e2 : "_translate_".toList = '_' :: 't' :: "ranslate_".toList := rfl
  have hm3 := congrArg String.toList hmm
  unfold methodName at hm3 hmm
  refine ⟨?_, ?_, ?_, hgg, ?_⟩
  · cases p : a.method <;> cases q : a'.method <;> rw [p, q] at hm3 <;> simp [e1, e2, String.toList_append] at hm3 ⊢
  · intro hne
    cases p : a.method <;> cases q : a'.method <;> rw [p, q] at hm3 hmm <;> simp only [String.toList_append, e1, e2] at hm3
    · exact absurd p hne
    · simp at hm3
    · simp at hm3
    · simp at hm3
    · have hang := (C45_angles limDen _ _ _ _ _ _).1 (String.toList_injective (List.append_cancel_left hm3))
      exact ⟨hang.1, hang.2.1⟩
    · simp at hm3
    · simp at hm3
    · simp at hm3
    · have hang := (C45_angles limDen _ _ _ _ _ _).1 (String.toList_injective (List.append_cancel_left hm3))
      exact ⟨hang.1, hang.2.1⟩
  · intro p
    cases q : a'.method <;> rw [p, q] at hm3 <;> simp only [String.toList_append, e1, e2] at hm3
    · simp at hm3
    · exact ((C45_angles limDen _ _ _ _ _ _).1 (String.toList_injective (List.append_cancel_left hm3))).2.2
    · simp at hm3
  · intro he
    rw [h1] at he
    have heB : contains "earth" B = true := by
      by_cases p : contains "earth" B = true ∧ a.view = .africa
      · exact p.1
      · rw [if_neg p] at he
        simpa using he
    cases p : a.view <;> cases q : a'.view
    · rfl
    · have := (hv.1 ⟨heB, p⟩).2
      rw [q] at this; cases this
    · have := (hv.2 ⟨hBB ▸ heB, q⟩).2
      rw [p] at this; cases this
    · rfl

/-! ### examples -/

private noncomputable def exampleSphere : Masks.Sphere where
  shape := fun _ => (2, 2)
  theta := fun _ i _ => i
  phi := fun _ _ j => j
  inverseReal := fun _ _ _ _ => 1
  forward := fun _ _ _ _ => []
  rotate := fun _ f _ _ _ => f
  smooth := fun f _ _ => f
  earthFile := [1]

/-- the hypotheses of C75 are met, and the documented product is not the one shown: `f = i`, `g = 1` at bandlimit 1. -/
example : ∃ (o g : Functions.Obj) (a : Args) (ylm : ℝ → ℝ → List ℂ), 1 ≤ o.L ∧ o.coefficients.length = o.L ^ 2 ∧
    g.coefficients.length = o.L ^ 2 ∧ (∀ t p, (ylm t p).length = o.L ^ 2) ∧
    (∀ c x y z, c.length = o.L ^ 2 → (exampleSphere.rotate o.L c x y z).length = o.L ^ 2) ∧ EndsInBandlimit o.name ∧
    EndsInBandlimit g.name ∧ a.method = .north ∧ contains "earth" (o.name ++ "_convolved_" ++ g.name) = false ∧
    (o.coefficients.getD 0 0 * (starRingEnd ℂ) (g.coefficients.getD 0 0)).im ≠ 0 := by
  refine ⟨⟨1, "gaussian_1000sig_L1", 0, true, [I], none, none⟩, ⟨1, "wmap_L1", 0, true, [1], none, none⟩,
    ⟨3 / 4, 1 / 8, 0, true, .north, .southAmerica⟩, fun _ _ => [1], le_rfl, rfl, rfl, fun _ _ => rfl, fun _ _ _ _ h => h,
    ⟨"gaussian_1000sig", 1, by decide +kernel⟩, ⟨"wmap", 1, by decide +kernel⟩, rfl, by decide +kernel, by simp⟩

end Sleplet.Props
