import Verif.Lemmas.Wavelets
import Verif.Model.Classes
import Verif.Props.Earth
import Verif.Props.Functions
import Verif.Props.FunctionObjects

/-!
C70 (the reality flag of function classes, and their number of coefficients), C71 (wavelet classes).
-/
namespace Sleplet.Props

open Complex NumPy Classes Spec

/-- What is assumed of the external transforms and data at bandlimit `L`: the forward transform gives `L²` coefficients, and with
`Reality=True` and spin zero those of a real signal; smoothing multiplies coefficients as documented; the topography has at least
`L²` coefficients, those of order zero real; and the generating functions have a value for every degree. -/
structure GoodEnv (e : Env) (L : ℕ) : Prop where
  forward_length : ∀ reality spin g, (e.S.forward L reality spin g).length = L ^ 2
  forward_real : ∀ g : ℕ → ℕ → ℝ, RealSignal L (e.S.forward L true 0 fun i j => (g i j : ℂ))
  smoothing : GaussianSmoothing e.S.smooth
  pos : 0 < L
  earth_length : L ^ 2 ≤ e.S.earthFile.length
  earth_real : ∀ l < L, (e.S.earthFile.getD (l ^ 2 + l) 0).im = 0
  kappas : ∀ B jMin, ∀ k ∈ e.kappas L B jMin, L ≤ k.length

/-- the sum of real signals. -/
private theorem real_add {L : ℕ} {a b c : List ℂ} (ha : RealSignal L a) (hb : RealSignal L b) (hl : c.length = L ^ 2)
    (hc : ∀ i < L ^ 2, c.getD i 0 = a.getD i 0 + b.getD i 0) : RealSignal L c := by
  refine ⟨hl, fun l m h1 h2 => ?_⟩
  have hlt : ∀ m : ℤ, |m| ≤ l → elm2ind l m < L ^ 2 :=
    fun m hm => Noise.elm2ind_lt_of_sq hm (Nat.pow_le_pow_left (by omega) 2)
  rw [hc _ (hlt (-m) (by rwa [abs_neg])), hc _ (hlt m h2), ha.2 l m h1 h2, hb.2 l m h1 h2, map_add]
  ring

private theorem earth_real {e : Env} {L : ℕ} (h : GoodEnv e L) {smoothing : Option ℤ} {c : List ℂ}
    (hc : Masks.earth e.S L smoothing = .ok c) : RealSignal L c := by
  obtain ⟨flm, h1, h2, -, h3⟩ := C22_earth_real e.S.smooth h.smoothing e.S.earthFile L h.pos h.earth_length h.earth_real
  unfold Masks.earth at hc
  cases smoothing with
  | none => rw [h1] at hc; cases hc; exact h2
  | some f =>
    by_cases hf : f = 0
    · exfalso
      subst hf
      unfold Noise.createEarth at h1 hc
      cases hd : (List.range' 1 (L - 1)).foldlM (fun flm ell => (List.range' 1 ell).foldlM (Noise.earthOrder ell) flm) e.S.earthFile with
      | error x => rw [hd] at hc; cases hc
      | ok v =>
        rw [hd] at hc
        simp [bind, Except.bind, Noise.applyGaussianSmoothing] at hc
    · obtain ⟨out, h4, h5, -⟩ := h3 f hf
      rw [h4] at hc; cases hc; exact h5

private theorem land_real {e : Env} {L : ℕ} (h : GoodEnv e L) {name : String} {rot : List ℂ → List ℂ}
    {smoothing : Option ℤ} {c : List ℂ} (hc : land e L name rot true 0 smoothing = .ok c) : RealSignal L c := by
  unfold land at hc
  cases h1 : Masks.earth e.S L smoothing with
  | error x => rw [h1] at hc; cases hc
  | ok flm =>
    rw [h1] at hc
    simp only [bind, Except.bind] at hc
    split at hc
    · cases hc
    · split_ifs at hc
      cases hc
      exact h.forward_real _

private theorem select_axisym {e : Env} {L : ℕ} (h : GoodEnv e L) (v : Wave) :
    ∃ ws, Wavelets.createAxisym L (e.kappas L v.B v.jMin) = .ok ws ∧ ws.length = (e.kappas L v.B v.jMin).length ∧
      ∀ (i : ℕ) (k : List ℝ) (w : List ℂ), (e.kappas L v.B v.jMin)[i]? = some k → ws[i]? = some w → w.length = L ^ 2 ∧
        ∀ (l : ℕ) (m : ℤ), l < L → |m| ≤ l → w.getD (elm2ind l m) 0 =
          if m = 0 then (Real.sqrt ((2 * (l : ℝ) + 1) / (4 * Real.pi)) : ℂ) * (k.getD l 0 : ℂ) else 0 := by
  classical
  let W : List ℝ → List ℂ := fun k => if hk : L ≤ k.length then (Wavelets.axisymRow_ok L k hk).choose else []
  have hW : ∀ k ∈ e.kappas L v.B v.jMin, Wavelets.axisymRow L k = .ok (W k) := by
    intro k hk
    have hk' := h.kappas _ _ k hk
    simp only [W, dif_pos hk']
    exact (Wavelets.axisymRow_ok L k hk').choose_spec.1
  refine ⟨(e.kappas L v.B v.jMin).map W, mapM_eq_ok _ _ _ hW, by simp, fun i k w h1 h2 => ?_⟩
  have hk' := h.kappas _ _ k (List.mem_of_getElem? h1)
  rw [List.getElem?_map, h1] at h2
  simp only [Option.map_some, Option.some.injEq, W, dif_pos hk'] at h2
  rw [← h2]
  exact (Wavelets.axisymRow_ok L k hk').choose_spec.2

private theorem item_ok {α : Type} {a : List α} {i : ℕ} {x : α} (h : item a i = .ok x) : a[i]? = some x := by
  unfold item at h
  split at h
  · rename_i y hy; cases h; exact hy
  · cases h

private theorem of_map {α β : Type} {x : Except Err α} {w : β} {c : α} {w' : β} (h : x.map (·, w) = .ok (c, w')) : x = .ok c := by
  cases x with
  | error e => cases h
  | ok a => simp only [Except.map, Except.ok.injEq, Prod.mk.injEq] at h; rw [h.1]

private theorem gaussian_zero {L : ℕ} (hL : 0 < L) {s : ℝ} {c : List ℂ} (h : Functions.gaussian L s = .ok c) : RealSignal L c := by
  by_cases hs : s = 0
  · rw [(C55_gaussian L s).2 hs hL] at h; cases h
  · obtain ⟨flm, h1, -, -, h2⟩ := (C55_gaussian L s).1 hs
    rw [h1] at h; cases h; exact h2

/-- the coefficients made for a class with the flag, other than the identity. -/
private theorem create_real {e : Env} {L : ℕ} (h : GoodEnv e L) (fn : Fn) (hr : fn.reality = true) (hi : fn ≠ .identity)
    (smoothing : Option ℤ) (w w' : Noise.World) (c : List ℂ) (hc : fn.create e L smoothing w = .ok (c, w')) : RealSignal L c := by
  cases fn <;> simp only [Fn.reality, Bool.false_eq_true] at hr <;> simp only [Fn.create] at hc
  case identity => exact absurd rfl hi
  case africa => exact land_real h (of_map hc)
  case southAmerica => exact land_real h (of_map hc)
  case earth => exact earth_real h (of_map hc)
  case diracDelta =>
    obtain ⟨flm, h1, -, -, h2⟩ := C55_dirac_delta L
    have := of_map hc
    rw [h1] at this; cases this; exact h2
  case gaussian s => exact gaussian_zero h.pos (of_map hc)
  case elongatedGaussian t p =>
    simp only [Except.ok.injEq, Prod.mk.injEq] at hc
    rw [← hc.1]; exact h.forward_real _
  case squashedGaussian t p =>
    simp only [Except.ok.injEq, Prod.mk.injEq] at hc
    rw [← hc.1]; exact h.forward_real _
  case noiseEarth s =>
    cases h1 : Masks.earth e.S L smoothing with
    | error x => rw [h1] at hc; cases hc
    | ok flm =>
      rw [h1] at hc
      obtain ⟨n, w₁, h2, h3, -⟩ := C22_noise_real e.normals L flm s w
      simp only [bind, Except.bind, h2, Except.ok.injEq, Prod.mk.injEq] at hc
      rw [← hc.1]; exact h3
  case wmap =>
    rcases Nat.lt_or_ge (e.wmapFile.length + 2) L with hl | hl
    · rw [C22_wmap_short _ _ _ hl] at hc; cases hc
    · obtain ⟨flm, h1, h2, -⟩ := C22_wmap_real e.normals e.wmapFile L hl
      rw [h1 w] at hc
      simp only [Except.ok.injEq, Prod.mk.injEq] at hc
      rw [← hc.1]; exact h2
  case axisymmetricWavelets v =>
    obtain ⟨ws, h1, hwl, h2⟩ := select_axisym h v
    have h3 := of_map hc
    unfold axisymSelect at h3
    rw [h1] at h3
    have h4 := item_ok h3
    have h5 : Wavelets.jth v.j < (e.kappas L v.B v.jMin).length := by
      by_contra hn
      have : ws.length ≤ Wavelets.jth v.j := by omega
      rw [List.getElem?_eq_none this] at h4; cases h4
    obtain ⟨h6, h7⟩ := h2 _ _ c (List.getElem?_eq_getElem h5) h4
    refine ⟨h6, fun l m hl hm => ?_⟩
    rw [h7 l m hl hm, h7 l (-m) hl (by rwa [abs_neg])]
    by_cases hm0 : m = 0
    · subst hm0
      simp only [neg_zero, if_true, zpow_zero, one_mul, map_mul, conj_ofReal]
    · simp [hm0]

/-- C70.  Every object flagged as real, of any class except the identity, with or without noise and smoothing, holds the coefficients
of a real signal, and has spin zero. -/
theorem C70_reality_partial (limDen : ℚ → ℚ) (e : Env) (fn : Fn) (extra : Option (List ℤ)) (s : Functions.Settings)
    (h : GoodEnv e s.L) (w w' : Noise.World) (o : Functions.Obj) (ho : fn.construct limDen e extra s w = .ok (o, w'))
    (hr : o.reality = true) (hi : fn ≠ .identity) : RealSignal s.L o.coefficients ∧ o.spin = 0 := by
  unfold Fn.construct at ho
  cases h1 : fn.setupArgs e.jMax s.L extra with
  | error x => rw [h1] at ho; cases ho
  | ok fn' =>
    rw [h1] at ho
    simp only [bind, Except.bind] at ho
    have hi' : fn' ≠ .identity := by
      intro hf; subst hf
      cases fn <;> simp only [Fn.setupArgs, noArgs, powArg, powArgs, snrArg] at h1
      case identity => exact hi rfl
      all_goals first
        | (rcases extra with _ | a <;> first | cases h1 | (rcases a with _ | ⟨a, _ | ⟨b, _ | _⟩⟩ <;> cases h1))
        | (cases hx : waveArgs e.jMax s.L _ extra <;> rw [hx] at h1 <;> cases h1)
        | (cases hx : ridgeletArgs e.jMax s.L _ _ extra <;> rw [hx] at h1 <;> cases h1)
        | (cases hx : Functions.sphericalHarmonicArgs s.L _ _ extra <;> rw [hx] at h1 <;> cases h1)
    cases hc : fn'.create e s.L s.smoothing w with
    | error x =>
      simp [Functions.flm, Functions.postInit, bind, Except.bind, hc] at ho
    | ok p =>
      obtain ⟨c, w₁⟩ := p
      obtain ⟨L, noise, region, smoothing⟩ := s
      dsimp only at *
      have hflag : o.reality = fn'.reality ∧ o.spin = fn'.spin := by
        simp only [Functions.flm, Functions.postInit, bind, Except.bind, hc] at ho
        split at ho
        · cases ho
        · simp only [pure, Except.pure, Except.ok.injEq, Prod.mk.injEq] at ho
          rw [← ho.1]; exact ⟨rfl, rfl⟩
      have hc' := create_real h fn' (hflag.1 ▸ hr) hi' smoothing w w₁ c hc
      have hspin : o.spin = 0 := by
        rw [hflag.2]
        have := hflag.1 ▸ hr
        cases fn' <;> simp [Fn.reality, Fn.spin] at this ⊢
      refine ⟨?_, hspin⟩
      cases noise with
      | none =>
        simp only [Functions.flm, Functions.postInit, bind, Except.bind, hc, Functions.flmNoise, Functions.addNoiseWith, pure,
          Except.pure, Except.ok.injEq, Prod.mk.injEq] at ho
        rw [← ho.1]; exact hc'
      | some snr =>
        obtain ⟨n, hn, hall⟩ := C53_harmonic_noise (L := L) limDen e.normals snr c hc'.1
        obtain ⟨o', w₂, h2, h3, h4, -⟩ := hall
          { setupArgs := .ok (), name := fn'.name limDen, spin := fn'.spin, reality := fn'.reality, create := fn'.create e L smoothing }
          region smoothing w w₁ rfl hc
        rw [h2] at ho
        simp only [Except.ok.injEq, Prod.mk.injEq] at ho
        rw [← ho.1]
        exact real_add hc' hn h3 h4

/-- C70 is violated by the identity from bandlimit 2 on: it is flagged as real and is not a real signal. -/
theorem C70_identity_violation (limDen : ℚ → ℚ) (e : Env) (L : ℕ) (hL : 2 ≤ L) (region : Option Region.Obj) (smoothing : Option ℤ)
    (w : Noise.World) :
    ∃ o, Fn.construct limDen e .identity none ⟨L, none, region, smoothing⟩ w = .ok (o, w) ∧ o.reality = true ∧
      ¬ RealSignal L o.coefficients := by
  refine ⟨⟨L, Functions.addDetails limDen ⟨L, none, region, smoothing⟩ (Fn.identity.name limDen), 0, true, Functions.identity L,
    none, none⟩, ?_, rfl, C55_identity_violation L hL⟩
  simp only [Fn.construct, Fn.setupArgs, noArgs, Functions.flm, Functions.postInit, Fn.create, bind, Except.bind,
    Functions.flmNoise, Functions.addNoiseWith, pure, Except.pure]
  rfl

private theorem foldlM_length {α : Type} {n : ℕ} (step : List ℂ → α → Except Err (List ℂ))
    (h : ∀ a x b, a.length = n → step a x = .ok b → b.length = n) (xs : List α) :
    ∀ a b : List ℂ, a.length = n → xs.foldlM step a = .ok b → b.length = n := by
  induction xs with
  | nil => intro a b ha hb; cases hb; exact ha
  | cons x xs ih =>
    intro a b ha hb
    rw [List.foldlM_cons] at hb
    cases hx : step a x with
    | error e => rw [hx] at hb; cases hb
    | ok c => rw [hx] at hb; exact ih c b (h a x c ha hx) hb

private theorem setItem_length {a b : List ℂ} {i : ℕ} {x : ℂ} {n : ℕ} (ha : a.length = n) (h : setItem a i x = .ok b) :
    b.length = n := by
  unfold setItem at h
  split_ifs at h
  cases h
  simpa using ha

private theorem harmonic_length {L : ℕ} {a b : ℝ} {c : List ℂ} (h : Functions.harmonicGaussian L a b = .ok c) : c.length = L ^ 2 := by
  unfold Functions.harmonicGaussian at h
  refine foldlM_length _ ?_ _ _ _ (by simp) h
  intro u x v hu hv
  simp only [bind, Except.bind] at hv
  split at hv
  · cases hv
  · refine foldlM_length _ ?_ _ _ _ hu hv
    intro u' m v' hu' hv'
    split at hv'
    · cases hv'
    · exact setItem_length hu' hv'

/-- C70.  Every object of every class has `L²` coefficients. -/
theorem C70_length (limDen : ℚ → ℚ) (e : Env) (fn : Fn) (extra : Option (List ℤ)) (s : Functions.Settings)
    (h : GoodEnv e s.L) (w w' : Noise.World) (o : Functions.Obj) (ho : fn.construct limDen e extra s w = .ok (o, w')) :
    o.coefficients.length = s.L ^ 2 := by
  unfold Fn.construct at ho
  cases h1 : fn.setupArgs e.jMax s.L extra with
  | error x => rw [h1] at ho; cases ho
  | ok fn' =>
    rw [h1] at ho
    simp only [bind, Except.bind] at ho
    cases hc : fn'.create e s.L s.smoothing w with
    | error x => simp [Functions.flm, Functions.postInit, bind, Except.bind, hc] at ho
    | ok p =>
      obtain ⟨c, w₁⟩ := p
      have hlen : c.length = s.L ^ 2 := by
        by_cases hr : fn'.reality = true
        · by_cases hi : fn' = .identity
          · subst hi
            simp only [Fn.create, Except.ok.injEq, Prod.mk.injEq] at hc
            rw [← hc.1]; simp [Functions.identity]
          · exact (create_real h fn' hr hi _ _ _ _ hc).1
        · have hland : ∀ {name rot c}, land e s.L name rot true 0 s.smoothing = .ok c → c.length = s.L ^ 2 :=
            fun h' => (land_real h h').1
          have hcoef : ∀ {v map c}, (∀ f, map = .ok f → f.length = s.L ^ 2) → axisymCoefficients e s.L v map = .ok c →
              c.length = s.L ^ 2 := by
            intro v map c hm hc
            obtain ⟨ws, hw1, hw2, hw3⟩ := select_axisym h v
            unfold axisymCoefficients at hc
            rw [hw1] at hc
            cases map with
            | error x => cases hc
            | ok f =>
              simp only [bind, Except.bind] at hc
              split at hc
              · cases hc
              · rename_i rows hrows
                have hmem := item_ok hc
                unfold Wavelets.axisymForward at hrows
                classical
                have hF : ∀ psi ∈ ws, Wavelets.forwardRow s.L f psi =
                    .ok (if hp : psi.length = s.L ^ 2 then (Wavelets.forwardRow_ok s.L f psi (hm f rfl) hp).choose else []) := by
                  intro psi hp
                  obtain ⟨i, hi, rfl⟩ := List.getElem_of_mem hp
                  have hl := (hw3 i _ _ (List.getElem?_eq_getElem (by omega)) (List.getElem?_eq_getElem hi)).1
                  rw [dif_pos hl]
                  exact (Wavelets.forwardRow_ok s.L f ws[i] (hm f rfl) hl).choose_spec.1
                rw [mapM_eq_ok _ _ _ hF] at hrows
                cases hrows
                rw [List.getElem?_map] at hmem
                cases hg : ws[Wavelets.jth v.j]? with
                | none => rw [hg] at hmem; cases hmem
                | some psi =>
                  rw [hg] at hmem
                  have hlt : Wavelets.jth v.j < ws.length := by
                    by_contra hn; rw [List.getElem?_eq_none (by omega)] at hg; cases hg
                  have hl := (hw3 _ _ psi (List.getElem?_eq_getElem (by omega)) hg).1
                  simp only [Option.map_some, dif_pos hl, Option.some.injEq] at hmem
                  rw [← hmem]
                  exact (Wavelets.forwardRow_ok s.L f psi (hm f rfl) hl).choose_spec.2.1
          cases fn' <;> simp only [Fn.reality, not_true_eq_false] at hr <;> simp only [Fn.create] at hc
          case axisymmetricWaveletCoefficientsAfrica v => exact hcoef (fun f hf => hland hf) (of_map hc)
          case axisymmetricWaveletCoefficientsSouthAmerica v => exact hcoef (fun f hf => hland hf) (of_map hc)
          case axisymmetricWaveletCoefficientsEarth v => exact hcoef (fun f hf => (earth_real h hf).1) (of_map hc)
          case harmonicGaussian a b => exact harmonic_length (of_map hc)
          case sphericalHarmonic a b => 
            have hset := of_map hc
            unfold createSphericalHarmonic at hset
            split_ifs at hset
            cases hset
            simp
          case ridgelets v spin =>
            obtain ⟨ws, hw1, hw2, hw3⟩ := C55_ridgelets s.L spin _ (h.kappas v.B v.jMin)
            rw [hw1] at hc
            simp only [bind, Except.bind] at hc
            split at hc
            · cases hc
            · rename_i row hrow
              simp only [pure, Except.pure, Except.ok.injEq, Prod.mk.injEq] at hc
              rw [← hc.1]
              have hg := item_ok hrow
              have hlt : Wavelets.jth v.j < ws.length := by
                by_contra hn; rw [List.getElem?_eq_none (by omega)] at hg; cases hg
              exact (hw3 _ _ row (List.getElem?_eq_getElem (by omega)) hg).1
      obtain ⟨L, noise, region, smoothing⟩ := s
      dsimp only at *
      cases noise with
      | none =>
        simp only [Functions.flm, Functions.postInit, bind, Except.bind, hc, Functions.flmNoise, Functions.addNoiseWith, pure,
          Except.pure, Except.ok.injEq, Prod.mk.injEq] at ho
        rw [← ho.1]; exact hlen
      | some snr =>
        obtain ⟨n, hn, hall⟩ := C53_harmonic_noise (L := L) limDen e.normals snr c hlen
        obtain ⟨o', w₂, h2, h3, -⟩ := hall
          { setupArgs := .ok (), name := fn'.name limDen, spin := fn'.spin, reality := fn'.reality, create := fn'.create e L smoothing }
          region smoothing w w₁ rfl hc
        rw [h2] at ho
        simp only [Except.ok.injEq, Prod.mk.injEq] at ho
        rw [← ho.1]; exact h3

/-- C71.  The axisymmetric wavelets: the selected wavelet of every admitted scale exists, and its coefficients are
`√((2l+1)/4π) κ(l)` at order zero, with `κ` the scaling function without `j` and the generating function of scale `j` otherwise. -/
theorem C71_axisymmetric_wavelets (e : Env) (L : ℕ) (h : GoodEnv e L) (v : Wave) (k : List ℝ)
    (hk : (e.kappas L v.B v.jMin)[match v.j with | none => 0 | some j => j + 1]? = some k) (smoothing : Option ℤ) (w : Noise.World) :
    ∃ c, Fn.create e L smoothing (.axisymmetricWavelets v) w = .ok (c, w) ∧ c.length = L ^ 2 ∧
      ∀ (l : ℕ) (m : ℤ), l < L → |m| ≤ l → c.getD (elm2ind l m) 0 =
        if m = 0 then ((Real.sqrt ((2 * l + 1) / (4 * Real.pi)) * k.getD l 0 : ℝ) : ℂ) else 0 := by
  obtain ⟨ws, h1, h2, h3⟩ := select_axisym h v
  have hj : (match v.j with | none => 0 | some j => j + 1) = Wavelets.jth v.j := by cases v.j <;> rfl
  rw [hj] at hk
  have hlt : Wavelets.jth v.j < ws.length := by
    rw [h2]
    by_contra hn
    rw [List.getElem?_eq_none (by omega)] at hk; cases hk
  obtain ⟨h4, h5⟩ := h3 _ k _ hk (List.getElem?_eq_getElem hlt)
  refine ⟨ws[Wavelets.jth v.j], ?_, h4, fun l m hl hm => ?_⟩
  · simp only [Fn.create, axisymSelect, h1, bind, Except.bind, item, List.getElem?_eq_getElem hlt, Except.map]
  · rw [h5 l m hl hm]
    push_cast
    rfl

/-- C71.  The wavelet coefficients of a map: at the selected scale they are the coefficients of the map multiplied, degree by degree,
by the generating function of that scale. -/
theorem C71_wavelet_coefficients (e : Env) (L : ℕ) (h : GoodEnv e L) (v : Wave) (k : List ℝ)
    (hk : (e.kappas L v.B v.jMin)[match v.j with | none => 0 | some j => j + 1]? = some k) (smoothing : Option ℤ)
    (w : Noise.World) (map : Fn) (flm : List ℂ) (hmap : map.create e L smoothing w = .ok (flm, w)) (hlen : flm.length = L ^ 2)
    (fn : Fn) (hfn : (map = .africa ∧ fn = .axisymmetricWaveletCoefficientsAfrica v) ∨
      (map = .earth ∧ fn = .axisymmetricWaveletCoefficientsEarth v) ∨
      (map = .southAmerica ∧ fn = .axisymmetricWaveletCoefficientsSouthAmerica v)) :
    ∃ c, fn.create e L smoothing w = .ok (c, w) ∧ c.length = L ^ 2 ∧
      ∀ (l : ℕ) (m : ℤ), l < L → |m| ≤ l → c.getD (elm2ind l m) 0 = (k.getD l 0 : ℂ) * flm.getD (elm2ind l m) 0 := by
  obtain ⟨ws, h1, h2, h3⟩ := select_axisym h v
  have hj : (match v.j with | none => 0 | some j => j + 1) = Wavelets.jth v.j := by cases v.j <;> rfl
  rw [hj] at hk
  have hlt : Wavelets.jth v.j < ws.length := by
    rw [h2]
    by_contra hn
    rw [List.getElem?_eq_none (by omega)] at hk; cases hk
  obtain ⟨h4, h5⟩ := h3 _ k _ hk (List.getElem?_eq_getElem hlt)
  classical
  let F : List ℂ → List ℂ := fun psi => if hp : psi.length = L ^ 2 then (Wavelets.forwardRow_ok L flm psi hlen hp).choose else []
  have hF : ∀ psi ∈ ws, Wavelets.forwardRow L flm psi = .ok (F psi) := by
    intro psi hp
    obtain ⟨i, hi, rfl⟩ := List.getElem_of_mem hp
    have hl := (h3 i _ _ (List.getElem?_eq_getElem (by omega)) (List.getElem?_eq_getElem hi)).1
    simp only [F, dif_pos hl]
    exact (Wavelets.forwardRow_ok L flm ws[i] hlen hl).choose_spec.1
  have hfwd : Wavelets.axisymForward L flm ws = .ok (ws.map F) := mapM_eq_ok _ _ _ hF
  have hsel : axisymCoefficients e L v (.ok flm) = .ok (F ws[Wavelets.jth v.j]) := by
    simp only [axisymCoefficients, h1, hfwd, bind, Except.bind, item, List.getElem?_map, List.getElem?_eq_getElem hlt, Option.map_some]
  have hval := (Wavelets.forwardRow_ok L flm ws[Wavelets.jth v.j] hlen h4).choose_spec
  refine ⟨F ws[Wavelets.jth v.j], ?_, ?_, fun l m hl hm => ?_⟩
  · rcases hfn with ⟨rfl, rfl⟩ | ⟨rfl, rfl⟩ | ⟨rfl, rfl⟩ <;>
    · simp only [Fn.create] at hmap ⊢
      rw [of_map hmap, hsel]
      rfl
  · simp only [F, dif_pos h4]; exact hval.2.1
  · simp only [F, dif_pos h4]
    rw [hval.2.2 l m hl hm, h5 l 0 hl (by simp), if_pos rfl]
    have hp : (0 : ℝ) < Real.pi := Real.pi_pos
    have hl0 : (0 : ℝ) < 2 * (l : ℝ) + 1 := by positivity
    have : Real.sqrt (4 * Real.pi / (2 * (l : ℝ) + 1)) * Real.sqrt ((2 * (l : ℝ) + 1) / (4 * Real.pi)) = 1 := by
      rw [← Real.sqrt_mul (by positivity), div_mul_div_comm, mul_comm (4 * Real.pi), div_self (by positivity), Real.sqrt_one]
    rw [map_mul, conj_ofReal, conj_ofReal, ← mul_assoc, ← ofReal_mul, this]
    simp

/-- C71.  Every scale admitted by the validation has its generating function, if there is one for each scale from `jMin` to the
largest, after the scaling function. -/
theorem C71_scales (e : Env) (L : ℕ) (B jMin : ℤ) (j : Option ℤ) (v : Wave) (hv : keywords e.jMax L B jMin j = .ok v)
    (hrows : ((e.kappas L B jMin).length : ℤ) = e.jMax B L jMin - jMin + 2) (hne : e.kappas L B jMin ≠ []) :
    v.B = B ∧ v.jMin = jMin ∧ v.j.map (fun n : ℕ => (n : ℤ)) = j ∧
      ∃ k, (e.kappas L v.B v.jMin)[match v.j with | none => 0 | some j => j + 1]? = some k := by
  unfold keywords Wavelets.checkJ at hv
  have hpos : 0 < (e.kappas L B jMin).length := List.length_pos_iff.2 hne
  cases j with
  | none =>
    simp only [bind, Except.bind, pure, Except.pure, Except.ok.injEq] at hv
    subst hv
    exact ⟨rfl, rfl, rfl, _, List.getElem?_eq_getElem hpos⟩
  | some j =>
    simp only [bind, Except.bind] at hv
    split_ifs at hv with h1 h2
    simp only [pure, Except.pure, Except.ok.injEq] at hv
    subst hv
    refine ⟨rfl, rfl, ?_, _, List.getElem?_eq_getElem ?_⟩
    · simp; omega
    · dsimp only; omega

/-- a world at bandlimit 2: one sample, topography `[1, 0, 2, 3]`, three generating functions. -/
noncomputable def sampleEnv : Env where
  S := { shape := fun _ => (1, 1)
         theta := fun _ _ _ => 0
         phi := fun _ _ _ => 0
         inverseReal := fun _ flm _ _ => (flm.getD 0 0).re
         forward := fun L _ _ g => (List.range (L ^ 2)).map fun i => if i = 0 then g 0 0 else 0
         rotate := fun _ flm _ _ _ => flm
         smooth := fun flm L sigma => (List.range (L ^ 2)).map fun i =>
           (Real.exp (-(((ind2elm i).1 : ℝ) ^ 2 * sigma ^ 2)) : ℂ) * flm.getD i 0
         earthFile := [1, 0, 2, 3] }
  store := ⟨fun _ => none, fun _ => none⟩
  normals := fun _ _ => 1
  wmapFile := []
  kappas := fun L _ _ => [List.replicate L 1, List.replicate L 2, List.replicate L 3]
  jMax := fun _ _ jMin => jMin + 1

theorem sampleEnv_good : GoodEnv sampleEnv 2 where
  forward_length := fun _ _ _ => by simp [sampleEnv]
  forward_real := by
    intro g
    refine ⟨by simp [sampleEnv], fun l m hl hm => ?_⟩
    have hlt : ∀ m : ℤ, |m| ≤ l → elm2ind l m < 2 ^ 2 :=
      fun m hm => Noise.elm2ind_lt_of_sq hm (Nat.pow_le_pow_left (by omega) 2)
    have hv : ∀ m : ℤ, |m| ≤ l → (sampleEnv.S.forward 2 true 0 fun i j => (g i j : ℂ)).getD (elm2ind l m) 0 =
        if elm2ind l m = 0 then (g 0 0 : ℂ) else 0 := by
      intro m hm
      simp only [sampleEnv, List.getD_eq_getElem?_getD, List.getElem?_map, List.getElem?_range (hlt m hm), Option.map_some,
        Option.getD_some]
    have h0 : ∀ m : ℤ, |m| ≤ l → (elm2ind l m = 0 ↔ l = 0) := by
      intro m hm
      rw [abs_le] at hm
      unfold elm2ind
      constructor
      · intro h
        by_contra hl0
        have : 1 ≤ l * l := Nat.mul_pos (by omega) (by omega)
        have h2 : (0 : ℤ) < (l * l : ℕ) := by exact_mod_cast this
        push_cast at h2
        omega
      · rintro rfl; omega
    rw [hv m hm, hv (-m) (by rwa [abs_neg])]
    simp only [h0 m hm, h0 (-m) (by rwa [abs_neg])]
    by_cases hl0 : l = 0
    · subst hl0
      have : m = 0 := by simpa using hm
      subst this
      simp
    · simp [hl0]
  smoothing := by
    intro flm L sigma hl
    refine ⟨by simp [sampleEnv], fun l m h1 h2 => ?_⟩
    have hi : elm2ind l m < L ^ 2 := (elm2ind_lt_sq h2 L).2 h1
    simp only [sampleEnv, List.getD_eq_getElem?_getD, List.getElem?_map, List.getElem?_range hi, Option.map_some, Option.getD_some]
    rw [ind2elm_elm2ind h2]
  pos := by norm_num
  earth_length := by simp [sampleEnv]
  earth_real := by
    intro l hl
    interval_cases l <;> simp [sampleEnv]
  kappas := by simp [sampleEnv]

/-- the hypotheses of C70 and C71 are met: a noisy Gaussian, and the wavelet coefficients of the topography at scale 1. -/
example (limDen : ℚ → ℚ) (w : Noise.World) : GoodEnv sampleEnv 2 ∧
    (∃ o w', Fn.construct limDen sampleEnv (.gaussian 10) none ⟨2, some 5, none, none⟩ w = .ok (o, w') ∧ o.reality = true) ∧
    (∃ c, Fn.create sampleEnv 2 none .earth w = .ok (c, w) ∧ c.length = 2 ^ 2) ∧
    (sampleEnv.kappas 2 3 2)[2]? = some (List.replicate 2 3) ∧ keywords sampleEnv.jMax 2 3 2 (some 1) = .ok ⟨3, 2, some 1⟩ ∧
    ((sampleEnv.kappas 2 3 2).length : ℤ) = sampleEnv.jMax 3 2 2 - 2 + 2 := by
  refine ⟨sampleEnv_good, ?_, ?_, rfl, rfl, rfl⟩
  · obtain ⟨c, h1, h2, -, -⟩ := (C55_gaussian 2 ((10 : ℚ) : ℝ)).1 (by norm_num)
    obtain ⟨n, hn, hall⟩ := C53_harmonic_noise (L := 2) limDen sampleEnv.normals 5 c h2
    have hc : Fn.create sampleEnv 2 none (.gaussian 10) w = .ok (c, w) := by
      simp only [Fn.create, h1, Except.map]
    obtain ⟨o, w₂, h3, -⟩ := hall
      { setupArgs := .ok (), name := (Fn.gaussian 10).name limDen, spin := 0, reality := true,
        create := Fn.create sampleEnv 2 none (.gaussian 10) } none none w w rfl hc
    refine ⟨o, w₂, h3, ?_⟩
    simp only [Functions.flm, Functions.postInit, bind, Except.bind, hc] at h3
    split at h3
    · cases h3
    · simp only [pure, Except.pure, Except.ok.injEq, Prod.mk.injEq] at h3
      rw [← h3.1]
  · have g := sampleEnv_good
    obtain ⟨flm, h1, h2, -⟩ := C22_earth_real sampleEnv.S.smooth g.smoothing sampleEnv.S.earthFile 2 g.pos g.earth_length g.earth_real
    exact ⟨flm, by simp only [Fn.create, Masks.earth, h1, Except.map], h2.1⟩

end Sleplet.Props
