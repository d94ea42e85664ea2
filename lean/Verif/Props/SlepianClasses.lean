import Verif.Model.Classes
import Verif.Props.ClassArgs
import Verif.Props.FunctionObjects
import Verif.Props.Region
import Verif.Props.SlepianWavelets

/-!
C72: the Slepian classes: the continental ones insist on their region; what their coefficients are and how many.
-/
namespace Sleplet.Props

open Complex NumPy Classes

variable {L : ℕ} {Pix : Type} [Fintype Pix]

/-- The continent that a class is about. -/
def Continent (x : String) : SFn → Prop
  | .slepianAfrica | .slepianNoiseAfrica _ | .slepianWaveletCoefficientsAfrica _ => x = "africa"
  | .slepianSouthAmerica | .slepianNoiseSouthAmerica _ | .slepianWaveletCoefficientsSouthAmerica _ => x = "south_america"
  | .slepianDiracDelta | .slepianIdentity | .slepianWavelets _ => False

/-- The classes that give a coefficient for every one of the `L²` Slepian functions. -/
def AllFunctions : SFn → Prop
  | .slepianDiracDelta | .slepianIdentity | .slepianWavelets _ => True
  | _ => False

/-- extra arguments do not change the class. -/
private theorem same_class {jMax : JMax} {fn fn' : SFn} {extra : Option (List ℤ)} (h : fn.setupArgs jMax L extra = .ok fn') :
    (∀ x, Continent x fn' ↔ Continent x fn) ∧ (AllFunctions fn' ↔ AllFunctions fn) := by
  cases extra with
  | none =>
    have : fn.setupArgs jMax L none = .ok fn := by cases fn <;> rfl
    rw [this] at h
    cases h
    exact ⟨fun _ => Iff.rfl, Iff.rfl⟩
  | some args =>
    have := (C68_slepian_args jMax L fn fn' args).1 h
    cases this <;> exact ⟨fun _ => Iff.rfl, Iff.rfl⟩

private theorem expects_iff (fn : SFn) (x : String) : fn.expects = some x ↔ Continent x fn := by
  cases fn <;> simp [SFn.expects, Continent, eq_comm]

private theorem construct_inv {limDen : ℚ → ℚ} {e : SEnv L Pix} {fn : SFn} {extra : Option (List ℤ)} {noise : Option ℚ}
    {smoothing : Option ℤ} {w w' : Noise.World} {o : Functions.Obj}
    (h : fn.construct limDen e extra noise smoothing w = .ok (o, w')) :
    ∃ fn', fn.setupArgs e.env.jMax L extra = .ok fn' ∧
      Functions.fp limDen e.env.normals e.slepian
        { setupArgs := .ok (), name := fn'.name limDen e.region.nameEnding, spin := 0, reality := false, create := fn'.create e smoothing }
        ⟨L, noise, some e.region, smoothing⟩ w = .ok (o, w') ∧
      ∀ x, fn'.expects = some x → e.region.nameEnding = x := by
  unfold SFn.construct at h
  cases h1 : fn.setupArgs e.env.jMax L extra with
  | error x => rw [h1] at h; cases h
  | ok fn' =>
    rw [h1] at h
    simp only [bind, Except.bind] at h
    split at h
    · cases h
    · rename_i v hv
      refine ⟨fn', rfl, ?_, ?_⟩
      · rw [hv]
        split at h
        · split at h
          · cases h
          · simpa [pure, Except.pure] using h
        · simpa [pure, Except.pure] using h
      · intro x hx
        rw [hx] at h
        dsimp only at h
        unfold checkRegion at h
        by_contra hne
        rw [if_pos hne] at h
        cases h

/-- C72.  An object of a continental class has the region of that continent. -/
theorem C72_region (limDen : ℚ → ℚ) (e : SEnv L Pix) (fn : SFn) (extra : Option (List ℤ)) (noise : Option ℚ) (smoothing : Option ℤ)
    (w w' : Noise.World) (o : Functions.Obj) (h : fn.construct limDen e extra noise smoothing w = .ok (o, w')) (x : String)
    (hx : Continent x fn) : e.region.nameEnding = x := by
  obtain ⟨fn', h1, -, h3⟩ := construct_inv h
  exact h3 x ((expects_iff fn' x).2 (((same_class h1).1 x).2 hx))

/-- C72.  With another region, a continental map that could otherwise be made raises `RuntimeError`. -/
theorem C72_wrong_region (limDen : ℚ → ℚ) (e : SEnv L Pix) (fn : SFn) (hfn : fn = .slepianAfrica ∨ fn = .slepianSouthAmerica)
    (x : String) (hx : Continent x fn) (hne : e.region.nameEnding ≠ x) (smoothing : Option ℤ) (w w₁ : Noise.World) (c : List ℂ)
    (hc : fn.create e smoothing w = .ok (c, w₁)) : fn.construct limDen e none none smoothing w = .error .runtimeError := by
  have h1 : fn.setupArgs e.env.jMax L none = .ok fn := by rcases hfn with rfl | rfl <;> rfl
  have h2 := (expects_iff fn x).2 hx
  simp only [SFn.construct, h1, h2, bind, Except.bind, Functions.fp, Functions.postInit, hc, Functions.fpNoise, Functions.addNoiseWith,
    pure, Except.pure, checkRegion, ne_eq, hne, not_false_eq_true, if_true]

/-- C72.  The same for the noise and the wavelet coefficients of a continent: with another region they raise `RuntimeError`, if the map of the
continent could otherwise be made and there is a tiling. -/
theorem C72_wrong_region_derived (limDen : ℚ → ℚ) (e : SEnv L Pix) (land fn : SFn) (x : String) (v : Wave) (s : ℚ)
    (hfn : (land = .slepianAfrica ∧ (fn = .slepianNoiseAfrica s ∨ fn = .slepianWaveletCoefficientsAfrica v)) ∨
      (land = .slepianSouthAmerica ∧ (fn = .slepianNoiseSouthAmerica s ∨ fn = .slepianWaveletCoefficientsSouthAmerica v)))
    (hx : Continent x fn) (hne : e.region.nameEnding ≠ x) (hk : (e.kappas v).rows ≠ []) (noise : Option ℚ) (smoothing : Option ℤ)
    (w w₁ : Noise.World) (c : List ℂ) (hc : land.create e smoothing w = .ok (c, w₁)) :
    fn.construct limDen e none noise smoothing w = .error .runtimeError := by
  have key : ∀ (y : String) (map : Except Err (List ℂ)), e.region.nameEnding ≠ y →
      (slepianLand e map).map (·, w) = .ok (c, w₁) → slepianLandObject e y map = .error .runtimeError := by
    intro y map hy hm
    cases hl : slepianLand e map with
    | error er => rw [hl] at hm; simp [Except.map] at hm
    | ok b => simp [slepianLandObject, hl, bind, Except.bind, checkRegion, hy]
  obtain ⟨k, ks, hks⟩ := List.exists_cons_of_ne_nil hk
  have hit : item (e.kappas v).rows 0 = .ok k := by rw [hks]; rfl
  have hcr : fn.create e smoothing w = .error .runtimeError := by
    rcases hfn with ⟨rfl, rfl | rfl⟩ | ⟨rfl, rfl | rfl⟩ <;> cases hx <;>
      simp only [SFn.create, slepianLandNoise, slepianLandCoefficients, hit, key _ _ hne hc, bind, Except.bind, Except.map]
  have h1 : fn.setupArgs e.env.jMax L none = .ok fn := by rcases hfn with ⟨rfl, rfl | rfl⟩ | ⟨rfl, rfl | rfl⟩ <;> rfl
  simp only [SFn.construct, h1, bind, Except.bind, Functions.fp, Functions.postInit, hcr]

/-- C72, a consequence: when nothing is configured and no region is given, the region is South America, so that no African class can
ever be made. -/
theorem C72_default_region_violation (getenv : String → Option String) (pyInt : String → Option ℤ) (lower : String → String)
    (hs : StrSpec pyInt lower) (h1 : getenv "PHI_MAX" = none) (h2 : getenv "PHI_MIN" = none) (h3 : getenv "THETA_MAX" = none)
    (h4 : getenv "THETA_MIN" = none) (h5 : getenv "SLEPIAN_MASK" = none) :
    ∃ r, Region.createDefaultRegion getenv pyInt lower = .ok r ∧
      ∀ (limDen : ℚ → ℚ) (e : SEnv L Pix), e.region = r → ∀ (fn : SFn), Continent "africa" fn →
        ∀ (extra : Option (List ℤ)) (noise : Option ℚ) (smoothing : Option ℤ) (w : Noise.World),
          ∃ x, fn.construct limDen e extra noise smoothing w = .error x := by
  obtain ⟨r, hr, -, hname⟩ := (C47_default_region getenv pyInt lower hs).1 h1 h2 h3 h4 h5
  refine ⟨r, hr, fun limDen e he fn hx extra noise smoothing w => ?_⟩
  cases h : fn.construct limDen e extra noise smoothing w with
  | error x => exact ⟨x, rfl⟩
  | ok p =>
    have := C72_region limDen e fn extra noise smoothing w p.2 p.1 h "africa" hx
    rw [he, hname] at this
    exact absurd this (by decide)

/-- What is assumed of the Slepian object, the grid and the generating functions: enough eigenvectors, a grid with samples, and a value
of each generating function for every Slepian function. -/
structure GoodSEnv (e : SEnv L Pix) : Prop where
  rows : HasRows e.slepian.sl
  grid : e.pixels ≠ []
  kappas : ∀ B jMin, ∀ k ∈ e.env.kappas (L ^ 2) B jMin, k.length = L ^ 2

private theorem kappas_wf {e : SEnv L Pix} (h : GoodSEnv e) (v : Wave) : (e.kappas v).WF := by
  intro r hr
  simp only [SEnv.kappas, List.mem_map] at hr
  obtain ⟨k, hk, rfl⟩ := hr
  simpa [SEnv.kappas] using h.kappas _ _ k hk

/-- C72.  The continental maps: `N` coefficients, the inner products of the map with the first `N` Slepian functions. -/
theorem C72_land (e : SEnv L Pix) (h : GoodSEnv e) (smoothing : Option ℤ) (w : Noise.World) (fn : SFn)
    (map : Fn) (hfn : (fn = .slepianAfrica ∧ map = .africa) ∨ (fn = .slepianSouthAmerica ∧ map = .southAmerica)) (flm : List ℂ)
    (hmap : map.create e.env L smoothing w = .ok (flm, w)) :
    ∃ c, fn.create e smoothing w = .ok (c, w) ∧ c.length = e.slepian.sl.N ∧
      ∀ (p : ℕ) (v : Fin (L ^ 2) → ℂ), p < e.slepian.sl.N → e.slepian.sl.evecs[p]? = some v →
        c.getD p 0 = ∑ i : Fin (L ^ 2), flm.getD i 0 * (starRingEnd ℂ) (v i) := by
  have hrow : ∀ p : Fin e.slepian.sl.N, e.slepian.sl.evecs[(p : ℕ)]? =
      some (e.slepian.sl.evecs[(p : ℕ)]'(lt_of_lt_of_le p.2 h.rows.2)) := fun p => List.getElem?_eq_getElem _
  have hf := forward_flm e.slepian.sl e.slepian.synth e.slepian.weight _ rfl h.rows.1 hrow (Functions.asVec L flm)
  have hl : ∀ m, m = Except.ok flm → slepianLand e m = .ok (List.ofFn fun p : Fin e.slepian.sl.N =>
      ∑ i, Functions.asVec L flm i * (starRingEnd ℂ) ((e.slepian.sl.evecs[(p : ℕ)]'(lt_of_lt_of_le p.2 h.rows.2)) i)) := by
    rintro m rfl
    exact hf
  have hm : ∀ {x : Except Err (List ℂ)}, x.map (fun y => (y, w)) = .ok (flm, w) → x = .ok flm := by
    intro x hx
    cases x with
    | error e => cases hx
    | ok a => simp only [Except.map, Except.ok.injEq, Prod.mk.injEq] at hx; rw [hx.1]
  refine ⟨List.ofFn fun p : Fin e.slepian.sl.N => ∑ i, Functions.asVec L flm i *
    (starRingEnd ℂ) ((e.slepian.sl.evecs[(p : ℕ)]'(lt_of_lt_of_le p.2 h.rows.2)) i), ?_, List.length_ofFn, ?_⟩
  · rcases hfn with ⟨rfl, rfl⟩ | ⟨rfl, rfl⟩ <;> simp only [Fn.create] at hmap <;> simp only [SFn.create, hl _ (hm hmap), Except.map]
  · intro p v hp hv
    rw [List.getElem?_eq_getElem (lt_of_lt_of_le hp h.rows.2)] at hv
    cases hv
    simp [List.getD_eq_getElem?_getD, hp, Functions.asVec]

private theorem argmax_spec {α : Type} (sp : α → ℂ) (xs : List α) : xs ≠ [] →
    ∃ x, argmaxFirst sp xs = some x ∧ x ∈ xs ∧ ∀ y ∈ xs, (sp y).re < (sp x).re ∨ ((sp y).re = (sp x).re ∧ (sp y).im ≤ (sp x).im) := by
  induction xs with
  | nil => intro h; exact absurd rfl h
  | cons a xs ih =>
    intro _
    by_cases hx : xs = []
    · subst hx
      exact ⟨a, rfl, by simp, by simp⟩
    · obtain ⟨x, h1, h2, h3⟩ := ih hx
      simp only [argmaxFirst, h1]
      by_cases hlt : (sp a).re < (sp x).re ∨ ((sp a).re = (sp x).re ∧ (sp a).im < (sp x).im)
      · rw [if_pos hlt]
        refine ⟨x, rfl, by simp [h2], ?_⟩
        intro y hy
        rcases List.mem_cons.1 hy with rfl | hy
        · rcases hlt with h | ⟨h, h'⟩
          · exact Or.inl h
          · exact Or.inr ⟨h, h'.le⟩
        · exact h3 y hy
      · rw [if_neg hlt]
        refine ⟨a, rfl, by simp, ?_⟩
        push Not at hlt
        intro y hy
        rcases List.mem_cons.1 hy with rfl | hy
        · exact Or.inr ⟨rfl, le_rfl⟩
        · rcases lt_or_eq_of_le hlt.1 with h | h
          · rcases h3 y hy with h4 | ⟨h4, -⟩
            · exact Or.inl (h4.trans h)
            · exact Or.inl (h4 ▸ h)
          · rcases h3 y hy with h4 | ⟨h4, h5⟩
            · exact Or.inl (h ▸ h4)
            · exact Or.inr ⟨h4.trans h, h5.trans (hlt.2 h.symm)⟩

/-- C72.  The Slepian Dirac delta: `L²` coefficients, the conjugates of the first `N` Slepian functions at a sample where the first
one is largest (its real part, then its imaginary part), and zeros. -/
theorem C72_dirac_delta (e : SEnv L Pix) (h : GoodSEnv e) (v₀ : Fin (L ^ 2) → ℂ) (hv : e.slepian.sl.evecs[0]? = some v₀)
    (smoothing : Option ℤ) (w : Noise.World) :
    ∃ c x, SFn.create e smoothing .slepianDiracDelta w = .ok (c, w) ∧ c.length = L ^ 2 ∧ x ∈ e.pixels ∧
      (∀ y ∈ e.pixels, (e.slepian.synth v₀ y).re ≤ (e.slepian.synth v₀ x).re) ∧
      (∀ (p : ℕ) (v : Fin (L ^ 2) → ℂ), p < e.slepian.sl.N → e.slepian.sl.evecs[p]? = some v →
        c.getD p 0 = (starRingEnd ℂ) (e.slepian.synth v x)) ∧
      ∀ p, e.slepian.sl.N ≤ p → c.getD p 0 = 0 := by
  obtain ⟨x, h1, h2, h3⟩ := argmax_spec (e.slepian.synth v₀) e.pixels h.grid
  obtain ⟨g, hg, hgl, hgv⟩ := fpHelper_ok e.slepian h.rows x
  refine ⟨g, x, ?_, hgl, h2, ?_, ?_, ?_⟩
  · simp only [SFn.create, slepianDirac, item, hv, bind, Except.bind, h1, hg, Except.map]
  · intro y hy
    rcases h3 y hy with h | ⟨h, -⟩
    · exact h.le
    · exact h.le
  · intro p v hp hv
    rw [hgv p, dif_pos hp]
    rw [List.getElem?_eq_getElem (lt_of_lt_of_le hp h.rows.2)] at hv
    cases hv
    rfl
  · intro p hp
    rw [hgv p, dif_neg (by omega)]

/-- the lengths of what the classes create. -/
private theorem create_length {e : SEnv L Pix} (h : GoodSEnv e) {smoothing : Option ℤ} {fn : SFn} {w w' : Noise.World} {c : List ℂ}
    (hc : fn.create e smoothing w = .ok (c, w')) :
    (AllFunctions fn → c.length = L ^ 2) ∧ (¬ AllFunctions fn → c.length = e.slepian.sl.N) := by
  have of_map : ∀ {x : Except Err (List ℂ)}, x.map (fun y => (y, w)) = .ok (c, w') → x = .ok c := by
    intro x hx
    cases x with
    | error e => cases hx
    | ok a => simp only [Except.map, Except.ok.injEq, Prod.mk.injEq] at hx; rw [hx.1]
  have hrow : ∀ p : Fin e.slepian.sl.N, e.slepian.sl.evecs[(p : ℕ)]? =
      some (e.slepian.sl.evecs[(p : ℕ)]'(lt_of_lt_of_le p.2 h.rows.2)) := fun p => List.getElem?_eq_getElem _
  have hland : ∀ {m c}, slepianLand e m = .ok c → c.length = e.slepian.sl.N := by
    intro m c hm
    cases m with
    | error x => cases hm
    | ok flm =>
      have hf := forward_flm e.slepian.sl e.slepian.synth e.slepian.weight _ rfl h.rows.1 hrow (Functions.asVec L flm)
      unfold slepianLand at hm
      simp only [bind, Except.bind] at hm
      rw [hf] at hm
      cases hm
      exact List.length_ofFn
  have hobj : ∀ {x m c}, slepianLandObject e x m = .ok c → c.length = e.slepian.sl.N := by
    intro x m c hm
    unfold slepianLandObject at hm
    cases hl : slepianLand e m with
    | error y => rw [hl] at hm; cases hm
    | ok d =>
      rw [hl] at hm
      simp only [bind, Except.bind] at hm
      split at hm
      · cases hm
      · cases hm; exact hland hl
  have hnoise : ∀ {x m s}, slepianLandNoise e x m s w = .ok (c, w') → c.length = e.slepian.sl.N := by
    intro x m s hm
    unfold slepianLandNoise at hm
    cases hl : slepianLandObject e x m with
    | error y => rw [hl] at hm; cases hm
    | ok d =>
      obtain ⟨n, hnl, hn⟩ := fp_noise e.env.normals e.slepian h.rows d (hobj hl).ge s
      rw [hl] at hm
      simp only [bind, Except.bind, hn, Except.ok.injEq, Prod.mk.injEq] at hm
      rw [← hm.1]; exact hnl
  have hcoef : ∀ {x m v}, slepianLandCoefficients e x m v = .ok c → c.length = e.slepian.sl.N := by
    intro x m v hm
    classical
    unfold slepianLandCoefficients at hm
    simp only [bind, Except.bind] at hm
    split at hm
    · cases hm
    · split at hm
      · cases hm
      · rename_i d hd
        unfold Wavelets.selectCoefficients at hm
        rw [slepianForward_eq d (e.kappas v) (kappas_wf h v) e.slepian.sl.N (hobj hd).ge h.rows.1] at hm
        simp only [bind, Except.bind, item, List.getElem?_map] at hm
        cases hx : ((e.kappas v).rows.filter fun psi => decide (Seen d e.slepian.sl.N psi))[Wavelets.jth v.j]? with
        | none => rw [hx] at hm; cases hm
        | some psi =>
          rw [hx] at hm
          simp only [Option.map_some, Except.ok.injEq] at hm
          rw [← hm]
          simp [waveletRow]
  cases fn <;> simp only [SFn.create] at hc <;> simp only [AllFunctions, not_true_eq_false, not_false_eq_true, forall_const, IsEmpty.forall_iff, and_true, true_and]
  case slepianAfrica => exact hland (of_map hc)
  case slepianSouthAmerica => exact hland (of_map hc)
  case slepianNoiseAfrica => exact hnoise hc
  case slepianNoiseSouthAmerica => exact hnoise hc
  case slepianWaveletCoefficientsAfrica => exact hcoef (of_map hc)
  case slepianWaveletCoefficientsSouthAmerica => exact hcoef (of_map hc)
  case slepianIdentity =>
    simp only [Except.ok.injEq, Prod.mk.injEq] at hc
    rw [← hc.1]; simp [Functions.identity]
  case slepianDiracDelta =>
    have hd := of_map hc
    unfold slepianDirac at hd
    simp only [bind, Except.bind] at hd
    split at hd
    · cases hd
    · split at hd
      · cases hd
      · rename_i x hx
        obtain ⟨g, hg, hgl, -⟩ := fpHelper_ok e.slepian h.rows x
        rw [hg] at hd; cases hd; exact hgl
  case slepianWavelets v =>
    have hd := of_map hc
    unfold Wavelets.selectWavelet item at hd
    split at hd
    · rename_i r hr
      cases hd
      exact kappas_wf h v _ (List.mem_of_getElem? hr)
    · cases hd

/-- C72.  Without noise: the Dirac delta, the identity and the wavelets have `L²` coefficients, the other classes `N`. -/
theorem C72_counts (limDen : ℚ → ℚ) (e : SEnv L Pix) (h : GoodSEnv e) (fn : SFn) (extra : Option (List ℤ)) (smoothing : Option ℤ)
    (w w' : Noise.World) (o : Functions.Obj) (ho : fn.construct limDen e extra none smoothing w = .ok (o, w')) :
    (AllFunctions fn → o.coefficients.length = L ^ 2) ∧ (¬ AllFunctions fn → o.coefficients.length = e.slepian.sl.N) := by
  obtain ⟨fn', h1, h2, -⟩ := construct_inv ho
  rw [← (same_class h1).2]
  cases hc : fn'.create e smoothing w with
  | error x => simp [Functions.fp, Functions.postInit, bind, Except.bind, hc] at h2
  | ok p =>
    have := create_length h hc
    simp only [Functions.fp, Functions.postInit, bind, Except.bind, hc, Functions.fpNoise, Functions.addNoiseWith, pure, Except.pure,
      Except.ok.injEq, Prod.mk.injEq] at h2
    rw [← h2.1]
    exact this

/-- C72 is violated where noise is asked for: for every region with `1 < N < L²`, none of the Dirac delta, the identity and the wavelets
can be made noisy. -/
theorem C72_noise_violation (limDen : ℚ → ℚ) (e : SEnv L Pix) (h : GoodSEnv e) (h1 : 1 < e.slepian.sl.N) (h2 : e.slepian.sl.N < L ^ 2)
    (fn : SFn) (hfn : AllFunctions fn) (extra : Option (List ℤ)) (s : ℚ) (smoothing : Option ℤ) (w : Noise.World) :
    ∃ x, fn.construct limDen e extra (some s) smoothing w = .error x := by
  cases ho : fn.construct limDen e extra (some s) smoothing w with
  | error x => exact ⟨x, rfl⟩
  | ok p =>
    exfalso
    obtain ⟨fn', h3, h4, -⟩ := construct_inv (o := p.1) (w' := p.2) ho
    cases hc : fn'.create e smoothing w with
    | error x => simp [Functions.fp, Functions.postInit, bind, Except.bind, hc] at h4
    | ok q =>
      have hl := (create_length h hc).1 ((same_class h3).2.2 hfn)
      obtain ⟨n, hnl, hn⟩ := fp_noise e.env.normals e.slepian h.rows q.1 (by omega) (s : ℝ)
      simp only [Functions.fp, Functions.postInit, bind, Except.bind, hc, Functions.fpNoise, Functions.addNoiseWith, hn] at h4
      rw [broadcast_error _ _ _ (by omega) (by omega) (by omega)] at h4
      cases h4

/-- one sample, two of four Slepian functions, the region Africa. -/
private noncomputable def exampleSEnv : SEnv 2 Unit where
  env := { S := { shape := fun _ => (1, 1)
                  theta := fun _ _ _ => 0
                  phi := fun _ _ _ => 0
                  inverseReal := fun _ _ _ _ => 0
                  forward := fun _ _ _ _ => []
                  rotate := fun _ flm _ _ _ => flm
                  smooth := fun flm _ _ => flm
                  earthFile := [1, 0, 2, 3] }
           store := ⟨fun _ => none, fun _ => none⟩
           normals := fun _ _ => 1
           wmapFile := []
           kappas := fun n _ _ => [List.replicate n 1]
           jMax := fun _ _ jMin => jMin + 1 }
  slepian := ⟨⟨2, [1, 1], [fun i => if i = 0 then 1 else 0, fun i => if i = 1 then 1 else 0]⟩, fun v _ => v 0, fun _ => 1, fun _ => []⟩
  pixels := [()]
  region := ⟨{}, "africa", "arbitrary"⟩

/-- the hypotheses of C72 are met. -/
example (limDen : ℚ → ℚ) (w : Noise.World) : GoodSEnv exampleSEnv ∧ exampleSEnv.region.nameEnding = "africa" ∧
    Continent "africa" .slepianAfrica ∧ AllFunctions .slepianIdentity ∧ 1 < exampleSEnv.slepian.sl.N ∧
    exampleSEnv.slepian.sl.N < 2 ^ 2 ∧
    (∃ o, SFn.construct limDen exampleSEnv .slepianIdentity none none none w = .ok (o, w) ∧ o.coefficients.length = 4) := by
  refine ⟨⟨⟨by norm_num [exampleSEnv], by simp [exampleSEnv]⟩, by simp [exampleSEnv], by simp [exampleSEnv]⟩, rfl, rfl, trivial,
    by norm_num [exampleSEnv], by norm_num [exampleSEnv], ?_⟩
  refine ⟨_, rfl, ?_⟩
  simp [Functions.identity]

end Sleplet.Props
