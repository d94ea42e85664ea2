import Verif.Model.Demos
import Verif.Props.Amplitude
import Verif.Props.Denoising
import Verif.Props.MeshScript

/-!
C121: the demonstrations of denoising, from start to figure.
-/
namespace Sleplet.Props

open Classes Spec SphereScript Demos Real

/-- what is seen: everything without a region, the mask of the region otherwise. -/
def SeenIn (e : SphereEnv) (region : Option Region.Obj) (R : ℕ) (inside : ℕ → ℕ → Bool) : Prop :=
  match region with
  | none => ∀ i j, inside i j = true
  | some r => ∃ m st, Masks.maskRegion e.env.S R r e.env.store = .ok (m, st) ∧ m.shape = (R + 1, 2 * R) ∧ ∀ i j, inside i j = m.val i j

/-- the figure of a field, on the scale given or on that of the field itself. -/
theorem plotSphere_ok (e : SphereEnv) {L : ℕ} (hL : 1 ≤ L) (field : List (List ℂ)) (name : String) (amp : Option ℝ) (region : Option Region.Obj)
    (R : ℕ) (hR : R = Plot.calcPlotResolution L) (F : ℝ → ℝ → ℂ)
    (hB : Plot.boostField (e.forward false 0) (e.inverse false 0) field L R true =
      .ok (Plot.rows fun (t : Fin (R + 1)) (p : Fin (2 * R)) => F (t * π / R) (p * π / R)))
    (inside : ℕ → ℕ → Bool) (hin : SeenIn e region R inside) :
    ∃ shown A, plotSphere e L field name amp region = .ok (some shown) ∧ Pictured R (fun z => z.re) F inside id shown ∧
      shown.filename = name ++ "_res" ++ toString R ++ "_real" ∧ shown.annotation = [] ∧
      IsGreatest ((fun x => |x|) '' samples R (fun z => z.re) F) A ∧ shown.cmin = -(amp.getD A) ∧ shown.cmax = amp.getD A := by
  have hR1 : 1 ≤ R := hR ▸ hL.trans (C40_bounds L hL).2.1
  set bare : Plot.SphereSettings := ⟨L, amp, false, "real", true, none⟩ with hbare
  have hres : bare.resolution = R := by rw [hR]; rfl
  have hmask : ∃ mask, (match region with
      | none => .ok none
      | some r => (Masks.maskRegion e.env.S bare.resolution r e.env.store).map fun m => some fun _ => maskRows m.1 :
        Except Err (Option (ℕ → List (List Bool)))) = .ok mask ∧
      (∀ M, mask = some M → M R = Plot.rows fun (t : Fin (R + 1)) (p : Fin (2 * R)) => inside t p) ∧
      (mask = none → ∀ i j, inside i j = true) := by
    unfold SeenIn at hin
    cases region with
    | none => exact ⟨none, rfl, by simp, fun _ => hin⟩
    | some r =>
      obtain ⟨m, st, h1, h2, h3⟩ := hin
      refine ⟨some fun _ => maskRows m, ?_, ?_, by simp⟩
      · simp only [hres, h1, Except.map]
      · intro M hM
        cases hM
        obtain ⟨sh, v⟩ := m
        dsimp only at h2 h3
        subst h2
        simp only [maskRows, Plot.rows, h3]
  obtain ⟨mask, hm1, hm2, hm3⟩ := hmask
  obtain ⟨pf, A, p1, p2, p3, p4, p5, p6, p7⟩ := Plot.execute_spec (e.forward false 0)
    (e.inverse false 0) { bare with mask := mask } field R hR1 hres _ (by
      change Plot.boostField _ _ field L bare.resolution true = _
      rw [hres]; exact hB) (fun z => z.re) (by simp [hbare, Plot.plotTypeFun]) id (by simp [hbare, Plot.normaliseFunction]) (fun t p => inside t p) hm2
  refine ⟨⟨({ bare with mask := mask } : Plot.SphereSettings).filename name, pf.colours, pf.cmin, pf.cmax, []⟩, A, ?_, ⟨p2, ?_, ?_, ?_⟩, ?_, rfl, ?_, p6, p7⟩
  · unfold plotSphere
    simp only [bind, Except.bind]
    rw [← hbare]
    split
    · rename_i x hx
      exact absurd (hx.symm.trans hm1) (by simp)
    · rename_i x hx
      cases hx.symm.trans hm1
      have p1' : Plot.executeSphere (e.forward false 0) (e.inverse false 0) ⟨L, amp, false, "real", true, mask⟩ field =
        .ok (some pf) := p1
      simp only [p1', pure, Except.pure, Option.map_some]
      rfl
  · intro t p ht hp hi
    have := p3 ⟨t, by omega⟩ ⟨p, hp⟩
    simp only [hi, Bool.or_true, if_true] at this
    exact this
  · intro t p ht hp hi
    have := p3 ⟨t, by omega⟩ ⟨p, hp⟩
    have hne : mask.isNone = false := by
      cases mask with
      | none => rw [hm3 rfl] at hi; cases hi
      | some _ => rfl
    simp only [hi, hne, Bool.or_false, Bool.false_eq_true, if_false] at this
    rw [this, Plot.sphereUnseen]
    norm_num
  · intro t ht
    exact p4 ⟨t, by omega⟩
  · change name ++ _ ++ _ ++ _ ++ _ = _
    have : ({ bare with mask := mask } : Plot.SphereSettings).resolution = R := hres
    rw [this]
    simp only [hbare, String.append_assoc]
    rfl
  · convert p5 using 1
    ext x
    constructor
    · rintro ⟨_, ⟨t, p, ht, hp, rfl⟩, rfl⟩
      exact ⟨(⟨t, by omega⟩, ⟨p, hp⟩), rfl⟩
    · rintro ⟨⟨t, p⟩, rfl⟩
      exact ⟨_, ⟨t, p, by omega, p.2, rfl⟩, rfl⟩

/-- The demonstrations with axisymmetric wavelets and the names of their maps. -/
def axisymDemos : List (Axisym × String) :=
  [(axisymEarth, "earth"), (axisymAfrica, "africa"), (axisymSouthAmerica, "south_america")]

theorem toRows_ofRows {L : ℕ} (f : Fin (L + 1) → Fin (2 * L) → ℂ) : (ofRows (Plot.rows f) : Pix L → ℂ) = fun x => f x.1 x.2 := by
  funext x
  obtain ⟨t, p⟩ := x
  have h1 : (Plot.rows f).getD t [] = List.ofFn (f t) := by
    rw [Plot.rows, List.getD_eq_getElem _ _ (by simp; omega), List.getElem_ofFn]
  simp only [ofRows, h1]
  rw [List.getD_eq_getElem _ _ (by simp), List.getElem_ofFn]

/-- the three maps are built in the same way in every session, and their noise too. -/
private theorem axisym_made (limDen : ℚ → ℚ) (e : SphereEnv) (d : Axisym × String) (hd : d ∈ axisymDemos) {L : ℕ} (he : GoodEnv e.env L)
    (o : Functions.Obj) (w₀ w₀' : Noise.World) (ho : d.1.fn.construct limDen e.env none ⟨L, none, none, none⟩ w₀ = .ok (o, w₀')) :
    o.name = d.2 ++ "_L" ++ toString L ∧ o.reality = true ∧ o.spin = 0 ∧
      (∀ w, d.1.fn.construct limDen e.env none ⟨L, none, none, none⟩ w = .ok (o, w)) ∧
      ∃ (n : List ℂ) (o' : Functions.Obj), n.length = L ^ 2 ∧
        (∀ w, Noise.createNoise e.env.normals L o.coefficients 10 w = .ok (n, w ++ [(30, L ^ 2)])) ∧
        o'.coefficients = List.zipWith (· + ·) o.coefficients n ∧ o'.snr = some (decibels o.coefficients n) ∧
        ∀ w, d.1.fn.construct limDen e.env none ⟨L, some 10, none, none⟩ w = .ok (o', w ++ [(30, L ^ 2)]) := by
  have hlen := C70_length limDen e.env d.1.fn none _ he _ _ o ho
  obtain ⟨n, hn⟩ := C23_noise_reproducible e.env.normals L o.coefficients 10
  have hnl : n.length = L ^ 2 := by
    obtain ⟨n', h1, h2, -⟩ := createNoise_ok e.env.normals L o.coefficients 10 []
    rw [hn] at h1
    cases h1
    exact h2
  have hadd : NumPy.broadcast (· + ·) o.coefficients n = .ok (List.zipWith (· + ·) o.coefficients n) := by
    unfold NumPy.broadcast
    rw [if_pos (hlen.trans hnl.symm)]
  have hsnr : Noise.computeSnr o.coefficients n = decibels o.coefficients n := rfl
  have key : ∃ (map : Except Err (List ℂ)), d.1.fn.setupArgs e.env.jMax L none = .ok d.1.fn ∧ d.1.fn.name limDen = d.2 ∧
      d.1.fn.spin = 0 ∧ d.1.fn.reality = true ∧ ∀ w, d.1.fn.create e.env L none w = map.map (·, w) := by
    simp only [axisymDemos, List.mem_cons, List.not_mem_nil, or_false] at hd
    rcases hd with rfl | rfl | rfl
    · exact ⟨_, rfl, by simp only [axisymEarth, Fn.name]; decide +kernel, rfl, rfl, fun _ => rfl⟩
    · exact ⟨_, rfl, by simp only [axisymAfrica, Fn.name]; decide +kernel, rfl, rfl, fun _ => rfl⟩
    · exact ⟨_, rfl, by simp only [axisymSouthAmerica, Fn.name]; decide +kernel, rfl, rfl, fun _ => rfl⟩
  obtain ⟨map, k1, k2, k3, k4, k5⟩ := key
  cases hm : map with
  | error x =>
    simp only [Fn.construct, k1, bind, Except.bind, Functions.flm, Functions.postInit, k5, hm, Except.map] at ho
    cases ho
  | ok c =>
    simp only [Fn.construct, k1, bind, Except.bind, Functions.flm, Functions.postInit, k5, hm, Except.map, Functions.flmNoise,
      Functions.addNoiseWith, pure, Except.pure, Except.ok.injEq, Prod.mk.injEq] at ho
    obtain ⟨rfl, -⟩ := ho
    dsimp only at hn hadd hsnr
    refine ⟨?_, k4, k3, fun w => ?_, n, ⟨L, Functions.addDetails limDen ⟨L, some 10, none, none⟩ (d.1.fn.name limDen), d.1.fn.spin,
      d.1.fn.reality, List.zipWith (· + ·) c n, some c, some (decibels c n)⟩, hnl, hn, rfl, rfl, fun w => ?_⟩
    · simp only [Functions.addDetails, k2]
    · simp only [Fn.construct, k1, bind, Except.bind, Functions.flm, Functions.postInit, k5, hm, Except.map, Functions.flmNoise,
        Functions.addNoiseWith, pure, Except.pure]
    · simp only [Fn.construct, k1, bind, Except.bind, Functions.flm, Functions.postInit, k5, hm, Except.map, Functions.flmNoise,
        Functions.addNoiseWith, pure, Except.pure, Rat.cast_ofNat, hn, hadd, hsnr]

open Classical in
/-- C121.  Denoising with axisymmetric wavelets.  In every session, whatever was drawn before: the map is drawn with noise of the fixed seed at
10 decibels, its wavelet fields are cut at three standard deviations, and the figure shows the real part of the sum of what is left (turned
to South America for the Earth), on a scale that is that of the map without noise, before it is turned.  The Earth's demonstration instead
fails at its assertion exactly if the noise did not become less. -/
theorem C121_axisym (limDen : ℚ → ℚ) (e : SphereEnv) (d : Axisym × String) (hd : d ∈ axisymDemos) {L : ℕ} (he : GoodEnv e.env L)
    (Y : ℤ → ℕ → ℝ → ℝ → ℂ) (hY : GoodTransforms e L Y) (hfl : ∀ f, (e.forward false 0 L f).length = L ^ 2) (k₀ : List ℝ)
    (ks : List (List ℝ)) (hk : e.env.kappas L 2 0 = k₀ :: ks) (o : Functions.Obj) (w₀ w₀' : Noise.World)
    (ho : d.1.fn.construct limDen e.env none ⟨L, none, none, none⟩ w₀ = .ok (o, w₀')) (R : ℕ) (hR : R = Plot.calcPlotResolution L) :
    ∃ (n out : List ℂ) (A : ℝ) (fig : Shown),
      (∀ w, Noise.createNoise e.env.normals L o.coefficients 10 w = .ok (n, w ++ [(30, L ^ 2)])) ∧ n.length = L ^ 2 ∧
      out.length = L ^ 2 ∧
      (∀ i < L ^ 2, out.getD i 0 = ((k₀.getD (Nat.sqrt i) 0 ^ 2 : ℝ) : ℂ) * (o.coefficients.getD i 0 + n.getD i 0) +
        (ks.map fun k => ((k.getD (Nat.sqrt i) 0 : ℝ) : ℂ) * (e.forward false 0 L (toRows (clipBelow (fun x : Pix L =>
            expansion (Y 0) L (byDegree L k (List.zipWith (· + ·) o.coefficients n)) (x.1 * π / L) (x.2 * π / L))
          fun _ => 3 * (√(powerOf o.coefficients / 10 / L ^ 2) *
            √(∑ l ∈ Finset.range L, (2 * (l : ℝ) + 1) / (4 * π) * k.getD l 0 ^ 2))))).getD i 0).sum) ∧
      IsGreatest ((fun x => |x|) '' samples R (fun z => z.re) (expansion (Y 0) L o.coefficients)) A ∧
      Pictured R (fun z => z.re) (expansion (Y 0) L (if d.2 = "earth" then
          e.env.S.rotate L out (54 * π / 180) (108 * π / 180) (63 * π / 180) else out)) (fun _ _ => true) id fig ∧
      fig.filename = d.2 ++ "_L" ++ toString L ++ "_denoised_axisym_res" ++ toString R ++ "_real" ∧ fig.annotation = [] ∧
      fig.cmin = -A ∧ fig.cmax = A ∧
      ∀ w, axisym limDen e d.1 L w =
        if d.2 = "earth" ∧ decibels o.coefficients ((List.range (L ^ 2)).map fun i => out.getD i 0 - o.coefficients.getD i 0) ≤
          decibels o.coefficients n then .ok (.assertionFailed, w ++ [(30, L ^ 2)])
        else .ok (.shown (some fig), w ++ [(30, L ^ 2)]) := by
  have hL : 1 ≤ L := he.pos
  obtain ⟨hname, hreal, hspin, hmade, n, o', hnl, hn, hc', hsnr, hmade'⟩ := axisym_made limDen e d hd he o w₀ w₀' ho
  have hlen : o.coefficients.length = L ^ 2 := C70_length limDen e.env d.1.fn none _ he _ _ o ho
  have hrs : RealSignal L o.coefficients :=
    (C70_reality_partial limDen e.env d.1.fn none _ he _ _ o ho hreal (by
      simp only [axisymDemos, List.mem_cons, List.not_mem_nil, or_false] at hd
      rcases hd with rfl | rfl | rfl <;> simp [axisymEarth, axisymAfrica, axisymSouthAmerica])).1
  have hnoised : o'.coefficients.length = L ^ 2 := by
    rw [hc']
    simp [hlen, hnl]
  have hsouth : d.1.south = decide (d.2 = "earth") ∧ d.1.asserts = decide (d.2 = "earth") := by
    simp only [axisymDemos, List.mem_cons, List.not_mem_nil, or_false] at hd
    rcases hd with rfl | rfl | rfl <;> decide +kernel
  set inv : List ℂ → Pix L → ℂ := fun c x => expansion (Y 0) L c (x.1 * π / L) (x.2 * π / L) with hinv
  have ht : Transforms (L ^ 2) (fun c => .ok (ofRows (e.inverse false 0 L c))) (fun g => .ok (e.forward false 0 L (toRows g))) inv
      fun g => e.forward false 0 L (toRows g) := by
    refine ⟨fun c hc => ?_, fun _ => rfl, fun f => hfl _⟩
    rw [hY.inverse false 0 L c hL hc (by simp), toRows_ofRows]
  obtain ⟨wavelets, out, h1, h2, hol, hov⟩ := C84_axisym L ht (Masks.rotateToSouthAmerica e.env.S L)
    (fun c hc => hY.rotate_length _ _ _ _ hc) o.coefficients o'.coefficients hlen hnoised o'.snr k₀ ks
    (fun k h => he.kappas 2 0 k (by rw [hk]; exact h)) 10 3 d.1.south
  set made : Made L := ⟨Script.harmonic e.env.S (e.ylm L) o, none⟩ with hmd
  obtain ⟨A, a1, a2⟩ := C103_harmonic_partial e hL made rfl Y hY hspin hlen (fun _ => hrs) "real" (fun z => z.re)
    (by simp [plotParts]) true R (by simp [hR])
  set res := if d.1.south then Masks.rotateToSouthAmerica e.env.S L out else out with hres
  have hresl : res.length = L ^ 2 := by
    rw [hres]
    split
    · exact hY.rotate_length _ _ _ _ hol
    · exact hol
  have hfield : toRows (inv res) = e.inverse false 0 L res := by
    rw [hY.inverse false 0 L res hL hresl (by simp)]
    rfl
  obtain ⟨fig, _, f1, f2, f3, f4, -, f5, f6⟩ := plotSphere_ok e hL (toRows (inv res)) (o.name ++ "_denoised_axisym") (some A) none R hR
    (expansion (Y 0) L res) (by
      rw [hfield]
      exact boost_ok hY hL false 0 res hresl (by simp) true R (by simp [hR])) (fun _ _ => true) (fun _ _ => rfl)
  have hrot : res = if d.2 = "earth" then e.env.S.rotate L out (54 * π / 180) (108 * π / 180) (63 * π / 180) else out := by
    rw [hres, hsouth.1]
    by_cases h : d.2 = "earth"
    · simp [h, Masks.rotateToSouthAmerica, Py.deg2rad]
    · simp [h]
  refine ⟨n, out, A, fig, hn, hnl, hol, fun i hi => ?_, a2, hrot ▸ f2, ?_, f4, f5, f6, fun w => ?_⟩
  · have hz : (List.zipWith (· + ·) o.coefficients n).getD i 0 = o.coefficients.getD i 0 + n.getD i 0 := by
      rw [List.getD_eq_getElem _ _ (by simp [hlen, hnl, hi]), List.getElem_zipWith, List.getD_eq_getElem _ _ (by omega),
        List.getD_eq_getElem _ _ (by omega)]
    have hp : (10 : ℝ) ^ (-10 / 10 : ℝ) * powerOf o.coefficients / L ^ 2 = powerOf o.coefficients / 10 / L ^ 2 := by
      rw [show (-10 / 10 : ℝ) = -1 by norm_num, Real.rpow_neg_one]
      ring
    rw [hov i hi, hc', hz]
    simp only [clippedScale, axisymThreshold, hp, Int.cast_ofNat, hinv]
  · rw [f3, hname]
    simp only [String.append_assoc]
    rfl
  · have hb : ∀ (q : Option ℚ) (o : Functions.Obj) (w w' : Noise.World), d.1.fn.construct limDen e.env none ⟨L, q, none, none⟩ w = .ok (o, w') →
        build limDen e L (.harmonic d.1.fn) none none q none w = .ok (⟨Script.harmonic e.env.S (e.ylm L) o, none⟩, w') := by
      intro q o w w' h
      simp only [build, h, bind, Except.bind, pure, Except.pure]
    have hwave : ∃ m, build limDen e L (.harmonic (.axisymmetricWavelets ⟨2, 0, none⟩)) none none none none (w ++ [(30, L ^ 2)]) =
        .ok (m, w ++ [(30, L ^ 2)]) := by
      obtain ⟨v, hv⟩ : ∃ v, axisymSelect e.env L ⟨2, 0, none⟩ = .ok v := by
        cases wavelets with
        | nil =>
          unfold Wavelets.createAxisym at h1
          rw [List.mapM_cons] at h1
          simp only [bind, Except.bind] at h1
          split at h1
          · cases h1
          split at h1 <;> cases h1
        | cons v vs =>
          refine ⟨v, ?_⟩
          simp only [axisymSelect, hk, h1, bind, Except.bind, Wavelets.jth]
          rfl
      simp only [build, Fn.construct, Fn.setupArgs, waveArgs, bind, Except.bind, pure, Except.pure, Except.map, Functions.flm, Functions.postInit, Fn.create, hv,
        Functions.flmNoise, Functions.addNoiseWith]
      exact ⟨_, rfl⟩
    obtain ⟨m, hm⟩ := hwave
    simp only [axisym, hb none o w w (hmade w), hb (some 10) o' w _ (hmade' w), keywords, Wavelets.checkJ, bind, Except.bind, pure,
      Except.pure, hm, hk, h1, ← hmd, a1]
    have hmo : made.target.obj = o := rfl
    rw [hsnr] at h2
    simp only [hmo, Script.harmonic, h2, hsnr, f1, hsouth.2, decide_eq_true_eq, not_lt]

/-! ### in a region -/

example (limDen : ℚ → ℚ) (w : Noise.World) : ∃ (o : Functions.Obj) (n : List ℂ) (fig : Shown),
    axisymEarth.fn.construct limDen sampleSphere.env none ⟨2, none, none, none⟩ w = .ok (o, w) ∧ n.length = 4 ∧
    fig.filename = "earth_L2_denoised_axisym_res64_real" ∧
    (axisym limDen sampleSphere axisymEarth 2 w = .ok (.assertionFailed, w ++ [(30, 4)]) ∨
      axisym limDen sampleSphere axisymEarth 2 w = .ok (.shown (some fig), w ++ [(30, 4)])) := by
  obtain ⟨c, hc⟩ : ∃ c, Noise.createEarth sampleSphere.env.S.smooth sampleSphere.env.S.earthFile 2 none = .ok c := ⟨_, rfl⟩
  have ho : ∃ o, axisymEarth.fn.construct limDen sampleSphere.env none ⟨2, none, none, none⟩ w = .ok (o, w) := ⟨_, rfl⟩
  obtain ⟨o, ho⟩ := ho
  obtain ⟨n, out, A, fig, -, h2, -, -, -, -, h3, -, -, -, h4⟩ := C121_axisym limDen sampleSphere (axisymEarth, "earth")
    (by simp [axisymDemos]) sampleSphere_good spike sampleSphere_transforms (fun f => by simp [sampleSphere]) _ _ rfl o w w ho 64 rfl
  refine ⟨o, n, fig, ho, h2, by rw [h3]; decide +kernel, ?_⟩
  rw [h4 w]
  split
  · exact .inl rfl
  · exact .inr rfl

/-- The demonstrations in regions, with the names of the masks and the coefficients of the maps. -/
noncomputable def landDemos (e : SphereEnv) (L : ℕ) : List (Land × String × Except Err (List ℂ)) :=
  [(africa, "africa", africaMap e.env L (some 2)), (southAmerica, "south_america", southAmericaMap e.env L (some 2))]

/-- The eigenvector of rank `p`. -/
def eigenvector {L : ℕ} (S : SlepianOf L) (p : Fin S.env.sl.N) : Fin (L ^ 2) → ℂ := S.env.sl.evecs.getD p fun _ => 0

theorem eigenvector_row {L : ℕ} {S : SlepianOf L} (h : HasRows S.env.sl) (p : Fin S.env.sl.N) :
    S.env.sl.evecs[(p : ℕ)]? = some (eigenvector S p) := by
  have hp : (p : ℕ) < S.env.sl.evecs.length := lt_of_lt_of_le p.2 h.2
  rw [eigenvector, List.getD_eq_getElem?_getD, List.getElem?_eq_getElem hp]
  rfl

/-- the Slepian coefficients of a map. -/
noncomputable def slepianPart {L : ℕ} (S : SlepianOf L) (flm : List ℂ) : List ℂ :=
  List.ofFn fun p : Fin S.env.sl.N => ∑ i : Fin (L ^ 2), flm.getD i 0 * (starRingEnd ℂ) (eigenvector S p i)

/-- the region of a mask. -/
theorem mask_region (name : String) (h : name ≠ "") : ∃ r, Region.mk { maskName := name } = .ok r ∧ r.nameEnding = name := by
  have hpi := pi_pos
  have hr : AnglesInRange { maskName := name } :=
    ⟨⟨by simp; positivity, le_rfl⟩, ⟨le_rfl, by simp; positivity⟩, ⟨hpi.le, le_rfl⟩, le_rfl, hpi.le⟩
  obtain ⟨r, h, -, -, h'⟩ := ((C09_classification { maskName := name }).2 hr).2.2.1 (by simp [OnlyThetaMax])
    (by simp [OtherAngle]) h
  exact ⟨r, h, h'⟩

/-- the object that both demonstrations in a region start from, and the noised one. -/
theorem land_made (limDen : ℚ → ℚ) (hlim : limDen 2 = 2) (e : SphereEnv) {L : ℕ} (d : Land × String × Except Err (List ℂ))
    (hd : d ∈ landDemos e L) (flm : List ℂ) (hflm : d.2.2 = .ok flm) (r : Region.Obj) (hend : r.nameEnding = d.2.1)
    (S : SlepianOf L) (hS : HasRows S.env.sl) (snr : ℚ) :
    ∃ (n : List ℂ) (o o' : Functions.Obj), n.length = S.env.sl.N ∧
      (∀ w, Noise.createSlepianNoise e.env.normals (Transform.slepianInverse S.env.sl S.env.synth) S.env.sshtForward
        (fun nlm => Transform.slepianForward S.env.sl S.env.synth S.env.weight { flm := some (Functions.asVec L nlm) } none) L
        (slepianPart S flm) snr w = .ok (n, w ++ [(30, L ^ 2)])) ∧
      o.name = "slepian_" ++ d.2.1 ++ "_2smoothed_L" ++ toString L ∧ o.coefficients = slepianPart S flm ∧ o.spin = 0 ∧ o.reality = false ∧
      o'.coefficients = List.zipWith (· + ·) (slepianPart S flm) n ∧
      (∀ w, d.1.fn.construct limDen (S.senv e.env r) none none (some 2) w = .ok (o, w)) ∧
      ∀ w, d.1.fn.construct limDen (S.senv e.env r) none (some snr) (some 2) w = .ok (o', w ++ [(30, L ^ 2)]) := by
  have hlen : (slepianPart S flm).length = S.env.sl.N := by simp [slepianPart]
  obtain ⟨n, hnl, hn⟩ := fp_noise e.env.normals S.env hS (slepianPart S flm) hlen.ge snr
  have hadd : NumPy.broadcast (· + ·) (slepianPart S flm) n = .ok (List.zipWith (· + ·) (slepianPart S flm) n) := by
    unfold NumPy.broadcast
    rw [if_pos (hlen.trans hnl.symm)]
  have hfwd : Transform.slepianForward S.env.sl S.env.synth S.env.weight { flm := some (Functions.asVec L flm) } none =
      .ok (slepianPart S flm) := by
    rw [forward_flm S.env.sl S.env.synth S.env.weight _ rfl hS.1 (eigenvector_row hS)]
    rfl
  have key : d.1.fn.setupArgs e.env.jMax L none = .ok d.1.fn ∧ d.1.fn.expects = some d.2.1 ∧
      (∀ ending, d.1.fn.name limDen ending = "slepian_" ++ d.2.1) ∧ Functions.namesSlepian ("slepian_" ++ d.2.1) = true ∧
      ∀ w, d.1.fn.create (S.senv e.env r) (some 2) w = .ok (slepianPart S flm, w) := by
    simp only [landDemos, List.mem_cons, List.not_mem_nil, or_false] at hd
    rcases hd with rfl | rfl
    · refine ⟨rfl, rfl, fun _ => by simp only [africa, SFn.name]; decide +kernel, by dsimp only; decide +kernel, fun w => ?_⟩
      dsimp only at hflm
      simp only [africa, SFn.create, slepianLand, SlepianOf.senv, hflm, bind, Except.bind, hfwd, Except.map]
    · refine ⟨rfl, rfl, fun _ => by simp only [southAmerica, SFn.name]; decide +kernel, by dsimp only; decide +kernel, fun w => ?_⟩
      dsimp only at hflm
      simp only [southAmerica, SFn.create, slepianLand, SlepianOf.senv, hflm, bind, Except.bind, hfwd, Except.map]
  obtain ⟨k1, k2, k3, k4, k5⟩ := key
  have hsmooth : Strings.filenameArgs limDen ((2 : ℤ) : ℚ) "smoothed" = "_2smoothed" := by
    simp only [Strings.filenameArgs, Strings.angleNumDem, Int.cast_ofNat, hlim]
    norm_num
    decide +kernel
  have hen : (S.senv e.env r).env = e.env := rfl
  have hreg : (S.senv e.env r).region = r := rfl
  have hsl : (S.senv e.env r).slepian = S.env := rfl
  refine ⟨n, ⟨L, "slepian_" ++ d.2.1 ++ "_2smoothed_L" ++ toString L, 0, false, slepianPart S flm, none, none⟩, ⟨L, Functions.addDetails limDen ⟨L, some snr, some r, some 2⟩ ("slepian_" ++ d.2.1), 0, false,
      List.zipWith (· + ·) (slepianPart S flm) n, some (slepianPart S flm), some (Noise.computeSnr (slepianPart S flm) n)⟩, hnl, hn, rfl, rfl, rfl, rfl, rfl, fun w => ?_, fun w => ?_⟩
  · simp only [SFn.construct, hen, hreg, k1, k2, k3, bind, Except.bind, Functions.fp, Functions.postInit, k5, Functions.fpNoise, Functions.addNoiseWith,
      pure, Except.pure, checkRegion, hend, Functions.addDetails, k4, hsmooth]
    simp [String.append_assoc]
  · simp only [SFn.construct, hen, hreg, hsl, k1, k2, k3, bind, Except.bind, Functions.fp, Functions.postInit, k5, Functions.fpNoise, Functions.addNoiseWith,
      pure, Except.pure, checkRegion, hend, hn, hadd]
    simp

/-- the figure of a field given by Slepian coefficients. -/
theorem slepian_figure (e : SphereEnv) {L : ℕ} (hL : 1 ≤ L) (Y : ℤ → ℕ → ℝ → ℝ → ℂ) (hY : GoodTransforms e L Y) (S : SlepianOf L)
    (out : List ℂ) (field : Pix L → ℂ)
    (hfield : field = fun x => slepianExpansion (Y 0) S.env.sl out (x.1 * π / L) (x.2 * π / L)) (name : String) (amp : Option ℝ)
    (r : Region.Obj) (R : ℕ) (hR : R = Plot.calcPlotResolution L) (m : Masks.Mask) (st : Masks.Store)
    (hmask : Masks.maskRegion e.env.S R r e.env.store = .ok (m, st)) (hshape : m.shape = (R + 1, 2 * R)) :
    ∃ shown A, plotSphere e L (toRows field) name amp (some r) = .ok (some shown) ∧
      Pictured R (fun z => z.re) (slepianExpansion (Y 0) S.env.sl out) m.val id shown ∧
      shown.filename = name ++ "_res" ++ toString R ++ "_real" ∧ shown.annotation = [] ∧
      IsGreatest ((fun x => |x|) '' samples R (fun z => z.re) (slepianExpansion (Y 0) S.env.sl out)) A ∧
      shown.cmin = -(amp.getD A) ∧ shown.cmax = amp.getD A := by
  obtain ⟨c, hc, hce⟩ := slepian_as_harmonic (Y 0) S.env.sl out
  have hfun : slepianExpansion (Y 0) S.env.sl out = expansion (Y 0) L c := by
    funext θ φ
    exact hce θ φ
  have h1 : toRows field = e.inverse false 0 L c := by
    rw [hY.inverse false 0 L c hL hc (by simp), hfield, hfun]
    rfl
  rw [hfun]
  refine plotSphere_ok e hL _ name amp (some r) R hR _ ?_ m.val ⟨m, st, hmask, hshape, fun _ _ => rfl⟩
  rw [h1]
  exact boost_ok hY hL false 0 c hc (by simp) true R (by simp [hR])

theorem sum_eigenvectors {L : ℕ} {e : SphereEnv} {S : SlepianOf L} {Y : ℤ → ℕ → ℝ → ℝ → ℂ} (hS : GoodSlepian e S Y) (out : List ℂ) :
    (fun x => ∑ p : Fin S.env.sl.N, out.getD p 0 * S.env.synth (eigenvector S p) x) =
      fun x : Pix L => slepianExpansion (Y 0) S.env.sl out (x.1 * π / L) (x.2 * π / L) := by
  funext x
  unfold slepianExpansion
  rw [Finset.sum_range]
  refine Finset.sum_congr rfl fun p _ => ?_
  rw [hS.synth]
  rfl

open Classical in
/-- C121.  Denoising a continent with Slepian wavelets, in every session: the Slepian coefficients of the smoothed map get noise of the fixed
seed at the given ratio; the fields of their wavelet coefficients are cut at `sigma` standard deviations; and the figure shows the real part of
the sum of what is left, inside the region, on the scale of the map without noise over the whole sphere. -/
theorem C121_slepian (limDen : ℚ → ℚ) (hlim : limDen 2 = 2) (str : ℚ → String) (e : SphereEnv) {L : ℕ} (hL : 1 ≤ L)
    (d : Land × String × Except Err (List ℂ)) (hd : d ∈ landDemos e L) (flm : List ℂ) (hflm : d.2.2 = .ok flm) (Y : ℤ → ℕ → ℝ → ℝ → ℂ)
    (hY : GoodTransforms e L Y) (r : Region.Obj) (hr : Region.mk { maskName := d.2.1 } = .ok r) (S : SlepianOf L)
    (hSr : e.slepian L r = .ok S) (hS : GoodSlepian e S Y) (hk : e.env.kappas (L ^ 2) 3 2 ≠ []) (snr : ℚ) (sigma : ℤ)
    (R : ℕ) (hR : R = Plot.calcPlotResolution L) (m : Masks.Mask) (st : Masks.Store)
    (hmask : Masks.maskRegion e.env.S R r e.env.store = .ok (m, st)) (hshape : m.shape = (R + 1, 2 * R)) :
    ∃ (n out : List ℂ) (A : ℝ) (fig : Shown), n.length = S.env.sl.N ∧
      (∀ w, Noise.createSlepianNoise e.env.normals (Transform.slepianInverse S.env.sl S.env.synth) S.env.sshtForward
        (fun nlm => Transform.slepianForward S.env.sl S.env.synth S.env.weight { flm := some (Functions.asVec L nlm) } none) L
        (slepianPart S flm) snr w = .ok (n, w ++ [(30, L ^ 2)])) ∧
      out.length = S.env.sl.N ∧
      (∀ p : Fin S.env.sl.N, out.getD p 0 =
        (List.zipWith (fun (a : List ℂ) (t : List ℂ) => a.getD p 0 * (starRingEnd ℂ) (t.getD p 0))
          ((e.env.kappas (L ^ 2) 3 2).map fun k => k.map fun x : ℝ => (x : ℂ))
          (List.zipWith (fun (psi k : List ℂ) => List.ofFn fun q : Fin S.env.sl.N => ∑ x,
              clipBelow (fun x => ∑ r : Fin S.env.sl.N, psi.getD r 0 *
                  (starRingEnd ℂ) ((List.zipWith (· + ·) (slepianPart S flm) n).getD r 0) * S.env.synth (eigenvector S r) x)
                (fun x => sigma * (√(10 ^ (-(snr : ℝ) / 10) * powerOf (slepianPart S flm) / L ^ 2) *
                  √(∑ r : Fin S.env.sl.N, ‖k.getD r 0‖ ^ 2 * ‖S.env.synth (eigenvector S r) x‖ ^ 2))) x *
                (starRingEnd ℂ) (S.env.synth (eigenvector S q) x) * S.env.weight x)
            (((e.env.kappas (L ^ 2) 3 2).map fun k => k.map fun x : ℝ => (x : ℂ)).filter fun psi =>
              decide (Seen (List.zipWith (· + ·) (slepianPart S flm) n) S.env.sl.N psi))
            ((e.env.kappas (L ^ 2) 3 2).map fun k => k.map fun x : ℝ => (x : ℂ)))).sum) ∧
      IsGreatest ((fun x => |x|) '' samples R (fun z => z.re) (slepianExpansion (Y 0) S.env.sl (slepianPart S flm))) A ∧
      Pictured R (fun z => z.re) (slepianExpansion (Y 0) S.env.sl out) m.val id fig ∧
      fig.filename = "slepian_" ++ d.2.1 ++ "_2smoothed_L" ++ toString L ++ "_" ++ str snr ++ "snr_" ++ str sigma ++ "n_denoised_res" ++
        toString R ++ "_real" ∧ fig.annotation = [] ∧ fig.cmin = -A ∧ fig.cmax = A ∧
      ∀ w, slepianWavelets limDen str e d.1 L snr sigma w = .ok (some fig, w ++ [(30, L ^ 2)]) := by
  have hmn : d.1.mask = d.2.1 ∧ d.2.1 ≠ "" := by
    simp only [landDemos, List.mem_cons, List.not_mem_nil, or_false] at hd
    rcases hd with rfl | rfl <;> exact ⟨rfl, by dsimp only; decide +kernel⟩
  have hend : r.nameEnding = d.2.1 := by
    obtain ⟨r', h1, h2⟩ := mask_region d.2.1 hmn.2
    rw [hr] at h1
    cases h1
    exact h2
  obtain ⟨n, o, o', hnl, hn, hname, hc, hspin, hreal, hc', hmade, hmade'⟩ := land_made limDen hlim e d hd flm hflm r hend S hS.rows snr
  have hlen : (slepianPart S flm).length = S.env.sl.N := by simp [slepianPart]
  have hlen' : (List.zipWith (· + ·) (slepianPart S flm) n).length = S.env.sl.N := by simp [hlen, hnl]
  set made : Made L := ⟨Script.slepian S.env S.pixel o, some (S, r)⟩ with hmd
  obtain ⟨A, a1, a2⟩ := C103_slepian e hL made S r rfl Y hY hS hspin hreal (by rw [hmd]; simp only [Script.slepian, hc]; exact hlen.ge)
    "real" (fun z => z.re) (by simp [plotParts]) true R (by simp [hR])
  have hwf : ((S.senv e.env r).kappas ⟨3, 2, none⟩).WF := by
    intro k hk'
    simp only [SEnv.kappas, SlepianOf.senv, List.mem_map] at hk'
    obtain ⟨k', h1, rfl⟩ := hk'
    rw [List.length_map]
    exact hS.kappas 3 2 k' h1
  obtain ⟨out, h1, hol, hov⟩ := C84_sphere_formula S.env.sl S.env.synth S.env.weight (eigenvector S) rfl hS.rows.1 (eigenvector_row hS.rows)
    (slepianPart S flm) (List.zipWith (· + ·) (slepianPart S flm) n) ((S.senv e.env r).kappas ⟨3, 2, none⟩) hwf hS.rows.1 hlen hlen'.ge
    snr sigma
  obtain ⟨fig, _, f1, f2, f3, f4, -, f5, f6⟩ := slepian_figure e hL Y hY S out _ (sum_eigenvectors hS out)
    (o.name ++ "_" ++ str snr ++ "snr_" ++ str sigma ++ "n_denoised") (some A) r R hR m st hmask hshape
  have hmc : made.target.obj.coefficients = slepianPart S flm := hc
  rw [hmc] at a2
  refine ⟨n, out, A, fig, hnl, hn, hol, hov, a2, f2, ?_, f4, f5, f6, fun w => ?_⟩
  · rw [f3, hname]
    simp only [String.append_assoc]
    rfl
  · have hb : ∀ (fn : SFn) (q : Option ℚ) (s : Option ℤ) (o : Functions.Obj) (w w' : Noise.World),
        fn.construct limDen (S.senv e.env r) none q s w = .ok (o, w') →
        build limDen e L (.slepianFn fn) none (some r) q s w = .ok (⟨Script.slepian S.env S.pixel o, some (S, r)⟩, w') := by
      intro fn q s o w w' h
      simp only [build, regionOr, hSr, h, bind, Except.bind, pure, Except.pure]
    have hwave : ∃ o₂, (SFn.slepianWavelets ⟨3, 2, none⟩).construct limDen (S.senv e.env r) none none none (w ++ [(30, L ^ 2)]) =
        .ok (o₂, w ++ [(30, L ^ 2)]) := by
      obtain ⟨v, hv⟩ : ∃ v, Wavelets.selectWavelet ((S.senv e.env r).kappas ⟨3, 2, none⟩) none = .ok v := by
        cases hkk : e.env.kappas (L ^ 2) 3 2 with
        | nil => exact absurd hkk hk
        | cons v vs =>
          refine ⟨v.map fun x : ℝ => (x : ℂ), ?_⟩
          simp only [Wavelets.selectWavelet, SEnv.kappas, SlepianOf.senv, hkk, Wavelets.jth, List.map_cons]
          rfl
      simp only [SFn.construct, SFn.setupArgs, waveArgs, bind, Except.bind, pure, Except.pure, Except.map, Functions.fp, Functions.postInit,
        SFn.create, hv, Functions.fpNoise, Functions.addNoiseWith, SFn.expects]
      exact ⟨_, rfl⟩
    obtain ⟨o₂, ho₂⟩ := hwave
    have hmo : made.target.obj = o := rfl
    simp only [slepianWavelets, hmn.1, hr, hb _ none (some 2) o w w (hmade w), hb _ (some snr) (some 2) o' w _ (hmade' w), keywords, Wavelets.checkJ,
      bind, Except.bind, pure, Except.pure, hb _ none none o₂ _ _ ho₂, slepianOf, ← hmd, a1, hmo, hc]
    simp only [Script.slepian, hc', h1, f1]

/-- C121.  Denoising a continent with Slepian functions, in every session: the field of the noised Slepian coefficients is cut at `sigma`
standard deviations of the noise, spread over the `L²` coefficients of the sphere, and what is left is shown inside the region on the scale
of the map without noise over the whole sphere. -/
theorem C121_function (limDen : ℚ → ℚ) (hlim : limDen 2 = 2) (str : ℚ → String) (e : SphereEnv) {L : ℕ} (hL : 1 ≤ L)
    (d : Land × String × Except Err (List ℂ)) (hd : d ∈ landDemos e L) (flm : List ℂ) (hflm : d.2.2 = .ok flm) (Y : ℤ → ℕ → ℝ → ℝ → ℂ)
    (hY : GoodTransforms e L Y) (r : Region.Obj) (hr : Region.mk { maskName := d.2.1 } = .ok r) (S : SlepianOf L)
    (hSr : e.slepian L r = .ok S) (hS : GoodSlepian e S Y) (snr : ℚ) (sigma : ℤ)
    (R : ℕ) (hR : R = Plot.calcPlotResolution L) (m : Masks.Mask) (st : Masks.Store)
    (hmask : Masks.maskRegion e.env.S R r e.env.store = .ok (m, st)) (hshape : m.shape = (R + 1, 2 * R)) :
    ∃ (n out : List ℂ) (A : ℝ) (fig : Shown), n.length = S.env.sl.N ∧
      (∀ w, Noise.createSlepianNoise e.env.normals (Transform.slepianInverse S.env.sl S.env.synth) S.env.sshtForward
        (fun nlm => Transform.slepianForward S.env.sl S.env.synth S.env.weight { flm := some (Functions.asVec L nlm) } none) L
        (slepianPart S flm) snr w = .ok (n, w ++ [(30, L ^ 2)])) ∧
      out.length = S.env.sl.N ∧
      (∀ p : Fin S.env.sl.N, out.getD p 0 = ∑ x : Pix L,
        clipBelow (fun x : Pix L => slepianExpansion (Y 0) S.env.sl (List.zipWith (· + ·) (slepianPart S flm) n) (x.1 * π / L) (x.2 * π / L))
            (fun _ => sigma * √(10 ^ (-(snr : ℝ) / 10) * powerOf (slepianPart S flm) / L ^ 2)) x *
          (starRingEnd ℂ) (S.env.synth (eigenvector S p) x) * S.env.weight x) ∧
      IsGreatest ((fun x => |x|) '' samples R (fun z => z.re) (slepianExpansion (Y 0) S.env.sl (slepianPart S flm))) A ∧
      Pictured R (fun z => z.re) (slepianExpansion (Y 0) S.env.sl out) m.val id fig ∧
      fig.filename = "slepian_" ++ d.2.1 ++ "_2smoothed_L" ++ toString L ++ "_" ++ str snr ++ "snr_" ++ str sigma ++
        "n_denoised_function_res" ++ toString R ++ "_real" ∧ fig.annotation = [] ∧ fig.cmin = -A ∧ fig.cmax = A ∧
      ∀ w, slepianFunctions limDen str e d.1 L snr sigma w = .ok (some fig, w ++ [(30, L ^ 2)]) := by
  have hmn : d.1.mask = d.2.1 ∧ d.2.1 ≠ "" := by
    simp only [landDemos, List.mem_cons, List.not_mem_nil, or_false] at hd
    rcases hd with rfl | rfl <;> exact ⟨rfl, by dsimp only; decide +kernel⟩
  have hend : r.nameEnding = d.2.1 := by
    obtain ⟨r', h1, h2⟩ := mask_region d.2.1 hmn.2
    rw [hr] at h1
    cases h1
    exact h2
  obtain ⟨n, o, o', hnl, hn, hname, hc, hspin, hreal, hc', hmade, hmade'⟩ := land_made limDen hlim e d hd flm hflm r hend S hS.rows snr
  have hlen : (slepianPart S flm).length = S.env.sl.N := by simp [slepianPart]
  have hlen' : (List.zipWith (· + ·) (slepianPart S flm) n).length = S.env.sl.N := by simp [hlen, hnl]
  set made : Made L := ⟨Script.slepian S.env S.pixel o, some (S, r)⟩ with hmd
  obtain ⟨A, a1, a2⟩ := C103_slepian e hL made S r rfl Y hY hS hspin hreal (by rw [hmd]; simp only [Script.slepian, hc]; exact hlen.ge)
    "real" (fun z => z.re) (by simp [plotParts]) true R (by simp [hR])
  obtain ⟨inv, fwd, -, ht, hinv, hfwd, -⟩ := C84_sphere S.env.sl S.env.synth S.env.weight (eigenvector S) rfl hS.rows.1
    (eigenvector_row hS.rows) (slepianPart S flm) [] (by simp) snr
  obtain ⟨out, h1, hout, -⟩ := C84_slepian_function L S.env.sl.N ht (slepianPart S flm) (List.zipWith (· + ·) (slepianPart S flm) n) hlen hlen'
    snr sigma
  have hinv' : ∀ c, inv c = fun x : Pix L => slepianExpansion (Y 0) S.env.sl c (x.1 * π / L) (x.2 * π / L) := by
    intro c
    rw [← sum_eigenvectors hS c]
    funext x
    exact hinv c x
  obtain ⟨fig, _, f1, f2, f3, f4, -, f5, f6⟩ := slepian_figure e hL Y hY S out _ (hinv' out)
    (o.name ++ "_" ++ str snr ++ "snr_" ++ str sigma ++ "n_denoised_function") (some A) r R hR m st hmask hshape
  have hmc : made.target.obj.coefficients = slepianPart S flm := hc
  rw [hmc] at a2
  refine ⟨n, out, A, fig, hnl, hn, hout ▸ ht.length _, fun p => ?_, a2, f2, ?_, f4, f5, f6, fun w => ?_⟩
  · rw [hout, hfwd, hinv']
  · rw [f3, hname]
    simp only [String.append_assoc]
    rfl
  · have hb : ∀ (fn : SFn) (q : Option ℚ) (s : Option ℤ) (o : Functions.Obj) (w w' : Noise.World),
        fn.construct limDen (S.senv e.env r) none q s w = .ok (o, w') →
        build limDen e L (.slepianFn fn) none (some r) q s w = .ok (⟨Script.slepian S.env S.pixel o, some (S, r)⟩, w') := by
      intro fn q s o w w' h
      simp only [build, regionOr, hSr, h, bind, Except.bind, pure, Except.pure]
    have hmo : made.target.obj = o := rfl
    simp only [slepianFunctions, hmn.1, hr, hb _ none (some 2) o w w (hmade w), hb _ (some snr) (some 2) o' w _ (hmade' w),
      bind, Except.bind, pure, Except.pure, slepianOf, ← hmd, a1, hmo, hc]
    simp only [hmd, Script.slepian, hc', h1, f1]

/-- files of the mask of Africa. -/
def landFiles (name : String) : Option Masks.Mask :=
  if name = "slepian_masks_africa_L2.npy" then some ⟨(2 + 1, 2 * 2), fun _ _ => true⟩ else some ⟨(64 + 1, 2 * 64), fun i _ => decide (i < 16)⟩

/-- the sample world with these files. -/
noncomputable def sampleLand : SphereEnv := { sampleSphere with env := { sampleSphere.env with store := ⟨landFiles, fun _ => none⟩ } }

private theorem sampleLand_map : ∃ flm, africaMap sampleLand.env 2 (some 2) = .ok flm := by
  obtain ⟨c, hc⟩ : ∃ c, Masks.earth sampleLand.env.S 2 (some 2) = .ok c := ⟨_, rfl⟩
  have hname : "slepian_masks_" ++ (Strings.snake "Africa" ++ "_L" ++ toString 2 ++ ".npy") = "slepian_masks_africa_L2.npy" := by decide +kernel
  have hm : Masks.loadMask sampleLand.env.S 2 (Strings.snake "Africa" ++ "_L" ++ toString 2 ++ ".npy") sampleLand.env.store =
      .ok (⟨(2 + 1, 2 * 2), fun _ _ => true⟩, sampleLand.env.store) := by
    unfold Masks.loadMask
    rw [hname]
    rfl
  unfold africaMap land
  rw [hc]
  simp only [bind, Except.bind]
  rw [hm]
  exact ⟨_, if_pos rfl⟩

theorem sampleLand_mask (r : Region.Obj) (h2 : r.args = { maskName := "africa" }) (h3 : r.regionType = "arbitrary") :
    Masks.maskRegion sampleLand.env.S 64 r sampleLand.env.store =
      .ok (⟨(64 + 1, 2 * 64), fun i _ => decide (i < 16)⟩, sampleLand.env.store) := by
  have hname : "slepian_masks_" ++ ("africa" ++ "_L" ++ toString 64 ++ ".npy") = "slepian_masks_africa_L64.npy" := by decide +kernel
  have hm : Masks.loadMask sampleLand.env.S 64 ("africa" ++ "_L" ++ toString 64 ++ ".npy") sampleLand.env.store =
      .ok (⟨(64 + 1, 2 * 64), fun i _ => decide (i < 16)⟩, sampleLand.env.store) := by
    have h : landFiles "slepian_masks_africa_L64.npy" = some ⟨(64 + 1, 2 * 64), fun i _ => decide (i < 16)⟩ := if_neg (by decide +kernel)
    have h' : sampleLand.env.store.find "slepian_masks_africa_L64.npy" = some ⟨(64 + 1, 2 * 64), fun i _ => decide (i < 16)⟩ := by
      have h'' : sampleLand.env.store.published "slepian_masks_africa_L64.npy" = landFiles "slepian_masks_africa_L64.npy" := rfl
      unfold Masks.Store.find
      rw [h'', h]
      rfl
    unfold Masks.loadMask
    rw [hname, h']
  have hshape : sampleLand.env.S.shape 64 = (64 + 1, 2 * 64) := rfl
  unfold Masks.maskRegion
  rw [if_pos h3, h2, hm]
  simp only [bind, Except.bind, hshape, if_true]
  rfl

example (str : ℚ → String) (w : Noise.World) : ∃ (flm : List ℂ) (r : Region.Obj) (fig fig' : Shown),
    africaMap sampleLand.env 2 (some 2) = .ok flm ∧ Region.mk { maskName := "africa" } = .ok r ∧
    slepianWavelets (fun x => x) str sampleLand africa 2 (-10) 2 w = .ok (some fig, w ++ [(30, 4)]) ∧
    slepianFunctions (fun x => x) str sampleLand africa 2 (-10) 2 w = .ok (some fig', w ++ [(30, 4)]) ∧
    fig.filename ≠ fig'.filename := by
  have hpi := pi_pos
  have hr : AnglesInRange { maskName := "africa" } :=
    ⟨⟨by simp; positivity, le_rfl⟩, ⟨le_rfl, by simp; positivity⟩, ⟨hpi.le, le_rfl⟩, le_rfl, hpi.le⟩
  obtain ⟨r, h1, h2, h3, h4⟩ := ((C09_classification { maskName := "africa" }).2 hr).2.2.1 (by simp [OnlyThetaMax])
    (by simp [OtherAngle]) (by decide)
  obtain ⟨flm, hf⟩ := sampleLand_map
  have hm := sampleLand_mask r h2 h3
  have hT : GoodTransforms sampleLand 2 spike := { sampleSphere_transforms with }
  have hS : GoodSlepian sampleLand (sampleSlepian 2 (by norm_num)) spike :=
    ⟨⟨by simp [sampleSlepian], by simp [sampleSlepian]⟩, fun _ _ => rfl, by
      intro B j k hk; simp [sampleLand, sampleSphere, sampleEnv] at hk; rcases hk with rfl | rfl | rfl <;> simp⟩
  have hd : (africa, "africa", africaMap sampleLand.env 2 (some 2)) ∈ landDemos sampleLand 2 := by simp [landDemos]
  obtain ⟨-, -, -, fig, -, -, -, -, -, -, f1, -, -, -, f2⟩ := C121_slepian (fun x => x) rfl str sampleLand (by norm_num) _ hd flm hf spike hT r h1
    (sampleSlepian 2 (by norm_num)) (by simp [sampleLand, sampleSphere]) hS (by simp [sampleLand, sampleSphere, sampleEnv]) (-10) 2 64 rfl _ _ hm rfl
  obtain ⟨-, -, -, fig', -, -, -, -, -, -, f1', -, -, -, f2'⟩ := C121_function (fun x => x) rfl str sampleLand (by norm_num) _ hd flm hf spike hT r h1
    (sampleSlepian 2 (by norm_num)) (by simp [sampleLand, sampleSphere]) hS (-10) 2 64 rfl _ _ hm rfl
  refine ⟨flm, r, fig, fig', hf, h1, f2 w, f2' w, ?_⟩
  rw [f1, f1']
  intro h
  have h := congrArg String.length h
  simp only [String.length_append] at h
  have a1 : "n_denoised_res".length = 14 := by decide +kernel
  have a2 : "n_denoised_function_res".length = 23 := by decide +kernel
  omega

/-! ### on a mesh -/

section
variable {n K : ℕ} {e : MeshClasses.MEnv (Fin n)} {φ : Fin K → Fin n → ℝ} {ev : Fin K → ℝ} {S : Fin K → Fin K → ℝ} {rows : ℕ}

/-- the Slepian functions of the mesh, at the vertices. -/
def MeshSlepians (e : MeshClasses.MEnv (Fin n)) (φ : Fin K → Fin n → ℝ) (S : Fin K → Fin K → ℝ) (s : Fin e.slepian.N → Fin n → ℝ) : Prop :=
  ∀ (p : Fin e.slepian.N) (q : Fin K), (q : ℕ) = p → ∀ v, s p v = ∑ i, S q i * φ i v

theorem mesh_orthonormal (h : GoodMesh e φ ev S rows) {s : Fin e.slepian.N → Fin n → ℝ} (hs : MeshSlepians e φ S s)
    (p q : Fin e.slepian.N) : ∑ v, s p v * s q v = if p = q then 1 else 0 := by
  have hNK := h.le_K
  have := (C50_mesh_energy_ratio e.slepian φ ev S rows h.built).1 ⟨p, by omega⟩ ⟨q, by omega⟩
  simp only [Fin.mk.injEq, ← Fin.ext_iff] at this
  rw [← this]
  exact Finset.sum_congr rfl fun v _ => by rw [hs p ⟨p, by omega⟩ rfl, hs q ⟨q, by omega⟩ rfl]

private theorem mesh_inverse (h : GoodMesh e φ ev S rows) {s : Fin e.slepian.N → Fin n → ℝ} (hs : MeshSlepians e φ S s) (c : List ℝ)
    (hc : e.slepian.N ≤ c.length) :
    MeshT.slepianMeshInverse e.slepian c = .ok fun v => ∑ p : Fin e.slepian.N, c.getD p 0 * s p v := by
  have hNK := h.le_K
  rw [meshInverse_take h c hc]
  congr 1
  funext v
  exact Finset.sum_congr rfl fun p _ => by rw [hs p ⟨p, by omega⟩ rfl]

private theorem mesh_forward (h : GoodMesh e φ ev S rows) {s : Fin e.slepian.N → Fin n → ℝ} (hs : MeshSlepians e φ S s) (u : Fin n → ℝ) :
    MeshT.slepianMeshForward e.slepian { u := some u } none = .ok (List.ofFn fun p : Fin e.slepian.N => ∑ v, u v * s p v) := by
  have hNK := h.le_K
  obtain ⟨F, g, h1, -, h3, h4, -⟩ := C32_mesh_round_trip e.slepian φ ev S rows h.built u
  refine h1.trans ?_
  congr 2
  funext p
  have h5 := h4 p
  have h6 : ∀ v, ∑ i, S ⟨p, by omega⟩ i * φ i v = s p v := fun v => (hs p ⟨p, by omega⟩ rfl v).symm
  have h7 : ∀ v, g v = ∑ q, F q * s q v := by
    intro v
    rw [h3]
    exact Finset.sum_congr rfl fun q _ => by rw [hs q ⟨q, by omega⟩ rfl]
  simp only [h6, sub_mul, Finset.sum_sub_distrib] at h5
  have h8 : ∑ v, g v * s p v = F p := by
    simp only [h7, Finset.sum_mul]
    rw [Finset.sum_comm]
    simp only [mul_assoc, ← Finset.mul_sum, mesh_orthonormal h hs]
    simp
  linarith

/-- the field of Slepian coefficients on a mesh, and the Slepian coefficients of a field. -/
noncomputable def fieldOnMesh {n N : ℕ} (s : Fin N → Fin n → ℝ) (c : List ℂ) (v : Fin n) : ℂ := ((∑ p : Fin N, (c.getD p 0).re * s p v : ℝ) : ℂ)

@[inherit_doc fieldOnMesh]
noncomputable def slepianCoefficientsOf {n N : ℕ} (s : Fin N → Fin n → ℝ) (f : Fin n → ℂ) : List ℂ :=
  List.ofFn fun p : Fin N => ((∑ v, (f v).re * s p v : ℝ) : ℂ)

/-- the Slepian transforms of the mesh. -/
theorem mesh_transforms (h : GoodMesh e φ ev S rows) {s : Fin e.slepian.N → Fin n → ℝ} (hs : MeshSlepians e φ S s) :
    Transforms e.slepian.N (meshInv e.slepian) (meshFwd e.slepian) (fieldOnMesh s) (slepianCoefficientsOf s) := by
  refine ⟨fun c hc => ?_, fun f => ?_, fun f => by simp [slepianCoefficientsOf]⟩
  · unfold meshInv
    rw [mesh_inverse h hs _ (by simp only [List.length_map, hc]; exact le_rfl)]
    simp only [Except.map]
    congr 1
    funext v
    unfold fieldOnMesh
    congr 1
    refine Finset.sum_congr rfl fun p _ => ?_
    rw [show (0 : ℝ) = (0 : ℂ).re from rfl, List.getD_map]
  · unfold meshFwd
    rw [mesh_forward h hs]
    simp [Except.map, slepianCoefficientsOf, Function.comp_def, List.map_ofFn]

theorem mesh_sigma (h : GoodMesh e φ ev S rows) {s : Fin e.slepian.N → Fin n → ℝ} (hs : MeshSlepians e φ S s) (signal : List ℂ)
    (psi : List (List ℂ)) (hpsi : ∀ r ∈ psi, e.slepian.N ≤ r.length) (snr : ℝ) :
    SigmaJ.meshSigmaJ e.slepian signal psi snr = .ok (psi.map fun κ v => √(10 ^ (-snr / 10) * powerOf signal / K) *
      √(∑ p : Fin e.slepian.N, ‖κ.getD p 0‖ ^ 2 * s p v ^ 2)) := by
  have hNK := h.le_K
  have hsp : MeshT.computeSp e.slepian (List.range e.slepian.N) =
      .ok ((List.range e.slepian.N).map fun p v => if hp : p < e.slepian.N then s ⟨p, hp⟩ v else 0) := by
    refine MeshT.computeSp_ok e.slepian _ _ fun p hp => ?_
    have hp : p < e.slepian.N := by simpa using hp
    refine ⟨_, (h.built.row ⟨p, by omega⟩ (by have := h.built.le_rows; simp only; omega)).1, ?_⟩
    rw [h.built.basis, MeshT.meshInverse_ofFn]
    simp only [hp, dite_true]
    congr 1
    funext v
    rw [hs ⟨p, hp⟩ ⟨p, by omega⟩ rfl]
  unfold SigmaJ.meshSigmaJ
  simp only [hsp, bind, Except.bind]
  refine mapM_eq_ok _ _ _ fun κ hκ => ?_
  rw [List.map_map, Function.comp_def,
    SigmaJ.waveletPower_ok κ e.slepian.N (hpsi κ hκ) (fun p v => |if hp : p < e.slepian.N then s ⟨p, hp⟩ v else 0| ^ 2)]
  simp [pure, Except.pure, Noise.computeSigmaNoise, powerOf, Noise.signalPower, h.built.evals]

/-- the field of a mesh, with and without noise, in every session. -/
private theorem mesh_made (limDen : ℚ → ℚ) (h : GoodMesh e φ ev S rows) {s : Fin e.slepian.N → Fin n → ℝ} (hs : MeshSlepians e φ S s)
    (c nz : List ℝ) (hc : c = List.ofFn fun p : Fin e.slepian.N => ∑ v, e.normalY v * s p v) (snr : ℚ)
    (hnz : nz = List.ofFn fun p : Fin e.slepian.N => c.getD p 0 + √(10 ^ (-(snr : ℝ) / 10) * (c.map fun x => x ^ 2).sum / K) *
      ∑ i : Fin K, e.normals 30 i * S ⟨p, by have := h.le_K; omega⟩ i) (w : Noise.World) :
    (∃ o, MeshClasses.MFn.slepianField.construct limDen e none none false w = .ok (o, w) ∧ o.coefficients = c) ∧
      ∃ o, MeshClasses.MFn.slepianField.construct limDen e none (some snr) false w = .ok (o, w ++ [(30, K)]) ∧ o.coefficients = nz := by
  have hNK := h.le_K
  have ext : ∀ (x : List ℝ) (f : Fin e.slepian.N → ℝ), x.length = e.slepian.N → (∀ p : Fin e.slepian.N, x.getD p 0 = f p) → x = List.ofFn f := by
    intro x f hx hf
    apply List.ext_getElem
    · simp [hx]
    · intro i h1 h2
      have := hf ⟨i, by omega⟩
      rw [List.getD_eq_getElem _ _ h1] at this
      simpa using this
  obtain ⟨o, ho, hol, hov⟩ := C78_slepian_field limDen h false w
  have hoc : o.coefficients = c := by
    rw [hc]
    refine ext _ _ hol fun p => ?_
    rw [hov ⟨p, by omega⟩ p.2]
    exact Finset.sum_congr rfl fun v _ => by rw [hs p ⟨p, by omega⟩ rfl]
  obtain ⟨o', ho', -, -, hol', hov'⟩ := C78_noise limDen h .slepianField rfl false w w o ho hol snr
  refine ⟨⟨o, ho, hoc⟩, o', ho', ?_⟩
  rw [hnz]
  refine ext _ _ hol' fun p => ?_
  have h1 := hov' ⟨p, by omega⟩ p.2
  rw [hoc] at h1
  exact h1

end

open Classical in
/-- C121.  Denoising the field of a mesh with Slepian wavelets, in every session: the Slepian coefficients `c` of the field get noise of the
fixed seed (`nz`); the fields of their wavelet coefficients are cut at `sigma` standard deviations; and the faces inside the region are
coloured by what is left, on the scale of the field of `c` over all vertices. -/
theorem C121_mesh (limDen : ℚ → ℚ) (str : ℚ → String) (load : String → MeshScript.Loaded) (name : String) (l : MeshScript.Loaded)
    (hl : load name = l) {K : ℕ} (φ : Fin K → Fin l.n → ℝ) (ev : Fin K → ℝ) (S : Fin K → Fin K → ℝ) (rows : ℕ) (hn : 0 < l.n)
    (h : GoodMesh (l.mesh name true) φ ev S rows) (s : Fin l.env.slepian.N → Fin l.n → ℝ)
    (hs : MeshSlepians (l.mesh name true) φ S s) (hk : l.env.kappas K 3 2 ≠ [])
    (hkl : ∀ r ∈ l.env.kappas K 3 2, r.length = K) (snr : ℚ) (sigma : ℤ) (c nz : List ℝ)
    (hc : c = List.ofFn fun p : Fin l.env.slepian.N => ∑ v, l.env.normalY v * s p v)
    (hnz : nz = List.ofFn fun p : Fin l.env.slepian.N =>
      c.getD p 0 + √(10 ^ (-(snr : ℝ) / 10) * (c.map fun x => x ^ 2).sum / K) *
        ∑ i : Fin K, l.env.normals 30 i * S ⟨p, lt_of_lt_of_le p.2 h.le_K⟩ i)
    (wavelets : List (List ℂ)) (hwav : wavelets = (l.env.kappas K 3 2).map fun k => k.map fun x : ℝ => (x : ℂ)) :
    ∃ (out : List ℂ) (A : ℝ) (F : MeshScript.Figure), out.length = l.env.slepian.N ∧
      (∀ p < l.env.slepian.N, out.getD p 0 =
        (List.zipWith (fun (a : List ℂ) (t : List ℂ) => a.getD p 0 * (starRingEnd ℂ) (t.getD p 0)) wavelets
          (List.zipWith (fun psi k : List ℂ => slepianCoefficientsOf s
              (clipBelow (fieldOnMesh s (waveletRow (nz.map fun x : ℝ => (x : ℂ)) l.env.slepian.N psi))
                fun v => sigma * (√(10 ^ (-(snr : ℝ) / 10) * (c.map fun x => x ^ 2).sum / K) *
                  √(∑ r : Fin l.env.slepian.N, ‖k.getD r 0‖ ^ 2 * s r v ^ 2))))
            (wavelets.filter fun psi => decide (Seen (nz.map fun x : ℝ => (x : ℂ)) l.env.slepian.N psi)) wavelets)).sum) ∧
      IsGreatest (Set.range fun v => |∑ p : Fin l.env.slepian.N, c.getD p 0 * s p v|) A ∧
      Shows l l.env.slepian.region true (fun v => ∑ p : Fin l.env.slepian.N, (out.getD p 0).re * s p v) id F ∧
      F.filename = name ++ "_" ++ str snr ++ "snr_" ++ str sigma ++ "n_denoised" ∧ F.cmin = -A ∧ F.cmid = 0 ∧ F.cmax = A ∧
      F.camera = MeshScript.cameraView l.config true ∧ F.barPos = MeshScript.colourbarPos l.config true ∧
      ∀ w, mesh limDen str load name snr sigma w = .ok (some F, w ++ [(30, K)]) := by
  have hNK : l.env.slepian.N ≤ K := h.le_K
  have hclen : c.length = l.env.slepian.N := by rw [hc]; simp
  have hnlen : nz.length = l.env.slepian.N := by rw [hnz]; simp
  have hpow : powerOf (c.map fun x : ℝ => (x : ℂ)) = (c.map fun x => x ^ 2).sum := by
    simp [powerOf, Function.comp_def]
  have ht : Transforms l.env.slepian.N (meshInv (l.mesh name true).slepian) (meshFwd (l.mesh name true).slepian) (fieldOnMesh s) (slepianCoefficientsOf s) :=
    mesh_transforms h hs
  have hwv : (l.mesh name true).wavelets ⟨3, 2, none⟩ = ⟨K, wavelets⟩ := by
    unfold MeshClasses.MEnv.wavelets
    rw [h.number, hwav]
    rfl
  have hrl : ∀ r ∈ wavelets, r.length = K := by
    intro r hr
    rw [hwav, List.mem_map] at hr
    obtain ⟨k, h1, rfl⟩ := hr
    simpa using hkl k h1
  have hsig := mesh_sigma h hs (c.map fun x : ℝ => (x : ℂ)) wavelets (fun r hr => by rw [hrl r hr]; exact hNK) snr
  rw [hpow] at hsig
  obtain ⟨out, h1, hol, hov⟩ := C84_slepian_formula l.env.slepian.N ht
    (fun psi => SigmaJ.meshSigmaJ (l.mesh name true).slepian (c.map fun x : ℝ => (x : ℂ)) psi snr) (c.map fun x : ℝ => (x : ℂ))
    (nz.map fun x : ℝ => (x : ℂ)) ⟨K, wavelets⟩ hrl hNK (by simp [hclen]) (by simp [hnlen]) _ hsig (by simp) sigma
  have hclean : MeshT.slepianMeshInverse (l.mesh name true).slepian c = .ok fun v => ∑ p : Fin l.env.slepian.N, c.getD p 0 * s p v :=
    mesh_inverse h hs c hclen.ge
  obtain ⟨A, a1, a2⟩ := mesh_abs_greatest (fun v => ∑ p : Fin l.env.slepian.N, c.getD p 0 * s p v) hn
  have hne : (List.ofFn fun v => ∑ p : Fin l.env.slepian.N, (out.getD p 0).re * s p v) ≠ [] := by simp; omega
  obtain ⟨mx, hmx, -⟩ := Plot.exists_amax hne
  obtain ⟨mn, hmn, -⟩ := Plot.exists_amin hne
  have hout : MeshScript.coefficientsToField (l.mesh name true) true (out.map Complex.re) =
      .ok fun v => ∑ p : Fin l.env.slepian.N, (out.getD p 0).re * s p v := by
    have := ht.inverse out hol
    unfold MeshScript.coefficientsToField
    rw [if_pos rfl, mesh_inverse h hs _ (by simp only [List.length_map, hol]; exact le_rfl)]
    congr 1
    funext v
    refine Finset.sum_congr rfl fun p _ => ?_
    rw [show (0 : ℝ) = (0 : ℂ).re from rfl, List.getD_map]
  obtain ⟨F, f1, f2, f3, f4, f5, f6, f7, f8⟩ := mesh_plot_ok l (l.mesh name true) true
    ⟨name ++ "_" ++ str snr ++ "snr_" ++ str sigma ++ "n_denoised", out.map Complex.re, none, none⟩ false (some A) _ hout mn mx hmn hmx id rfl
  refine ⟨out, A, F, hol, ?_, a2, f2, f3, f4, f5, f6, f7, f8, fun w => ?_⟩
  · intro p hp
    rw [hov p hp, List.zipWith_map_right]
    congr
  · obtain ⟨⟨o, ho, hoc⟩, o', ho', hoc'⟩ := mesh_made limDen h hs c nz hc snr hnz w
    obtain ⟨k, ks, hkk⟩ := List.exists_cons_of_ne_nil hk
    obtain ⟨o₂, ho₂, -⟩ := C78_wavelets limDen (l.mesh name true) false (w ++ [(30, K)]) ⟨3, 2, none⟩ k (by
      rw [h.number]
      change (l.env.kappas K 3 2)[0]? = _
      rw [hkk]
      rfl)
    simp only [MeshScript.plot, hout, bind, Except.bind, pure, Except.pure] at f1
    change Denoising.slepianWavelet _ _ _ (l.mesh name true).slepian.N _ _ _ _ = _ at h1
    subst hl
    simp only [mesh, ho, ho', hoc, hoc', keywords, Wavelets.checkJ, bind, Except.bind, pure, Except.pure, ho₂, hclean, a1, hwv, h1]
    simp only [fieldOnMesh, Complex.ofReal_re]
    split at f1
    · cases f1
    · injection f1 with f1
      rw [← f1]
      rfl

example (w : Noise.World) : ∃ (load : String → MeshScript.Loaded) (F : MeshScript.Figure) (A : ℝ),
    mesh (fun x => x) (fun _ => "2") load "cube" (-5) 2 w = .ok (some F, w ++ [(30, 3)]) ∧ F.filename = "cube_2snr_2n_denoised" ∧
    F.colours.length = 2 ∧ F.cmax = A ∧ 0 ≤ A := by
  let c : MeshScript.Config := ⟨1, 1, 1, 0, 0, 0, 1, 2, 1, 1⟩
  let e₀ : MeshClasses.MEnv (Fin 3) := ⟨"", false, [], ⟨0, [], fun _ => true, 0, [], []⟩, fun _ => 1, fun _ => "",
    fun K _ _ => [List.replicate K 1, List.replicate K 2], fun _ _ _ => 0, fun _ _ => 0⟩
  obtain ⟨e, φ, S, hN, hk, hg⟩ := goodMesh_exists e₀
  let l : MeshScript.Loaded := ⟨3, c, e, fun _ => (0, 0, 0), [(1, 2, 1), (0, 1, 2)]⟩
  have hg' : GoodMesh (l.mesh "cube" true) φ ![1, 1, 0] S 2 := ⟨hg.built, hg.number⟩
  have hle := hg'.le_K
  obtain ⟨_, A, F, -, -, h3, h4, h5, -, -, h6, -, -, h7⟩ := C121_mesh (fun x => x) (fun _ => "2") (fun _ => l) "cube" l rfl φ ![1, 1, 0] S 2
    (by simp [l]) hg' (fun p v => ∑ i, S ⟨p, lt_of_lt_of_le p.2 hle⟩ i * φ i v) (fun p q hq v => by
      have : q = ⟨p, lt_of_lt_of_le p.2 hle⟩ := Fin.ext hq
      rw [this]) (by simp only [l, hk]; simp [e₀]) (by simp only [l, hk]; simp [e₀]) (-5) 2 _ _ rfl rfl _ rfl
  refine ⟨fun _ => l, F, A, h7 w, by rw [h5]; decide +kernel, h4.number, h6, ?_⟩
  obtain ⟨v, hv⟩ := h3.1
  rw [← hv]
  exact abs_nonneg _

/-- C121.  The table of meshes: six figures in a fixed order, each at its own noise level and all cut at two standard deviations. -/
theorem C121_table (limDen : ℚ → ℚ) (str : ℚ → String) (load : String → MeshScript.Loaded) (F : String → MeshScript.Figure) (K : String → ℕ)
    (h : ∀ r ∈ ([("cheetah", -864 / 100), ("dragon", -812 / 100), ("bird", -517 / 100), ("teapot", -311 / 100), ("cube", -733 / 100),
      ("homer", -5)] : List (String × ℚ)), ∀ w, mesh limDen str load r.1 r.2 2 w = .ok (some (F r.1), w ++ [(30, K r.1)])) (w : Noise.World) :
    table limDen str load w = .ok ([some (F "cheetah"), some (F "dragon"), some (F "bird"), some (F "teapot"), some (F "cube"), some (F "homer")],
      w ++ [(30, K "cheetah"), (30, K "dragon"), (30, K "bird"), (30, K "teapot"), (30, K "cube"), (30, K "homer")]) := by
  simp only [List.forall_mem_cons, List.not_mem_nil, false_implies, implies_true, and_true] at h
  obtain ⟨h1, h2, h3, h4, h5, h6⟩ := h
  simp only [table, tableRows, List.foldlM, bind, Except.bind, pure, Except.pure, h1, h2, h3, h4, h5, h6, List.append_assoc, List.nil_append,
    List.cons_append]

example (w : Noise.World) : ∃ (load : String → MeshScript.Loaded) (figures : List (Option MeshScript.Figure)),
    table (fun x => x) (fun _ => "2") load w = .ok (figures, w ++ List.replicate 6 (30, 3)) ∧ figures.length = 6 := by
  let c : MeshScript.Config := ⟨1, 1, 1, 0, 0, 0, 1, 2, 1, 1⟩
  let e₀ : MeshClasses.MEnv (Fin 3) := ⟨"", false, [], ⟨0, [], fun _ => true, 0, [], []⟩, fun _ => 1, fun _ => "",
    fun K _ _ => [List.replicate K 1, List.replicate K 2], fun _ _ _ => 0, fun _ _ => 0⟩
  obtain ⟨e, φ, S, hN, hk, hg⟩ := goodMesh_exists e₀
  let l : MeshScript.Loaded := ⟨3, c, e, fun _ => (0, 0, 0), [(1, 2, 1), (0, 1, 2)]⟩
  have hrow : ∀ (name : String) (q : ℚ), ∃ F, ∀ w, mesh (fun x => x) (fun _ => "2") (fun _ => l) name q 2 w = .ok (some F, w ++ [(30, 3)]) := by
    intro name q
    have hg' : GoodMesh (l.mesh name true) φ ![1, 1, 0] S 2 := ⟨hg.built, hg.number⟩
    have hle := hg'.le_K
    obtain ⟨-, -, F, -, -, -, -, -, -, -, -, -, -, h7⟩ := C121_mesh (fun x => x) (fun _ => "2") (fun _ => l) name l rfl φ ![1, 1, 0] S 2
      (by simp [l]) hg' (fun p v => ∑ i, S ⟨p, lt_of_lt_of_le p.2 hle⟩ i * φ i v) (fun p q hq v => by
        have : q = ⟨p, lt_of_lt_of_le p.2 hle⟩ := Fin.ext hq
        rw [this]) (by simp only [l, hk]; simp [e₀]) (by simp only [l, hk]; simp [e₀]) q 2 _ _ rfl rfl _ rfl
    exact ⟨F, h7⟩
  choose F hF using hrow
  refine ⟨fun _ => l, _, C121_table _ _ _ (fun name => F name (if name = "cheetah" then -864 / 100 else if name = "dragon" then -812 / 100 else
    if name = "bird" then -517 / 100 else if name = "teapot" then -311 / 100 else if name = "cube" then -733 / 100 else -5)) (fun _ => 3) ?_ w, rfl⟩
  simp only [List.forall_mem_cons, List.not_mem_nil, false_implies, implies_true, and_true]
  refine ⟨fun w => ?_, fun w => ?_, fun w => ?_, fun w => ?_, fun w => ?_, fun w => ?_⟩ <;> exact hF _ _ w

end Sleplet.Props
