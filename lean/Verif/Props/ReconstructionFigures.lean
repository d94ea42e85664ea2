import Verif.Model.Reconstructions
import Verif.Props.Demos
import Verif.Props.FigureNames
import Verif.Props.Reconstruction
import Verif.Props.RegionNames

/-!
C122: the figures of reconstructions and of Slepian functions.
-/
namespace Sleplet.Props

open Classes Spec SphereScript Demos Real

/-- What a figure of these demonstrations shows: the real part of a field of Slepian coefficients, inside the region only, on the scale of the
field over the whole sphere; and its file name. -/
structure Depicts {L : ℕ} (Y : ℤ → ℕ → ℝ → ℝ → ℂ) (S : SlepianOf L) (R : ℕ) (inside : ℕ → ℕ → Bool) (c : List ℂ) (name : String) (fig : Shown) :
    Prop where
  picture : Pictured R (fun z => z.re) (slepianExpansion (Y 0) S.env.sl c) inside id fig
  file : fig.filename = name ++ "_res" ++ toString R ++ "_real"
  bare : fig.annotation = []
  scale : IsGreatest ((fun x => |x|) '' samples R (fun z => z.re) (slepianExpansion (Y 0) S.env.sl c)) fig.cmax
  symmetric : fig.cmin = -fig.cmax

/-- The reconstructions from wavelets, with the names of the masks and the coefficients of the maps. -/
noncomputable def wavesDemos (e : SphereEnv) (L : ℕ) : List (LandWaves × String × Except Err (List ℂ)) :=
  [(africaWaves, "africa", africaMap e.env L (some 2)), (southAmericaWaves, "south_america", southAmericaMap e.env L (some 2))]

private theorem depicted (e : SphereEnv) {L : ℕ} (hL : 1 ≤ L) (Y : ℤ → ℕ → ℝ → ℝ → ℂ) (hY : GoodTransforms e L Y) (S : SlepianOf L)
    (c : List ℂ) (field : Pix L → ℂ) (hfield : field = fun x => slepianExpansion (Y 0) S.env.sl c (x.1 * π / L) (x.2 * π / L))
    (name : String) (r : Region.Obj) (R : ℕ) (hR : R = Plot.calcPlotResolution L) (m : Masks.Mask) (st : Masks.Store)
    (hmask : Masks.maskRegion e.env.S R r e.env.store = .ok (m, st)) (hshape : m.shape = (R + 1, 2 * R)) :
    ∃ fig, plotSphere e L (toRows field) name none (some r) = .ok (some fig) ∧ Depicts Y S R m.val c name fig := by
  obtain ⟨fig, A, f1, f2, f3, f4, f5, f6, f7⟩ := slepian_figure e hL Y hY S c field hfield name none r R hR m st hmask hshape
  refine ⟨fig, f1, f2, f3, f4, ?_, ?_⟩
  · rw [f7]; exact f5
  · rw [f6, f7]

private theorem land_mask {e : SphereEnv} {L : ℕ} {d : Land × String × Except Err (List ℂ)} (hd : d ∈ landDemos e L) :
    d.1.mask = d.2.1 ∧ d.2.1 ≠ "" := by
  simp only [landDemos, List.mem_cons, List.not_mem_nil, or_false] at hd
  rcases hd with rfl | rfl <;> exact ⟨rfl, by dsimp only; decide +kernel⟩

private theorem land_ending {name : String} (h : name ≠ "") {r : Region.Obj} (hr : Region.mk { maskName := name } = .ok r) :
    r.nameEnding = name := by
  obtain ⟨r', h1, h2⟩ := mask_region name h
  rw [hr] at h1
  cases h1
  exact h2

private theorem build_fn (limDen : ℚ → ℚ) (e : SphereEnv) {L : ℕ} (r : Region.Obj) (S : SlepianOf L) (hSr : e.slepian L r = .ok S)
    (fn : SFn) (q : Option ℚ) (s : Option ℤ) (o : Functions.Obj) (w w' : Noise.World)
    (h : fn.construct limDen (S.senv e.env r) none q s w = .ok (o, w')) :
    build limDen e L (.slepianFn fn) none (some r) q s w = .ok (⟨Script.slepian S.env S.pixel o, some (S, r)⟩, w') := by
  simp only [build, regionOr, hSr, h, bind, Except.bind, pure, Except.pure]

/-- C122.  Reconstructing a continent from its Slepian coefficients, in every session: the figure shows the field of the Slepian coefficients
of the smoothed map, inside the region, on its own scale. -/
theorem C122_slepian (limDen : ℚ → ℚ) (hlim : limDen 2 = 2) (e : SphereEnv) {L : ℕ} (hL : 1 ≤ L)
    (d : Land × String × Except Err (List ℂ)) (hd : d ∈ landDemos e L) (flm : List ℂ) (hflm : d.2.2 = .ok flm) (Y : ℤ → ℕ → ℝ → ℝ → ℂ)
    (hY : GoodTransforms e L Y) (r : Region.Obj) (hr : Region.mk { maskName := d.2.1 } = .ok r) (S : SlepianOf L)
    (hSr : e.slepian L r = .ok S) (hS : GoodSlepian e S Y) (R : ℕ) (hR : R = Plot.calcPlotResolution L) (m : Masks.Mask) (st : Masks.Store)
    (hmask : Masks.maskRegion e.env.S R r e.env.store = .ok (m, st)) (hshape : m.shape = (R + 1, 2 * R)) :
    ∃ fig, Depicts Y S R m.val (slepianPart S flm) (d.2.1 ++ "_slepian_reconstruction_L" ++ toString L) fig ∧
      ∀ w, slepianReconstruction limDen e d.1 L w = .ok (some fig, w) := by
  have hmn := land_mask hd
  obtain ⟨-, o, -, -, -, -, hc, -, -, -, hmade, -⟩ := land_made limDen hlim e d hd flm hflm r (land_ending hmn.2 hr) S hS.rows 0
  have hlen : (slepianPart S flm).length = S.env.sl.N := by simp [slepianPart]
  have hinv := inverse_ok hS (slepianPart S flm) hlen.ge
  obtain ⟨fig, f1, f2⟩ := depicted e hL Y hY S (slepianPart S flm) _ rfl (d.2.1 ++ "_slepian_reconstruction_L" ++ toString L) r R hR m st
    hmask hshape
  refine ⟨fig, f2, fun w => ?_⟩
  simp only [slepianReconstruction, hmn.1, hr, hSr, build_fn limDen e r S hSr _ none (some 2) o w w (hmade w), bind, Except.bind, pure, Except.pure,
    Script.slepian, hc, hinv, f1]

private theorem waves_land {e : SphereEnv} {L : ℕ} {d : LandWaves × String × Except Err (List ℂ)} (hd : d ∈ wavesDemos e L) :
    (d.1.land, d.2) ∈ landDemos e L := by
  simp only [wavesDemos, List.mem_cons, List.not_mem_nil, or_false] at hd
  rcases hd with rfl | rfl <;> simp [landDemos, africaWaves, southAmericaWaves]

/-- the object that the reconstructions from wavelets start from. -/
private theorem waves_made (limDen : ℚ → ℚ) (e : SphereEnv) {L : ℕ} (d : LandWaves × String × Except Err (List ℂ)) (hd : d ∈ wavesDemos e L)
    (flm : List ℂ) (hflm : d.2.2 = .ok flm) (r : Region.Obj) (hend : r.nameEnding = d.2.1) (S : SlepianOf L) (Y : ℤ → ℕ → ℝ → ℝ → ℂ)
    (hS : GoodSlepian e S Y) (hwf : ((S.senv e.env r).kappas ⟨3, 2, none⟩).WF)
    (hsome : ∃ psi ∈ ((S.senv e.env r).kappas ⟨3, 2, none⟩).rows, Seen (slepianPart S flm) S.env.sl.N psi) :
    ∃ o, ∀ w, (d.1.waves ⟨3, 2, none⟩).construct limDen (S.senv e.env r) none none (some 2) w = .ok (o, w) := by
  classical
  have hlen : (slepianPart S flm).length = S.env.sl.N := by simp [slepianPart]
  have hfwd : Transform.slepianForward S.env.sl S.env.synth S.env.weight { flm := some (Functions.asVec L flm) } none =
      .ok (slepianPart S flm) := by
    rw [forward_flm S.env.sl S.env.synth S.env.weight _ rfl hS.rows.1 (eigenvector_row hS.rows)]
    rfl
  obtain ⟨psi, hp1, hp2⟩ := hsome
  obtain ⟨x, hx⟩ : ∃ x, NumPy.item ((S.senv e.env r).kappas ⟨3, 2, none⟩).rows 0 = .ok x := by
    cases hk : ((S.senv e.env r).kappas ⟨3, 2, none⟩).rows with
    | nil => rw [hk] at hp1; cases hp1
    | cons a l => exact ⟨a, rfl⟩
  have hf := slepianForward_eq (slepianPart S flm) _ hwf S.env.sl.N hlen.ge hS.rows.1
  obtain ⟨y, hy⟩ : ∃ y, Wavelets.selectCoefficients (slepianPart S flm) ((S.senv e.env r).kappas ⟨3, 2, none⟩) S.env.sl.N none = .ok y := by
    unfold Wavelets.selectCoefficients
    rw [hf]
    have hmem : psi ∈ ((S.senv e.env r).kappas ⟨3, 2, none⟩).rows.filter fun psi => decide (Seen (slepianPart S flm) S.env.sl.N psi) :=
      List.mem_filter.2 ⟨hp1, by simpa using hp2⟩
    cases hk : ((S.senv e.env r).kappas ⟨3, 2, none⟩).rows.filter fun psi => decide (Seen (slepianPart S flm) S.env.sl.N psi) with
    | nil => rw [hk] at hmem; cases hmem
    | cons a l => exact ⟨waveletRow (slepianPart S flm) S.env.sl.N a, rfl⟩
  have hsl : (S.senv e.env r).slepian = S.env := rfl
  have hen : (S.senv e.env r).env = e.env := rfl
  have hreg : (S.senv e.env r).region = r := rfl
  have hob : slepianLandCoefficients (S.senv e.env r) d.2.1 d.2.2 ⟨3, 2, none⟩ = .ok y := by
    simp only [slepianLandCoefficients, hx, slepianLandObject, slepianLand, hsl, hflm, hfwd, hreg, hend, checkRegion, bind, Except.bind, pure,
      Except.pure, ne_eq, not_true_eq_false, if_false, hy]
  simp only [wavesDemos, List.mem_cons, List.not_mem_nil, or_false] at hd
  rcases hd with rfl | rfl
  · refine ⟨⟨L, Functions.addDetails limDen ⟨L, none, some r, some 2⟩ ((SFn.slepianWaveletCoefficientsAfrica ⟨3, 2, none⟩).name limDen
      "africa"), 0, false, y, none, none⟩, fun w => ?_⟩
    simp only [africaWaves, SFn.construct, SFn.setupArgs, waveArgs, SFn.create, hen, hob, hreg, hend, Except.map, bind, Except.bind, pure,
      Except.pure, Functions.fp, Functions.postInit, Functions.fpNoise, Functions.addNoiseWith, SFn.expects, checkRegion, ne_eq, not_true_eq_false,
      if_false]
  · refine ⟨⟨L, Functions.addDetails limDen ⟨L, none, some r, some 2⟩ ((SFn.slepianWaveletCoefficientsSouthAmerica ⟨3, 2, none⟩).name limDen
      "south_america"), 0, false, y, none, none⟩, fun w => ?_⟩
    simp only [southAmericaWaves, SFn.construct, SFn.setupArgs, waveArgs, SFn.create, hen, hob, hreg, hend, Except.map, bind, Except.bind, pure,
      Except.pure, Functions.fp, Functions.postInit, Functions.fpNoise, Functions.addNoiseWith, SFn.expects, checkRegion, ne_eq, not_true_eq_false,
      if_false]

private theorem kappas_wf {L : ℕ} {e : SphereEnv} {S : SlepianOf L} {Y : ℤ → ℕ → ℝ → ℝ → ℂ} (hS : GoodSlepian e S Y) (r : Region.Obj) :
    ((S.senv e.env r).kappas ⟨3, 2, none⟩).WF := by
  intro k hk'
  simp only [SEnv.kappas, SlepianOf.senv, List.mem_map] at hk'
  obtain ⟨k', h1, rfl⟩ := hk'
  rw [List.length_map]
  exact hS.kappas 3 2 k' h1

private theorem seen_real (c : List ℂ) (N : ℕ) (k : List ℝ) :
    Seen c N (k.map fun x : ℝ => (x : ℂ)) ↔ ∃ p < N, k.getD p 0 ≠ 0 ∧ c.getD p 0 ≠ 0 := by
  have hget : ∀ p, (k.map fun a : ℝ => (a : ℂ)).getD p 0 = ((k.getD p 0 : ℝ) : ℂ) := by
    intro p
    rw [List.getD_eq_getElem?_getD, List.getD_eq_getElem?_getD, List.getElem?_map]
    rcases k[p]? with _ | a <;> simp
  constructor
  · rintro ⟨p, hp, h⟩
    rw [hget] at h
    exact ⟨p, hp, by rintro h0; rw [h0] at h; simp at h, by rintro h0; rw [h0] at h; simp at h⟩
  · rintro ⟨p, hp, h1, h2⟩
    exact ⟨p, hp, mul_ne_zero (by rw [hget]; exact_mod_cast h1) h2⟩

/-- C122.  Reconstructing a continent from its wavelet coefficients, in every session, for all wavelets of which one sees the map: in the field
shown, the coefficient of rank `p` is multiplied by `Σ_i ψ_i(p) ψ_{k(i)}(p)`, where `k(0) < k(1) < …` are the scales with signal. -/
theorem C122_wavelets_formula (limDen : ℚ → ℚ) (hlim : limDen 2 = 2) (e : SphereEnv) {L : ℕ} (hL : 1 ≤ L)
    (d : LandWaves × String × Except Err (List ℂ)) (hd : d ∈ wavesDemos e L) (flm : List ℂ) (hflm : d.2.2 = .ok flm) (Y : ℤ → ℕ → ℝ → ℝ → ℂ)
    (hY : GoodTransforms e L Y) (r : Region.Obj) (hr : Region.mk { maskName := d.2.1 } = .ok r) (S : SlepianOf L)
    (hSr : e.slepian L r = .ok S) (hS : GoodSlepian e S Y) (signal : List ℝ → Bool)
    (hsignal : ∀ k, signal k = true ↔ ∃ p < S.env.sl.N, k.getD p 0 ≠ 0 ∧ (slepianPart S flm).getD p 0 ≠ 0)
    (hsome : ∃ k ∈ e.env.kappas (L ^ 2) 3 2, signal k = true)
    (R : ℕ) (hR : R = Plot.calcPlotResolution L) (m : Masks.Mask) (st : Masks.Store)
    (hmask : Masks.maskRegion e.env.S R r e.env.store = .ok (m, st)) (hshape : m.shape = (R + 1, 2 * R)) :
    ∃ fig, Depicts Y S R m.val (List.ofFn fun p : Fin S.env.sl.N => (slepianPart S flm).getD p 0 *
          (List.zipWith (fun (a b : List ℝ) => a.getD p 0 * b.getD p 0) (e.env.kappas (L ^ 2) 3 2)
            ((e.env.kappas (L ^ 2) 3 2).filter signal)).sum)
        (d.2.1 ++ "_wavelet_reconstruction_L" ++ toString L) fig ∧
      ∀ w, waveletReconstruction limDen e d.1 L w = .ok (some fig, w) := by
  classical
  have hd' := waves_land hd
  have hmn := land_mask hd'
  have hend := land_ending hmn.2 hr
  have hwf := kappas_wf hS r
  obtain ⟨-, o, -, -, -, -, hc, -, -, -, hmade, -⟩ := land_made limDen hlim e _ hd' flm hflm r hend S hS.rows 0
  have hlen : (slepianPart S flm).length = S.env.sl.N := by simp [slepianPart]
  obtain ⟨k0, hk0, hk0'⟩ := hsome
  set ks := e.env.kappas (L ^ 2) 3 2 with hks
  set cast : List ℝ → List ℂ := fun k => k.map fun x : ℝ => (x : ℂ) with hcast
  have hrows : ((S.senv e.env r).kappas ⟨3, 2, none⟩).rows = ks.map cast := rfl
  obtain ⟨o₂, ho₂⟩ := waves_made limDen e d hd flm hflm r hend S Y hS hwf ⟨cast k0, List.mem_map_of_mem hk0,
    (seen_real _ _ _).2 ((hsignal k0).1 hk0')⟩
  have hget : ∀ (k : List ℝ) (p : ℕ), (cast k).getD p 0 = ((k.getD p 0 : ℝ) : ℂ) := by
    intro k p
    rw [hcast, List.getD_eq_getElem?_getD, List.getD_eq_getElem?_getD, List.getElem?_map]
    rcases k[p]? with _ | a <;> simp
  have hfilter : ((ks.map cast).filter fun psi => decide (Seen (slepianPart S flm) S.env.sl.N psi)) = (ks.filter signal).map cast := by
    rw [List.filter_map]
    congr 1
    refine List.filter_congr fun k _ => ?_
    rw [Function.comp_apply, Bool.eq_iff_iff, hsignal, decide_eq_true_iff, seen_real]
  have hzip : ∀ (l l' : List (List ℝ)) (p : ℕ), (List.zipWith (fun (a b : List ℂ) => a.getD p 0 * (starRingEnd ℂ) (b.getD p 0)) (l.map cast)
      (l'.map cast)).sum = (((List.zipWith (fun (a b : List ℝ) => a.getD p 0 * b.getD p 0) l l').sum : ℝ) : ℂ) := by
    intro l
    induction l with
    | nil => simp
    | cons a l ih =>
      intro l' p
      cases l' with
      | nil => simp
      | cons b l' => simp only [List.map_cons, List.zipWith_cons_cons, List.sum_cons, ih, hget, Complex.conj_ofReal, Complex.ofReal_add,
          Complex.ofReal_mul]
  obtain ⟨x, out, h1, h2, h3, h4⟩ := C27_round_trip_formula (slepianPart S flm) ((S.senv e.env r).kappas ⟨3, 2, none⟩) hwf S.env.sl.N hlen.ge
    hS.rows.1
  have hout : out = List.ofFn fun p : Fin S.env.sl.N => (slepianPart S flm).getD p 0 *
      ((List.zipWith (fun (a b : List ℝ) => a.getD p 0 * b.getD p 0) ks (ks.filter signal)).sum : ℝ) := by
    apply List.ext_getElem (by simp [h3])
    intro p hp _
    have := h4 p (by omega)
    rw [hrows, hfilter, hzip, List.getD_eq_getElem _ _ hp] at this
    rw [this, List.getElem_ofFn]
  have hinv := inverse_ok hS out h3.ge
  have hrec : Experiments.reconstructedField S.env.sl S.env.synth (slepianPart S flm) ((S.senv e.env r).kappas ⟨3, 2, none⟩) =
      .ok fun x => slepianExpansion (Y 0) S.env.sl out (x.1 * π / L) (x.2 * π / L) := by
    unfold Experiments.reconstructedField
    rw [h1]
    simp only [bind, Except.bind]
    rw [h2]
    exact hinv
  rw [← hout]
  obtain ⟨fig, f1, f2⟩ := depicted e hL Y hY S out _ rfl (d.2.1 ++ "_wavelet_reconstruction_L" ++ toString L) r R hR m st hmask hshape
  refine ⟨fig, f2, fun w => ?_⟩
  have hm1 : d.1.land.mask = d.2.1 := hmn.1
  simp only [waveletReconstruction, hm1, hr, keywords, Wavelets.checkJ, build_fn limDen e r S hSr _ none (some 2) o w w (hmade w),
    build_fn limDen e r S hSr _ none (some 2) o₂ w w (ho₂ w), slepianOf, bind, Except.bind, pure, Except.pure, Script.slepian, hc, hrec, f1]

/-- C122.  Reconstructing a continent from its wavelet coefficients, in every session.  Where the squares of the wavelets add up to one and the
scales without signal come last, after some scale with signal, the figure shows the same field as the reconstruction from the Slepian
coefficients, under another file name. -/
theorem C122_wavelets (limDen : ℚ → ℚ) (hlim : limDen 2 = 2) (e : SphereEnv) {L : ℕ} (hL : 1 ≤ L)
    (d : LandWaves × String × Except Err (List ℂ)) (hd : d ∈ wavesDemos e L) (flm : List ℂ) (hflm : d.2.2 = .ok flm) (Y : ℤ → ℕ → ℝ → ℝ → ℂ)
    (hY : GoodTransforms e L Y) (r : Region.Obj) (hr : Region.mk { maskName := d.2.1 } = .ok r) (S : SlepianOf L)
    (hSr : e.slepian L r = .ok S) (hS : GoodSlepian e S Y) (hadm : ∀ p < S.env.sl.N, ((e.env.kappas (L ^ 2) 3 2).map fun k => k.getD p 0 ^ 2).sum = 1)
    (front back : List (List ℝ)) (hsplit : e.env.kappas (L ^ 2) 3 2 = front ++ back) (hne : front ≠ [])
    (hfront : ∀ k ∈ front, ∃ p < S.env.sl.N, k.getD p 0 ≠ 0 ∧ (slepianPart S flm).getD p 0 ≠ 0)
    (hback : ∀ k ∈ back, ∀ p < S.env.sl.N, k.getD p 0 = 0 ∨ (slepianPart S flm).getD p 0 = 0)
    (R : ℕ) (hR : R = Plot.calcPlotResolution L) (m : Masks.Mask) (st : Masks.Store)
    (hmask : Masks.maskRegion e.env.S R r e.env.store = .ok (m, st)) (hshape : m.shape = (R + 1, 2 * R)) :
    ∃ fig, Depicts Y S R m.val (slepianPart S flm) (d.2.1 ++ "_wavelet_reconstruction_L" ++ toString L) fig ∧
      ∀ w, waveletReconstruction limDen e d.1 L w = .ok (some fig, w) := by
  classical
  let signal : List ℝ → Bool := fun k => decide (∃ p < S.env.sl.N, k.getD p 0 ≠ 0 ∧ (slepianPart S flm).getD p 0 ≠ 0)
  have hsignal : ∀ k, signal k = true ↔ ∃ p < S.env.sl.N, k.getD p 0 ≠ 0 ∧ (slepianPart S flm).getD p 0 ≠ 0 := fun k => decide_eq_true_iff
  obtain ⟨k0, hk0⟩ := List.exists_mem_of_ne_nil _ hne
  obtain ⟨fig, f1, f2⟩ := C122_wavelets_formula limDen hlim e hL d hd flm hflm Y hY r hr S hSr hS signal hsignal
    ⟨k0, by rw [hsplit]; exact List.mem_append_left _ hk0, (hsignal k0).2 (hfront k0 hk0)⟩ R hR m st hmask hshape
  refine ⟨fig, ?_, f2⟩
  have hfilter : (e.env.kappas (L ^ 2) 3 2).filter signal = front := by
    rw [hsplit, List.filter_append, List.filter_eq_self.2 fun k hk => (hsignal k).2 (hfront k hk), List.filter_eq_nil_iff.2, List.append_nil]
    intro k hk
    rw [hsignal]
    rintro ⟨p, hp, a, b⟩
    rcases hback k hk p hp with h | h
    · exact a h
    · exact b h
  have hzip : ∀ (l l' : List (List ℝ)) (p : ℕ), (List.zipWith (fun (a b : List ℝ) => a.getD p 0 * b.getD p 0) (l ++ l') l).sum =
      (l.map fun k => k.getD p 0 ^ 2).sum := by
    intro l l' p
    induction l with
    | nil => simp
    | cons a l ih => simp only [List.cons_append, List.zipWith_cons_cons, List.map_cons, List.sum_cons, ih, sq]
  have hout : (List.ofFn fun p : Fin S.env.sl.N => (slepianPart S flm).getD p 0 *
      ((List.zipWith (fun (a b : List ℝ) => a.getD p 0 * b.getD p 0) (e.env.kappas (L ^ 2) 3 2)
        ((e.env.kappas (L ^ 2) 3 2).filter signal)).sum : ℝ)) = slepianPart S flm := by
    rw [hfilter]
    apply List.ext_getElem (by simp [slepianPart])
    intro p hp hp'
    have hpN : p < S.env.sl.N := by simpa using hp
    rw [List.getElem_ofFn, List.getD_eq_getElem _ _ hp']
    by_cases h0 : (slepianPart S flm)[p] = 0
    · rw [h0, zero_mul]
    · have h1 := hadm p hpN
      have hb : (back.map fun k => k.getD p 0 ^ 2).sum = 0 := by
        apply List.sum_eq_zero
        intro x hx
        obtain ⟨k, hk, rfl⟩ := List.mem_map.1 hx
        rcases hback k hk p hpN with h | h
        · rw [h]; norm_num
        · rw [List.getD_eq_getElem _ _ hp'] at h
          exact absurd h h0
      rw [hsplit, List.map_append, List.sum_append, hb, add_zero] at h1
      have h2 := hzip front back p
      rw [← hsplit, h1] at h2
      dsimp only
      rw [h2]
      simp
  rw [← hout]
  exact f1

/-- C122.  Reconstructing a continent scale by scale, in every session: one figure for each scale with signal, in order, each on its own
scale.  In figure `i` the coefficient of rank `p` is multiplied by the sum of all wavelets at `p` (the first `N`, if there are more) and by the
sum of the wavelets of the first `i + 1` scales with signal. -/
theorem C122_progressive (limDen : ℚ → ℚ) (hlim : limDen 2 = 2) (e : SphereEnv) {L : ℕ} (hL : 1 ≤ L)
    (d : LandWaves × String × Except Err (List ℂ)) (hd : d ∈ wavesDemos e L) (flm : List ℂ) (hflm : d.2.2 = .ok flm) (Y : ℤ → ℕ → ℝ → ℝ → ℂ)
    (hY : GoodTransforms e L Y) (r : Region.Obj) (hr : Region.mk { maskName := d.2.1 } = .ok r) (S : SlepianOf L)
    (hSr : e.slepian L r = .ok S) (hS : GoodSlepian e S Y) (signal : List ℝ → Bool)
    (hsignal : ∀ k, signal k = true ↔ ∃ p < S.env.sl.N, k.getD p 0 ≠ 0 ∧ (slepianPart S flm).getD p 0 ≠ 0)
    (hsome : ∃ k ∈ e.env.kappas (L ^ 2) 3 2, signal k = true)
    (R : ℕ) (hR : R = Plot.calcPlotResolution L) (m : Masks.Mask) (st : Masks.Store)
    (hmask : Masks.maskRegion e.env.S R r e.env.store = .ok (m, st)) (hshape : m.shape = (R + 1, 2 * R)) :
    ∃ figs : List Shown, figs.length = ((e.env.kappas (L ^ 2) 3 2).filter signal).length ∧
      (∀ (i : ℕ) (fig : Shown), figs[i]? = some fig → Depicts Y S R m.val (List.ofFn fun p : Fin S.env.sl.N => (slepianPart S flm).getD p 0 *
          ((((e.env.kappas (L ^ 2) 3 2).take S.env.sl.N).map fun k => k.getD p 0).sum *
            ((((e.env.kappas (L ^ 2) 3 2).filter signal).take (i + 1)).map fun k => k.getD p 0).sum : ℝ))
        (d.2.1 ++ "_wavelet_reconstruction_progressive_" ++ toString i ++ "_L" ++ toString L) fig) ∧
      ∀ w, progressiveReconstruction limDen e d.1 L w = .ok (figs.map some, w) := by
  classical
  have hd' := waves_land hd
  have hmn := land_mask hd'
  have hend := land_ending hmn.2 hr
  have hwf := kappas_wf hS r
  obtain ⟨-, o, -, -, -, -, hc, -, -, -, hmade, -⟩ := land_made limDen hlim e _ hd' flm hflm r hend S hS.rows 0
  have hlen : (slepianPart S flm).length = S.env.sl.N := by simp [slepianPart]
  obtain ⟨k0, hk0, hk0'⟩ := hsome
  set ks := e.env.kappas (L ^ 2) 3 2 with hks
  set cast : List ℝ → List ℂ := fun k => k.map fun x : ℝ => (x : ℂ) with hcast
  have hrows : ((S.senv e.env r).kappas ⟨3, 2, none⟩).rows = ks.map cast := rfl
  obtain ⟨o₂, ho₂⟩ := waves_made limDen e d hd flm hflm r hend S Y hS hwf ⟨cast k0, List.mem_map_of_mem hk0,
    (seen_real _ _ _).2 ((hsignal k0).1 hk0')⟩
  have hget : ∀ (k : List ℝ) (p : ℕ), (cast k).getD p 0 = ((k.getD p 0 : ℝ) : ℂ) := by
    intro k p
    rw [hcast, List.getD_eq_getElem?_getD, List.getD_eq_getElem?_getD, List.getElem?_map]
    rcases k[p]? with _ | a <;> simp
  have hsum : ∀ (l : List (List ℝ)) (p : ℕ), ((l.map cast).map fun psi => psi.getD p 0).sum = (((l.map fun k => k.getD p 0).sum : ℝ) : ℂ) := by
    intro l p
    induction l with
    | nil => simp
    | cons k l ih => simp only [List.map_cons, List.sum_cons, Complex.ofReal_add, ih, hget]
  have hfilter : ((ks.map cast).filter fun psi => decide (Seen (slepianPart S flm) S.env.sl.N psi)) = (ks.filter signal).map cast := by
    rw [List.filter_map]
    congr 1
    refine List.filter_congr fun k _ => ?_
    rw [Function.comp_apply, Bool.eq_iff_iff, hsignal, decide_eq_true_iff, seen_real]
  obtain ⟨fields, h1, h2, h3⟩ := C90_fields_shown (sl := S.env.sl) rfl (eigenvector_row hS.rows) S.env.synth (slepianPart S flm) hlen.ge
    ((S.senv e.env r).kappas ⟨3, 2, none⟩) hwf hS.rows.1
  rw [hrows, hfilter, List.length_map] at h2
  rw [hrows, hfilter] at h3
  let coeffs : ℕ → List ℂ := fun i => List.ofFn fun p : Fin S.env.sl.N => (slepianPart S flm).getD p 0 *
    (((ks.take S.env.sl.N).map fun k => k.getD p 0).sum * (((ks.filter signal).take (i + 1)).map fun k => k.getD p 0).sum : ℝ)
  have hfield : ∀ (i : ℕ) (fld : Pix L → ℂ), fields[i]? = some fld →
      fld = fun x => slepianExpansion (Y 0) S.env.sl (coeffs i) (x.1 * π / L) (x.2 * π / L) := by
    intro i fld hi
    rw [← sum_eigenvectors hS]
    funext x
    rw [h3 i fld hi x]
    refine Finset.sum_congr rfl fun p _ => ?_
    have : (coeffs i).getD p 0 = (slepianPart S flm).getD p 0 *
        (((ks.take S.env.sl.N).map fun k => k.getD p 0).sum * (((ks.filter signal).take (i + 1)).map fun k => k.getD p 0).sum : ℝ) := by
      simp only [coeffs]
      rw [List.getD_eq_getElem _ _ (by simp), List.getElem_ofFn]
    rw [this, ← List.map_take, hsum, ← List.map_take, hsum, Complex.conj_ofReal, ← Complex.ofReal_mul]
  have hfig : ∀ i : ℕ, ∃ fig, ∀ fld, fields[i]? = some fld →
      plotSphere e L (toRows fld) (d.2.1 ++ "_wavelet_reconstruction_progressive_" ++ toString i ++ "_L" ++ toString L) none (some r) =
        .ok (some fig) ∧
      Depicts Y S R m.val (coeffs i) (d.2.1 ++ "_wavelet_reconstruction_progressive_" ++ toString i ++ "_L" ++ toString L) fig := by
    intro i
    obtain ⟨fig, f1, f2⟩ := depicted e hL Y hY S (coeffs i) _ rfl
      (d.2.1 ++ "_wavelet_reconstruction_progressive_" ++ toString i ++ "_L" ++ toString L) r R hR m st hmask hshape
    refine ⟨fig, fun fld hi => ⟨?_, f2⟩⟩
    rw [hfield i fld hi]
    exact f1
  choose fig hfig using hfig
  refine ⟨(List.range fields.length).map fig, by rw [List.length_map, List.length_range, h2], ?_, fun w => ?_⟩
  · intro i f hi
    rw [List.getElem?_map] at hi
    obtain ⟨i', hi', rfl⟩ := Option.map_eq_some_iff.1 hi
    obtain ⟨hlt, rfl⟩ := List.getElem?_eq_some_iff.1 hi'
    simp only [List.length_range] at hlt
    simp only [List.getElem_range]
    exact (hfig i _ (List.getElem?_eq_getElem hlt)).2
  · have hm1 : d.1.land.mask = d.2.1 := hmn.1
    have hmap := mapM_eq_ok (fun q : (Pix L → ℂ) × ℕ => plotSphere e L (toRows q.1)
        (d.2.1 ++ "_wavelet_reconstruction_progressive_" ++ toString q.2 ++ "_L" ++ toString L) none (some r))
      (fun q => some (fig q.2)) fields.zipIdx (by
        rintro ⟨fld, i⟩ hq
        exact (hfig i fld (List.mem_zipIdx_iff_getElem?.1 hq)).1)
    have hz : fields.zipIdx.map (fun q => some (fig q.2)) = ((List.range fields.length).map fig).map some := by
      rw [List.map_map]
      apply List.ext_getElem <;> simp
    rw [hz] at hmap
    simp only [progressiveReconstruction, hm1, hr, keywords, Wavelets.checkJ, build_fn limDen e r S hSr _ none (some 2) o w w (hmade w),
      build_fn limDen e r S hSr _ none (some 2) o₂ w w (ho₂ w), slepianOf, bind, Except.bind, pure, Except.pure, Script.slepian, hc, h1]
    rw [hmap]

/-- C122.  The Slepian functions of a polar cap, in every session: one figure for each rank, in order, of the real part of the function, inside
the cap, on its own scale, named after the cap, the order of the function if it has one, the rank and the eigenvalue. -/
theorem C122_fried_egg (limDen : ℚ → ℚ) (e : SphereEnv) {L : ℕ} (hL : 1 ≤ L) (thetaMax : ℝ) (ranks : ℕ) (Y : ℤ → ℕ → ℝ → ℝ → ℂ)
    (hY : GoodTransforms e L Y) (r : Region.Obj) (hr : Region.mk { thetaMax := thetaMax * π / 180 } = .ok r) (S : SlepianOf L)
    (hSr : e.slepian L r = .ok S) (hS : GoodSlepian e S Y) (hranks : ranks ≤ S.env.sl.N) (lam : ℕ → ℝ)
    (hlam : ∀ k < ranks, S.env.sl.evals[k]? = some (lam k)) (order : ℕ → String)
    (ho : S.orders = none ∧ (∀ k, order k = "") ∨ ∃ os, S.orders = some os ∧ ∀ k < ranks, ∃ i, os[k]? = some i ∧ order k = "_m" ++ toString i)
    (horth : ∀ (p q : ℕ) (u v : Fin (L ^ 2) → ℂ), S.env.sl.evecs[p]? = some u → S.env.sl.evecs[q]? = some v →
      ∑ i, u i * (starRingEnd ℂ) (v i) = if p = q then 1 else 0)
    (R : ℕ) (hR : R = Plot.calcPlotResolution L) (m : Masks.Mask) (st : Masks.Store)
    (hmask : Masks.maskRegion e.env.S R r e.env.store = .ok (m, st)) (hshape : m.shape = (R + 1, 2 * R)) :
    ∃ figs : List Shown, figs.length = ranks ∧
      (∀ (k : ℕ) (fig : Shown), figs[k]? = some fig →
        Pictured R (fun z => z.re) (fun θ φ => ∑ i : Fin (L ^ 2), S.env.sl.evecs.getD k (fun _ => 0) i * Y 0 i θ φ) m.val id fig ∧
        fig.filename = String.ofList (((("slepian_" ++ r.nameEnding ++ order k ++ "_rank" ++ toString k ++ "_lam" ++ e.fmt (lam k)).toList.map
          fun c => if c = '.' then '-' else c)).filter fun c => c ≠ '+') ++ "_L" ++ toString L ++ "_res" ++ toString R ++ "_real" ∧
        fig.annotation = [] ∧
        IsGreatest ((fun x => |x|) '' samples R (fun z => z.re) (fun θ φ => ∑ i : Fin (L ^ 2), S.env.sl.evecs.getD k (fun _ => 0) i * Y 0 i θ φ))
          fig.cmax ∧ fig.cmin = -fig.cmax) ∧
      ∀ w, friedEgg limDen e thetaMax ranks L w = .ok (figs.map some, w) := by
  have hfig : ∀ k, ∃ fig : Shown, k < ranks →
      (Pictured R (fun z => z.re) (fun θ φ => ∑ i : Fin (L ^ 2), S.env.sl.evecs.getD k (fun _ => 0) i * Y 0 i θ φ) m.val id fig ∧
        fig.filename = String.ofList (((("slepian_" ++ r.nameEnding ++ order k ++ "_rank" ++ toString k ++ "_lam" ++ e.fmt (lam k)).toList.map
          fun c => if c = '.' then '-' else c)).filter fun c => c ≠ '+') ++ "_L" ++ toString L ++ "_res" ++ toString R ++ "_real" ∧
        fig.annotation = [] ∧
        IsGreatest ((fun x => |x|) '' samples R (fun z => z.re) (fun θ φ => ∑ i : Fin (L ^ 2), S.env.sl.evecs.getD k (fun _ => 0) i * Y 0 i θ φ))
          fig.cmax ∧ fig.cmin = -fig.cmax) ∧
      ∃ o, (∀ w, build limDen e L (.slepian k) none (some r) none none w = .ok (⟨Script.slepian S.env S.pixel o, some (S, r)⟩, w)) ∧
        ∃ field, Transform.slepianInverse S.env.sl S.env.synth o.coefficients = .ok field ∧
          plotSphere e L (toRows field) o.name none (some r) = .ok (some fig) := by
    intro k
    by_cases hk : k < ranks
    swap
    · exact ⟨⟨"", [], 0, 0, []⟩, fun h => absurd h hk⟩
    have hkN : k < S.env.sl.N := by omega
    have ho' : S.orders = none ∧ order k = "" ∨ ∃ os i, S.orders = some os ∧ os[k]? = some i ∧ order k = "_m" ++ toString i := by
      rcases ho with ⟨h1, h2⟩ | ⟨os, h1, h2⟩
      · exact .inl ⟨h1, h2 k⟩
      · obtain ⟨i, h3, h4⟩ := h2 k hk
        exact .inr ⟨os, i, h1, h3, h4⟩
    obtain ⟨o, hb, hl, hv, hn⟩ := C85_slepian_function limDen e k none k (.inr ⟨rfl, rfl⟩) (some r) r (.inl rfl) none S hSr hS.rows hkN (lam k)
      (hlam k hk) (order k) ho' horth
    have hexp : slepianExpansion (Y 0) S.env.sl o.coefficients =
        fun θ φ => ∑ i : Fin (L ^ 2), S.env.sl.evecs.getD k (fun _ => 0) i * Y 0 i θ φ := by
      funext θ φ
      unfold slepianExpansion
      rw [Finset.sum_eq_single_of_mem k (Finset.mem_range.2 hkN)]
      · rw [hv k hkN, if_pos rfl, one_mul]
      · intro p hp hne
        rw [hv p (Finset.mem_range.1 hp), if_neg hne, zero_mul]
    obtain ⟨fig, f1, f2⟩ := depicted e hL Y hY S o.coefficients _ rfl o.name r R hR m st hmask hshape
    refine ⟨fig, fun _ => ⟨⟨?_, ?_, f2.bare, ?_, f2.symmetric⟩, o, hb, _, inverse_ok hS o.coefficients hl.ge, f1⟩⟩
    · rw [← hexp]; exact f2.picture
    · rw [f2.file, hn]
      have hstart : ∀ t : String, ∃ t', String.ofList ((("slepian_" ++ t).toList.map fun c => if c = '.' then '-' else c).filter fun c => c ≠ '+') =
          "slepian_" ++ t' := by
        intro t
        refine ⟨String.ofList ((t.toList.map fun c => if c = '.' then '-' else c).filter fun c => c ≠ '+'), ?_⟩
        apply String.toList_inj.1
        simp only [String.toList_append, String.toList_ofList, List.map_append, List.filter_append]
        congr 1
      simp only [String.append_assoc]
      obtain ⟨t', ht'⟩ := hstart (r.nameEnding ++ (order k ++ ("_rank" ++ (toString k ++ ("_lam" ++ e.fmt (lam k))))))
      rw [ht']
      simp only [Functions.addDetails, names_slepian, if_true, String.append_assoc]
    · rw [← hexp]; exact f2.scale
  choose fig hfig using hfig
  have hfold : ∀ (step : List (Option Shown) × Noise.World → ℕ → Except Err (List (Option Shown) × Noise.World)) (w : Noise.World),
      (∀ acc k, k < ranks → step (acc, w) k = .ok (acc ++ [some (fig k)], w)) → ∀ (l : List ℕ) (acc : List (Option Shown)), (∀ k ∈ l, k < ranks) →
      l.foldlM step (acc, w) = .ok (acc ++ l.map (fun k => some (fig k)), w) := by
    intro step w hstep l
    induction l with
    | nil => intro acc _; simp only [List.foldlM_nil, List.map_nil, List.append_nil]; rfl
    | cons k l ih =>
      intro acc hl
      rw [List.foldlM_cons, hstep acc k (hl k (by simp))]
      simp only [bind, Except.bind]
      rw [ih _ fun q hq => hl q (by simp [hq]), List.map_cons, List.append_assoc]
      rfl
  refine ⟨(List.range ranks).map fig, by simp, ?_, fun w => ?_⟩
  · intro k f hk
    rw [List.getElem?_map] at hk
    obtain ⟨k', hk', rfl⟩ := Option.map_eq_some_iff.1 hk
    obtain ⟨hlt, rfl⟩ := List.getElem?_eq_some_iff.1 hk'
    simp only [List.length_range] at hlt
    simp only [List.getElem_range]
    exact (hfig k hlt).1
  · have hr' : Region.mk { thetaMax := Py.deg2rad thetaMax } = .ok r := hr
    rw [List.map_map]
    unfold friedEgg
    rw [hr']
    refine hfold _ w (fun acc k hk => ?_) (List.range ranks) [] fun k hk => List.mem_range.1 hk
    obtain ⟨-, o, hb, field, h1, h2⟩ := hfig k hk
    simp only [hb w, slepianOf, Script.slepian, h1, h2, bind, Except.bind, pure, Except.pure]

/-- a world where the map of Africa is one at the first coefficient, with two wavelets. -/
noncomputable def brightLand : SphereEnv := { sampleLand with env := { sampleLand.env with
  S := { sampleLand.env.S with inverseReal := fun _ _ _ _ => 1 }
  kappas := fun L _ _ => [List.replicate L (3 / 5), List.replicate L (4 / 5)] } }

private theorem brightLand_map : africaMap brightLand.env 2 (some 2) = .ok [1, 0, 0, 0] := by
  obtain ⟨c, hc⟩ : ∃ c, Masks.earth brightLand.env.S 2 (some 2) = .ok c := ⟨_, rfl⟩
  have hname : "slepian_masks_" ++ (Strings.snake "Africa" ++ "_L" ++ toString 2 ++ ".npy") = "slepian_masks_africa_L2.npy" := by decide +kernel
  have hm : Masks.loadMask brightLand.env.S 2 (Strings.snake "Africa" ++ "_L" ++ toString 2 ++ ".npy") brightLand.env.store =
      .ok (⟨(2 + 1, 2 * 2), fun _ _ => true⟩, brightLand.env.store) := by
    unfold Masks.loadMask
    rw [hname]
    rfl
  unfold africaMap land
  rw [hc]
  simp only [bind, Except.bind]
  rw [hm]
  refine (if_pos rfl).trans ?_
  simp [brightLand, sampleLand, sampleSphere, sampleEnv, pure, Except.pure, List.range_succ]

/-- the hypotheses of C122 are met: the whole map and the map from its wavelets are shown alike, and there are two figures scale by scale. -/
example (w : Noise.World) : ∃ (fig fig' : Shown) (figs : List Shown),
    slepianReconstruction (fun x => x) brightLand africa 2 w = .ok (some fig, w) ∧
    waveletReconstruction (fun x => x) brightLand africaWaves 2 w = .ok (some fig', w) ∧
    progressiveReconstruction (fun x => x) brightLand africaWaves 2 w = .ok (figs.map some, w) ∧ figs.length = 2 ∧
    fig.cmax = fig'.cmax ∧ fig.filename ≠ fig'.filename := by
  have hpi := pi_pos
  have hr : AnglesInRange { maskName := "africa" } :=
    ⟨⟨by simp; positivity, le_rfl⟩, ⟨le_rfl, by simp; positivity⟩, ⟨hpi.le, le_rfl⟩, le_rfl, hpi.le⟩
  obtain ⟨r, h1, h2, h3, h4⟩ := ((C09_classification { maskName := "africa" }).2 hr).2.2.1 (by simp [OnlyThetaMax])
    (by simp [OtherAngle]) (by decide)
  have hm : Masks.maskRegion brightLand.env.S 64 r brightLand.env.store =
      .ok (⟨(64 + 1, 2 * 64), fun i _ => decide (i < 16)⟩, brightLand.env.store) := sampleLand_mask r h2 h3
  have hT : GoodTransforms brightLand 2 spike := { sampleSphere_transforms with }
  have hS : GoodSlepian brightLand (sampleSlepian 2 (by norm_num)) spike :=
    ⟨⟨by simp [sampleSlepian], by simp [sampleSlepian]⟩, fun _ _ => rfl, by
      intro B j k hk; simp [brightLand] at hk; rcases hk with rfl | rfl <;> simp⟩
  have hd : (africa, "africa", africaMap brightLand.env 2 (some 2)) ∈ landDemos brightLand 2 := by simp [landDemos]
  have hd' : (africaWaves, "africa", africaMap brightLand.env 2 (some 2)) ∈ wavesDemos brightLand 2 := by simp [wavesDemos]
  have hsl : brightLand.slepian 2 r = .ok (sampleSlepian 2 (by norm_num)) := by simp [brightLand, sampleLand, sampleSphere]
  have hk : brightLand.env.kappas (2 ^ 2) 3 2 = [List.replicate (2 ^ 2) (3 / 5), List.replicate (2 ^ 2) (4 / 5)] := rfl
  have hN : (sampleSlepian 2 (by norm_num)).env.sl.N = 1 := rfl
  have hpart : (slepianPart (sampleSlepian 2 (by norm_num)) [1, 0, 0, 0]).getD 0 0 = 1 := by
    simp [slepianPart, eigenvector, sampleSlepian, Fin.sum_univ_succ]
  have hsee : ∀ k ∈ ([List.replicate (2 ^ 2) (3 / 5), List.replicate (2 ^ 2) (4 / 5)] : List (List ℝ)),
      ∃ p < (sampleSlepian 2 (by norm_num)).env.sl.N, k.getD p 0 ≠ 0 ∧ (slepianPart (sampleSlepian 2 (by norm_num)) [1, 0, 0, 0]).getD p 0 ≠ 0 := by
    intro k hk
    refine ⟨0, by rw [hN]; norm_num, ?_, by rw [hpart]; norm_num⟩
    simp only [List.mem_cons, List.not_mem_nil, or_false] at hk
    rcases hk with rfl | rfl <;> simp
  obtain ⟨fig, f1, f2⟩ := C122_slepian (fun x => x) rfl brightLand (by norm_num) _ hd _ brightLand_map spike hT r h1 _ hsl hS 64 rfl _ _ hm rfl
  obtain ⟨fig', f1', f2'⟩ := C122_wavelets (fun x => x) rfl brightLand (by norm_num) _ hd' _ brightLand_map spike hT r h1 _ hsl hS (by
      intro p hp
      rw [hN] at hp
      interval_cases p
      rw [hk]
      norm_num) _ [] (by rw [hk]; simp) (by simp) hsee (by simp) 64 rfl _ _ hm rfl
  classical
  obtain ⟨figs, g1, -, g2⟩ := C122_progressive (fun x => x) rfl brightLand (by norm_num) _ hd' _ brightLand_map spike hT r h1 _ hsl hS
    (fun k => decide (∃ p < (sampleSlepian 2 (by norm_num)).env.sl.N, k.getD p 0 ≠ 0 ∧
      (slepianPart (sampleSlepian 2 (by norm_num)) [1, 0, 0, 0]).getD p 0 ≠ 0)) (fun k => by simp)
    ⟨List.replicate (2 ^ 2) (3 / 5), by rw [hk]; simp, decide_eq_true (hsee _ (by simp))⟩ 64 rfl _ _ hm rfl
  refine ⟨fig, fig', figs, f2 w, f2' w, g2 w, ?_, f1.scale.unique f1'.scale, ?_⟩
  · rw [g1, hk, List.filter_eq_self.2]
    · rfl
    · intro k hk'
      simpa using hsee k hk'
  · rw [f1.file, f1'.file]
    decide +kernel

/-- the hypotheses of `C122_fried_egg` are met: one Slepian function of the cap up to 40°. -/
example (limDen : ℚ → ℚ) (w : Noise.World) : ∃ fig : Shown, friedEgg limDen sampleSphere 40 1 2 w = .ok ([some fig], w) ∧
    fig.filename = "slepian_polar40_m0_rank0_lam5-000000e-01_L2_res64_real" := by
  have hpi := pi_pos
  obtain ⟨r, h1, h2, h3⟩ : ∃ r, Region.mk { thetaMax := 40 * π / 180 } = .ok r ∧ r.nameEnding = "polar40" ∧ r.regionType = "polar" := by
    have hp : OnlyThetaMax { thetaMax := 40 * π / 180 } := ⟨rfl, rfl, rfl, by simp only; intro h; linarith⟩
    obtain ⟨r, h1, -, h2⟩ := ((C09_classification { thetaMax := 40 * π / 180 }).2
      ⟨⟨by simp; positivity, le_rfl⟩, ⟨le_rfl, by simp; positivity⟩, ⟨by simp; positivity, by simp only; linarith⟩, le_rfl, hpi.le⟩).1 hp
    refine ⟨r, h1, ?_, h2⟩
    have h40 : (40 * π / 180 : ℝ) = Py.deg2rad ((40 : ℤ) : ℝ) := by simp [Py.deg2rad]
    rw [h40] at h1
    exact (ending_polarCap (L := 2) (gap := false) (by norm_num) (by norm_num) h1).trans (by decide +kernel)
  obtain ⟨m, st, hm, hshape⟩ : ∃ m st, Masks.maskRegion sampleSphere.env.S 64 r sampleSphere.env.store = .ok (m, st) ∧ m.shape = (64 + 1, 2 * 64) := by
    unfold Masks.maskRegion
    rw [if_neg (by rw [h3]; decide)]
    exact ⟨_, _, rfl, rfl⟩
  have hS : GoodSlepian sampleSphere (sampleSlepian 2 (by norm_num)) spike :=
    ⟨⟨by simp [sampleSlepian], by simp [sampleSlepian]⟩, fun _ _ => rfl, by
      intro B j k hk; simp [sampleSphere, sampleEnv] at hk; rcases hk with rfl | rfl | rfl <;> simp⟩
  obtain ⟨figs, g1, g2, g3⟩ := C122_fried_egg limDen sampleSphere (L := 2) (by norm_num) 40 1 spike sampleSphere_transforms r h1
    (sampleSlepian 2 (by norm_num)) (by simp [sampleSphere]) hS (by simp [sampleSlepian]) (fun _ => 1 / 2) (by
      intro k hk
      interval_cases k
      simp [sampleSlepian]) (fun _ => "_m0") (.inr ⟨[0], rfl, by
      intro k hk
      interval_cases k
      exact ⟨0, rfl, by decide +kernel⟩⟩) (by
      intro p q u v hu hv
      rcases p with _ | p <;> rcases q with _ | q <;> simp [sampleSlepian] at hu hv
      subst hu hv
      simp) 64 rfl m st hm hshape
  obtain ⟨fig, rfl⟩ := List.length_eq_one_iff.1 g1
  refine ⟨fig, g3 w, ?_⟩
  rw [(g2 0 fig rfl).2.1, h2]
  decide +kernel

end Sleplet.Props
