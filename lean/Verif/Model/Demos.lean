import Verif.Model.Amplitude
import Verif.Model.Denoising
import Verif.Model.MeshScript

/-!
The denoising demonstrations from start to figure, the `main` functions of `examples/misc/denoising_axisym_{earth,africa,south_america}.py`,
`examples/arbitrary/{africa,south_america}/denoising_slepian_*.py`, `examples/mesh/denoising_slepian_mesh.py` and
`examples/mesh/produce_table.py`.  The denoising itself is in `Verif.Model.Denoising`.

The bandlimit, 128 in the files, is a parameter.  Printing and the parsing of the command line are left out; `str` is the text of a number in
an f-string.
-/
namespace Sleplet.Demos

open NumPy Classes SphereScript

/-- the array of values with given rows: what `ssht.inverse` returns, as a function of the sample. -/
def ofRows {L : ℕ} (rows : List (List ℂ)) : Pix L → ℂ := fun x => (rows.getD x.1 []).getD x.2 0

/-- `PlotSphere(f, L, name, amplitude=amplitude, normalise=False, region=region).execute()`: `plotting/_create_plot_sphere.py:22-120` with the
defaults of the other settings.  `none` cannot occur without normalisation. -/
noncomputable def plotSphere (e : SphereEnv) (L : ℕ) (f : List (List ℂ)) (name : String) (amp : Option ℝ) (region : Option Region.Obj) :
    Except Err (Option Shown) := do
  let bare : Plot.SphereSettings := ⟨L, amp, false, "real", true, none⟩
  let mask ← (match region with
    | none => .ok none
    | some r => (Masks.maskRegion e.env.S bare.resolution r e.env.store).map fun m => some fun _ => maskRows m.1 :
      Except Err (Option (ℕ → List (List Bool))))
  let settings := { bare with mask := mask }
  let shown ← Plot.executeSphere (e.forward false 0) (e.inverse false 0) settings f
  return shown.map fun s => ⟨settings.filename name, s.colours, s.cmin, s.cmax, []⟩

/-- A demonstration with axisymmetric wavelets: the class of the map, whether the result is rotated, and whether the noise is asserted to have
become less. -/
structure Axisym where
  fn : Fn
  south : Bool
  asserts : Bool

/-- `misc/denoising_axisym_earth.py`. -/
def axisymEarth : Axisym := ⟨.earth, true, true⟩

/-- `misc/denoising_axisym_africa.py`. -/
def axisymAfrica : Axisym := ⟨.africa, false, false⟩

/-- `misc/denoising_axisym_south_america.py`. -/
def axisymSouthAmerica : Axisym := ⟨.southAmerica, false, false⟩

/-- How a demonstration ends: with a figure, or with the `AssertionError` of `np.testing.assert_array_less`. -/
inductive Outcome (α : Type)
  | shown (figure : Option α)
  | assertionFailed

open Classical in
/-- `misc/denoising_axisym_earth.py:20-48`, `misc/denoising_axisym_africa.py:18-38`, `misc/denoising_axisym_south_america.py:18-38`, `main`, with
the constants of lines 12-17 (10-15). -/
noncomputable def axisym (limDen : ℚ → ℚ) (e : SphereEnv) (d : Axisym) (L : ℕ) (w : Noise.World) :
    Except Err (Outcome Shown × Noise.World) := do
  let (f, w₁) ← build limDen e L (.harmonic d.fn) none none none none w
  let (noised, w₂) ← build limDen e L (.harmonic d.fn) none none (some 10) none w₁
  let wave ← keywords e.env.jMax L 2 0 none
  let (_, w₃) ← build limDen e L (.harmonic (.axisymmetricWavelets wave)) none none none none w₂
  let wavelets ← Wavelets.createAxisym L (e.env.kappas L wave.B wave.jMin)
  let amp ← findMaxAmplitude e f "real" true
  let (field, noisedSnr, denoisedSnr) ← Denoising.axisym (Pix := Pix L) (fun c => .ok (ofRows (e.inverse false 0 L c)))
    (fun g => .ok (e.forward false 0 L (toRows g))) (Masks.rotateToSouthAmerica e.env.S L) L f.target.obj.coefficients
    noised.target.obj.coefficients noised.target.obj.snr wavelets 10 3 d.south
  match noisedSnr with
  | none => .error .typeError
  | some s =>
    if d.asserts ∧ ¬ s < denoisedSnr then return (.assertionFailed, w₃)
    else
      let shown ← plotSphere e L (toRows field) (f.target.obj.name ++ "_denoised_axisym") (some amp) none
      return (.shown shown, w₃)

/-- The Slepian object and the region of a Slepian function; harmonic functions have none. -/
def slepianOf {L : ℕ} (f : Made L) : Except Err (SlepianOf L × Region.Obj) :=
  match f.slepian with
  | some s => .ok s
  | none => .error .attributeError

/-- A demonstration in a region: the class of the map and the name of the mask. -/
structure Land where
  fn : SFn
  mask : String

/-- `arbitrary/africa/denoising_slepian_africa.py`. -/
def africa : Land := ⟨.slepianAfrica, "africa"⟩

/-- `arbitrary/south_america/denoising_slepian_south_america.py` and `denoising_slepian_functions_south_america.py`. -/
def southAmerica : Land := ⟨.slepianSouthAmerica, "south_america"⟩

/-- `arbitrary/africa/denoising_slepian_africa.py:20-50`, `arbitrary/south_america/denoising_slepian_south_america.py:20-50`, `main`, with the
constants of lines 11-17. -/
noncomputable def slepianWavelets (limDen : ℚ → ℚ) (str : ℚ → String) (e : SphereEnv) (d : Land) (L : ℕ) (snr : ℚ) (sigma : ℤ)
    (w : Noise.World) : Except Err (Option Shown × Noise.World) := do
  let region ← Region.mk { maskName := d.mask }
  let (f, w₁) ← build limDen e L (.slepianFn d.fn) none (some region) none (some 2) w
  let (noised, w₂) ← build limDen e L (.slepianFn d.fn) none (some region) (some snr) (some 2) w₁
  let wave ← keywords e.env.jMax (L ^ 2) 3 2 none
  let (sw, w₃) ← build limDen e L (.slepianFn (.slepianWavelets wave)) none (some region) none none w₂
  let (s, r) ← slepianOf sw
  let amp ← findMaxAmplitude e f "real" true
  let (field, _) ← Denoising.slepianSphere s.env.sl s.env.synth s.env.weight f.target.obj.coefficients noised.target.obj.coefficients
    ((s.senv e.env r).kappas wave) snr sigma
  let name := f.target.obj.name ++ "_" ++ str snr ++ "snr_" ++ str sigma ++ "n_denoised"
  let shown ← plotSphere e L (toRows field) name (some amp) (some r)
  return (shown, w₃)

/-- `arbitrary/south_america/denoising_slepian_functions_south_america.py:46-73`, `main`. -/
noncomputable def slepianFunctions (limDen : ℚ → ℚ) (str : ℚ → String) (e : SphereEnv) (d : Land) (L : ℕ) (snr : ℚ) (sigma : ℤ)
    (w : Noise.World) : Except Err (Option Shown × Noise.World) := do
  let region ← Region.mk { maskName := d.mask }
  let (f, w₁) ← build limDen e L (.slepianFn d.fn) none (some region) none (some 2) w
  let (noised, w₂) ← build limDen e L (.slepianFn d.fn) none (some region) (some snr) (some 2) w₁
  let amp ← findMaxAmplitude e f "real" true
  let (s, _) ← slepianOf f
  let (field, _) ← Denoising.slepianFunction (Transform.slepianInverse s.env.sl s.env.synth)
    (fun g => Transform.slepianForward s.env.sl s.env.synth s.env.weight { f := some g } none) L f.target.obj.coefficients
    noised.target.obj.coefficients snr sigma
  let name := f.target.obj.name ++ "_" ++ str snr ++ "snr_" ++ str sigma ++ "n_denoised_function"
  let shown ← plotSphere e L (toRows field) name (some amp) (some region)
  return (shown, w₂)

/-- `slepian_mesh_inverse` on the coefficients of the wavelet functions (real parts, see `Verif.Model.MeshClasses`). -/
noncomputable def meshInv {V : Type} (ms : MeshT.MeshSlepian V) (c : List ℂ) : Except Err (V → ℂ) :=
  (MeshT.slepianMeshInverse ms (c.map Complex.re)).map fun f v => ((f v : ℝ) : ℂ)

/-- `slepian_mesh_forward` of a field. -/
noncomputable def meshFwd {V : Type} [Fintype V] (ms : MeshT.MeshSlepian V) (f : V → ℂ) : Except Err (List ℂ) :=
  (MeshT.slepianMeshForward ms { u := some fun v => (f v).re } none).map fun l => l.map fun y : ℝ => (y : ℂ)

/-- `mesh/denoising_slepian_mesh.py:70-100`, `main`, with the constants of lines 8-9 and 18. -/
noncomputable def mesh (limDen : ℚ → ℚ) (str : ℚ → String) (load : String → MeshScript.Loaded) (name : String) (snr : ℚ) (sigma : ℤ)
    (w : Noise.World) : Except Err (Option MeshScript.Figure × Noise.World) := do
  let l := load name
  let e := l.mesh name true
  let (f, w₁) ← MeshClasses.MFn.construct limDen e .slepianField none none false w
  let (noised, w₂) ← MeshClasses.MFn.construct limDen e .slepianField none (some snr) false w₁
  let wave ← keywords e.jMax e.meshEvals.length 3 2 none
  let (_, w₃) ← MeshClasses.MFn.construct limDen e (.slepianWavelets wave) none none false w₂
  let clean ← MeshT.slepianMeshInverse e.slepian f.coefficients
  let amp ← Plot.amax ((List.ofFn clean).map fun x => |x|)
  let signal := f.coefficients.map fun x : ℝ => (x : ℂ)
  let (field, _) ← Denoising.slepianWavelet (meshInv e.slepian) (meshFwd e.slepian)
    (fun psi => SigmaJ.meshSigmaJ e.slepian signal psi snr) e.slepian.N signal (noised.coefficients.map fun x : ℝ => (x : ℂ))
    (e.wavelets wave) sigma
  let settings : Plot.MeshSettings := ⟨l.faceRows, List.ofFn e.slepian.region, some amp, false, true⟩
  let shown ← Plot.executeMesh settings (List.ofFn fun v => (field v).re)
  return (shown.map fun (colours, cmin, cmax) =>
    { filename := name ++ "_" ++ str snr ++ "snr_" ++ str sigma ++ "n_denoised"
      positions := List.ofFn fun v => ((l.vertices v).1, (l.vertices v).2.2, (l.vertices v).2.1)
      faces := l.faceRows
      colours := colours
      cmin := cmin
      cmid := 0
      cmax := cmax
      camera := MeshScript.cameraView l.config e.zoom
      barPos := MeshScript.colourbarPos l.config e.zoom }, w₃)

/-- `mesh/produce_table.py:8-15`. -/
def tableRows : List (String × ℚ) :=
  [("cheetah", -864 / 100), ("dragon", -812 / 100), ("bird", -517 / 100), ("teapot", -311 / 100), ("cube", -733 / 100), ("homer", -5)]

/-- `mesh/produce_table.py:18-21`: the figures, one after the other. -/
noncomputable def table (limDen : ℚ → ℚ) (str : ℚ → String) (load : String → MeshScript.Loaded) (w : Noise.World) :
    Except Err (List (Option MeshScript.Figure) × Noise.World) :=
  tableRows.foldlM (fun (st : List (Option MeshScript.Figure) × Noise.World) row => do
    let (fig, w') ← mesh limDen str load row.1 row.2 2 st.2
    return (st.1 ++ [fig], w')) ([], w)

end Sleplet.Demos
