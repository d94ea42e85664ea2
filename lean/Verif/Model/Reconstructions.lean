import Verif.Model.Demos
import Verif.Model.Experiments

/-!
The figures of reconstructions and of Slepian functions, the `main` functions of
`examples/arbitrary/{africa,south_america}/slepian_reconstruction_*.py`, `wavelet_reconstruction_*.py`,
`progressive_wavelet_reconstruction_*.py` and of `examples/polar_cap/fried_egg.py`.  The bandlimit, the angle of the cap and the number of
ranks, constants in the files, are parameters.  Printing is left out.
-/
namespace Sleplet.Demos

open NumPy Classes SphereScript

/-- `arbitrary/africa/slepian_reconstruction_africa.py:8-25`, `arbitrary/south_america/slepian_reconstruction_south_america.py:8-29`, `main`. -/
noncomputable def slepianReconstruction (limDen : ℚ → ℚ) (e : SphereEnv) (d : Land) (L : ℕ) (w : Noise.World) :
    Except Err (Option Shown × Noise.World) := do
  let region ← Region.mk { maskName := d.mask }
  let s ← e.slepian L region
  let (f, w₁) ← build limDen e L (.slepianFn d.fn) none (some region) none (some 2) w
  let field ← Transform.slepianInverse s.env.sl s.env.synth f.target.obj.coefficients
  let shown ← plotSphere e L (toRows field) (d.mask ++ "_slepian_reconstruction_L" ++ toString L) none (some region)
  return (shown, w₁)

/-- A reconstruction from wavelets: the continent and the class of its wavelet coefficients. -/
structure LandWaves where
  land : Land
  waves : Wave → SFn

/-- `arbitrary/africa/wavelet_reconstruction_africa.py`, `progressive_wavelet_reconstruction_africa.py`. -/
def africaWaves : LandWaves := ⟨africa, .slepianWaveletCoefficientsAfrica⟩

/-- `arbitrary/south_america/wavelet_reconstruction_south_america.py`, `progressive_wavelet_reconstruction_south_america.py`. -/
def southAmericaWaves : LandWaves := ⟨southAmerica, .slepianWaveletCoefficientsSouthAmerica⟩

/-- `arbitrary/africa/wavelet_reconstruction_africa.py:10-35`, `arbitrary/south_america/wavelet_reconstruction_south_america.py:10-35`, `main`.
The wavelet coefficients and the wavelets kept by the object are computed again, from the map with the same settings, from which the object
computes them (`functions/slepian_wavelet_coefficients_africa.py:75-96` and the South America version). -/
noncomputable def waveletReconstruction (limDen : ℚ → ℚ) (e : SphereEnv) (d : LandWaves) (L : ℕ) (w : Noise.World) :
    Except Err (Option Shown × Noise.World) := do
  let region ← Region.mk { maskName := d.land.mask }
  let wave ← keywords e.env.jMax (L ^ 2) 3 2 none
  let (swc, w₁) ← build limDen e L (.slepianFn (d.waves wave)) none (some region) none (some 2) w
  let (s, r) ← slepianOf swc
  let (f, _) ← build limDen e L (.slepianFn d.land.fn) none (some region) none (some 2) w
  let field ← Experiments.reconstructedField s.env.sl s.env.synth f.target.obj.coefficients ((s.senv e.env r).kappas wave)
  let shown ← plotSphere e L (toRows field) (d.land.mask ++ "_wavelet_reconstruction_L" ++ toString L) none (some r)
  return (shown, w₁)

/-- `arbitrary/africa/progressive_wavelet_reconstruction_africa.py:12-40`,
`arbitrary/south_america/progressive_wavelet_reconstruction_south_america.py:12-40`, `main`: the figures, in order.  The wavelet coefficients as
in `waveletReconstruction`.  Simplification: all fields are computed before the first is plotted, which makes no difference to the figures. -/
noncomputable def progressiveReconstruction (limDen : ℚ → ℚ) (e : SphereEnv) (d : LandWaves) (L : ℕ) (w : Noise.World) :
    Except Err (List (Option Shown) × Noise.World) := do
  let region ← Region.mk { maskName := d.land.mask }
  let wave ← keywords e.env.jMax (L ^ 2) 3 2 none
  let (swc, w₁) ← build limDen e L (.slepianFn (d.waves wave)) none (some region) none (some 2) w
  let (s, r) ← slepianOf swc
  let (f, _) ← build limDen e L (.slepianFn d.land.fn) none (some region) none (some 2) w
  let fields ← Experiments.progressiveFields s.env.sl s.env.synth f.target.obj.coefficients ((s.senv e.env r).kappas wave)
  let figures ← fields.zipIdx.mapM fun (field, p) =>
    plotSphere e L (toRows field) (d.land.mask ++ "_wavelet_reconstruction_progressive_" ++ toString p ++ "_L" ++ toString L) none (some r)
  return (figures, w₁)

/-- `polar_cap/fried_egg.py:11-31`, `main`: the figures, in order. -/
noncomputable def friedEgg (limDen : ℚ → ℚ) (e : SphereEnv) (thetaMax : ℝ) (ranks L : ℕ) (w : Noise.World) :
    Except Err (List (Option Shown) × Noise.World) := do
  let region ← Region.mk { thetaMax := Py.deg2rad thetaMax }
  (List.range ranks).foldlM (fun (st : List (Option Shown) × Noise.World) (rank : ℕ) => do
    let (f, w') ← build limDen e L (.slepian rank) none (some region) none none st.2
    let (s, r) ← slepianOf f
    let field ← Transform.slepianInverse s.env.sl s.env.synth f.target.obj.coefficients
    let shown ← plotSphere e L (toRows field) f.target.obj.name none (some r)
    return (st.1 ++ [shown], w')) ([], w)

end Sleplet.Demos
