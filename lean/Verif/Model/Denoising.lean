import Verif.Model.Noise
import Verif.Model.SigmaJ
import Verif.Model.Thresholding
import Verif.Model.Wavelets

/-!
The denoising demonstrations: `examples/misc/_denoising_axisym.py`, `examples/arbitrary/_denoising_slepian_wavelet.py`,
`examples/mesh/denoising_slepian_mesh.py:23-67` and
`examples/arbitrary/south_america/denoising_slepian_functions_south_america.py:17-43`.

The transforms between coefficients and fields are parameters.  The array of wavelet coefficients is at address 0 of a heap,
because thresholding overwrites it.  Log messages are left out.
-/
namespace Sleplet.Denoising

open NumPy

/-- `misc/_denoising_axisym.py:11-64`, `denoising_axisym`; `inverse` and `forward` are those of `ssht`, `rotate` is
`rotate_earth_to_south_america`.  Returns the field, the ratio of the noised signal and that of the denoised one. -/
noncomputable def axisym {Pix : Type} (inverse : List ℂ → Except Err (Pix → ℂ)) (forward : (Pix → ℂ) → Except Err (List ℂ))
    (rotate : List ℂ → List ℂ) (L : ℕ) (signal noised : List ℂ) (noisedSnr : Option ℝ) (wavelets : List (List ℂ)) (snrIn : ℝ)
    (nSigma : ℤ) (south : Bool) : Except Err ((Pix → ℂ) × Option ℝ × ℝ) := do
  let w ← Wavelets.axisymForward L noised wavelets
  let sigma := SigmaJ.sigmaJ signal (wavelets.drop 1) snrIn
  let (res, heap) := Thresholding.harmonic inverse forward (sigma.map fun s _ => s) nSigma 0 [w]
  let r ← res
  let wDenoised ← item heap r
  let flm ← Wavelets.axisymInverse L wDenoised wavelets
  let error ← broadcast (· - ·) flm signal
  let snr := Noise.computeSnr signal error
  let f ← inverse (if south then rotate flm else flm)
  return (f, noisedSnr, snr)

/-- `arbitrary/_denoising_slepian_wavelet.py:7-55`, `denoising_slepian_wavelet`, and `mesh/denoising_slepian_mesh.py:23-67`,
`_denoising_mesh_slepian`, given the standard deviations `sigmaJ` of the wavelets.  Returns the field and the ratio that is
logged. -/
noncomputable def slepianWavelet {Pix : Type} (inverse : List ℂ → Except Err (Pix → ℂ))
    (forward : (Pix → ℂ) → Except Err (List ℂ)) (sigmaJ : List (List ℂ) → Except Err (List (Pix → ℝ))) (N : ℕ)
    (signal noised : List ℂ) (wavelets : Array2 ℂ) (nSigma : ℤ) : Except Err ((Pix → ℂ) × ℝ) := do
  let w ← Wavelets.slepianForward noised wavelets N
  let sigma ← sigmaJ wavelets.rows
  let (res, heap) := Thresholding.slepian inverse forward sigma nSigma 0 [w.rows]
  let r ← res
  let wDenoised ← item heap r
  let fp ← Wavelets.slepianInverse ⟨w.cols, wDenoised⟩ wavelets N
  let error ← broadcast (· - ·) fp signal
  let snr := Noise.computeSnr signal error
  let f ← inverse fp
  return (f, snr)

/-- `arbitrary/_denoising_slepian_wavelet.py:7-55` with the transforms and deviations of the sphere. -/
noncomputable def slepianSphere {L : ℕ} {Pix : Type} [Fintype Pix] (sl : Transform.Slepian (L ^ 2))
    (synth : (Fin (L ^ 2) → ℂ) → Pix → ℂ) (weight : Pix → ℝ) (signal noised : List ℂ) (wavelets : Array2 ℂ) (snrIn : ℝ)
    (nSigma : ℤ) : Except Err ((Pix → ℂ) × ℝ) :=
  slepianWavelet (Transform.slepianInverse sl synth)
    (fun f => Transform.slepianForward sl synth weight { f := some f } none)
    (fun psi => SigmaJ.slepianSigmaJ sl synth signal psi snrIn) sl.N signal noised wavelets nSigma

/-- `arbitrary/south_america/denoising_slepian_functions_south_america.py:17-43`, `_denoising_slepian_function`.
Simplification: `n_sigma` is an integer, as in its annotation; the command line also accepts fractions. -/
noncomputable def slepianFunction {Pix : Type} (inverse : List ℂ → Except Err (Pix → ℂ))
    (forward : (Pix → ℂ) → Except Err (List ℂ)) (L : ℕ) (signal noised : List ℂ) (snrIn : ℝ) (nSigma : ℤ) :
    Except Err ((Pix → ℂ) × ℝ) := do
  let sigma := Noise.computeSigmaNoise signal snrIn (some (L ^ 2))
  let fp ← Thresholding.slepianFunction inverse forward noised sigma nSigma
  let error ← broadcast (· - ·) fp signal
  let snr := Noise.computeSnr signal error
  let f ← inverse fp
  return (f, snr)

end Sleplet.Denoising
