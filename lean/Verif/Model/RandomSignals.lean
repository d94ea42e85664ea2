import Verif.Model.Noise
import Verif.Model.SigmaJ
import Verif.Model.Wavelets

/-!
Random signals and the covariance of their wavelet coefficients: `harmonic_methods.py:111-131`,
`examples/wavelets/axisymmetric_wavelet_covariance.py:15-22`, `examples/arbitrary/_slepian_wavelet_covariance.py:11-35`.

Real and complex numbers replace floats.
-/
namespace Sleplet.RandomSignals

open Complex NumPy Noise

/-- `rng.standard_normal(n)`: the next `n` values of the generator. -/
def standardNormals (normals : ℕ → ℕ → ℝ) (rng n : ℕ) (w : World) : Except Err (List ℝ × World) :=
  match w[rng]? with
  | some (s, k) => .ok ((List.range n).map fun i => normals s (k + i), w.set rng (s, k + n))
  | none => .error .runtimeError

/-- `harmonic_methods.py:111-131`, `compute_random_signal`.  Simplification: a negative variance gives nan in NumPy. -/
noncomputable def randomSignal (normals : ℕ → ℕ → ℝ) (L rng : ℕ) (varSignal : ℝ) (w : World) : Except Err (List ℂ × World) := do
  let (a, w₁) ← standardNormals normals rng (L ^ 2) w
  let (b, w₂) ← standardNormals normals rng (L ^ 2) w₁
  let z ← broadcast (fun (x y : ℝ) => (x : ℂ) + I * (y : ℂ)) a b
  return (z.map fun x => (Real.sqrt (varSignal / 2) : ℂ) * x, w₂)

/-- `examples/wavelets/axisymmetric_wavelet_covariance.py:15-22`, `_compute_wavelet_covariance`. -/
noncomputable def waveletCovariance (wavelets : List (List ℂ)) (varSignal : ℝ) : List ℝ :=
  wavelets.map fun row => (row.map fun x => ‖x‖ ^ 2).sum * varSignal

/-- `examples/arbitrary/_slepian_wavelet_covariance.py:11-35`, `compute_slepian_wavelet_covariance`, without the two checks of
shapes, which hold by construction. -/
noncomputable def slepianWaveletCovariance {L : ℕ} {Pix : Type} (sl : Transform.Slepian (L ^ 2))
    (synth : (Fin (L ^ 2) → ℂ) → Pix → ℂ) (wavelets : List (List ℂ)) (varSignal : ℝ) : Except Err (List (Pix → ℝ)) := do
  let sp ← Transform.computeSp sl synth (List.range sl.N)
  wavelets.mapM fun row => do
    let power ← SigmaJ.waveletPower (row.take sl.N) (sp.map fun s x => ‖s x‖ ^ 2)
    return fun x => power x * varSignal

end Sleplet.RandomSignals
