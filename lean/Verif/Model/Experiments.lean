import Verif.Model.RandomSignals
import Verif.Model.SlepianTransform

/-!
The experiments with wavelets in `examples/`: reconstructions (`arbitrary/*/wavelet_reconstruction_*.py`,
`arbitrary/*/progressive_wavelet_reconstruction_*.py`) and measured covariances (`wavelets/axisymmetric_wavelet_covariance.py`,
`arbitrary/*/slepian_wavelet_covariance_*.py`).

Real and complex numbers replace floats; divisions by zero, which give inf or nan in NumPy, give 0 here.
-/
namespace Sleplet.Experiments

open Complex NumPy Wavelets Noise RandomSignals

/-! ### Reconstructions -/

/-- `wavelet_methods.py:39-62`, `slepian_wavelet_inverse` of a vector: `len` is then the number of coefficients, and the vector
goes with every wavelet (`_convolution_methods.py:14-18`). -/
noncomputable def inverseOfRow (w : List ℂ) (wavelets : Array2 ℂ) (shannon : ℤ) : Except Err (List ℂ) := do
  let r ← sift2 ⟨wavelets.cols, wavelets.rows.take w.length⟩ (newaxis w) (some shannon)
  return r.sumRows

/-- `f += x` on arrays: the result must have the shape of `f`. -/
noncomputable def addInPlace (f x : List ℂ) : Except Err (List ℂ) :=
  if x.length = f.length ∨ x.length = 1 then broadcast (· + ·) f x else .error .valueError

/-- `examples/arbitrary/africa/progressive_wavelet_reconstruction_africa.py:25-31`, the loop over the rows of coefficients: the values
that `f_p` takes, in order.  The South America version is the same text (lines 25-31). -/
noncomputable def progressiveFrom (wavelets : Array2 ℂ) (shannon : ℕ) : List ℂ → List (List ℂ) → Except Err (List (List ℂ))
  | _, [] => .ok []
  | f, w :: ws => do
    let x ← inverseOfRow w wavelets shannon
    let f' ← addInPlace f x
    let rest ← progressiveFrom wavelets shannon f' ws
    return f' :: rest

/-- `examples/arbitrary/africa/progressive_wavelet_reconstruction_africa.py:12-40`, `main`: the fields plotted, given the Slepian
coefficients of the map and the wavelets. -/
noncomputable def progressiveFields {n : ℕ} {Pix : Type} (sl : Transform.Slepian n) (synth : (Fin n → ℂ) → Pix → ℂ) (fp : List ℂ)
    (wavelets : Array2 ℂ) : Except Err (List (Pix → ℂ)) := do
  let w ← Wavelets.slepianForward fp wavelets sl.N
  let fs ← progressiveFrom wavelets sl.N (List.replicate sl.N 0) w.rows
  fs.mapM (Transform.slepianInverse sl synth)

/-- `examples/arbitrary/africa/wavelet_reconstruction_africa.py:10-35`, `main` (South America: the same): the field plotted. -/
noncomputable def reconstructedField {n : ℕ} {Pix : Type} (sl : Transform.Slepian n) (synth : (Fin n → ℂ) → Pix → ℂ) (fp : List ℂ)
    (wavelets : Array2 ℂ) : Except Err (Pix → ℂ) := do
  let w ← Wavelets.slepianForward fp wavelets sl.N
  let f ← Wavelets.slepianInverse w wavelets sl.N
  Transform.slepianInverse sl synth f

/-! ### Measured covariances -/

/-- `x.mean()`. -/
noncomputable def mean (xs : List ℂ) : ℂ := xs.sum / xs.length

/-- `x.var()` of complex values. -/
noncomputable def var (xs : List ℂ) : ℝ := (xs.map fun x => ‖x - mean xs‖ ^ 2).sum / xs.length

/-- `x.std()`. -/
noncomputable def std (xs : List ℂ) : ℝ := Real.sqrt (var xs)

/-- `examples/wavelets/axisymmetric_wavelet_covariance.py:25-35`, `_is_ergodic`. -/
def isErgodic (jMin : ℤ) (j : ℕ) : Bool := decide (jMin ≠ 0 ∨ j ≠ 0)

/-- `examples/wavelets/axisymmetric_wavelet_covariance.py:86-89`, the entry of `covar_data` for the samples of one scale. -/
noncomputable def measure (ergodic : Bool) (f : List ℂ) : Except Err ℂ := if ergodic then .ok (var f : ℂ) else item f 0

/-- the settings of the experiment; `inverse` is `ssht.inverse`, its samples in one list. -/
structure Setup where
  L : ℕ
  jMin : ℤ
  runs : ℕ
  varFlm : ℝ
  wavelets : List (List ℂ)
  inverse : List ℂ → List ℂ

/-- `examples/wavelets/axisymmetric_wavelet_covariance.py:76-89`, one run: a row of `covar_data`. -/
noncomputable def axisymRun (normals : ℕ → ℕ → ℝ) (s : Setup) (rng : ℕ) (w : World) : Except Err (List ℂ × World) := do
  let (flm, w₁) ← randomSignal normals s.L rng s.varFlm w
  let wlm ← axisymForward s.L flm s.wavelets
  let row ← wlm.zipIdx.mapM fun c => measure (isErgodic s.jMin c.2) (s.inverse c.1)
  return (row, w₁)

/-- `examples/wavelets/axisymmetric_wavelet_covariance.py:75-89`, the loop over the runs. -/
noncomputable def axisymRuns (normals : ℕ → ℕ → ℝ) (s : Setup) (rng : ℕ) : ℕ → World → Except Err (List (List ℂ) × World)
  | 0, w => .ok ([], w)
  | n + 1, w => do
    let (row, w₁) ← axisymRun normals s rng w
    let (rows, w₂) ← axisymRuns normals s rng n w₁
    return (row :: rows, w₂)

/-- the columns of an array with `n` columns. -/
def columns (data : List (List ℂ)) (n : ℕ) : List (List ℂ) := (List.range n).map fun j => data.map fun r => r.getD j 0

/-- `examples/wavelets/axisymmetric_wavelet_covariance.py:92-97`: the measured covariances, the first one overridden, before `np.abs`. -/
noncomputable def measured (jMin : ℤ) (data : List (List ℂ)) (n : ℕ) : Except Err (List ℂ) :=
  if isErgodic jMin 0 then .ok ((columns data n).map mean)
  else do
    let row ← item data 0
    setItem ((columns data n).map mean) 0 (var row : ℂ)

/-- What is reported for a scale. -/
inductive Report
  | inStd (x : ℝ)
  | absolute (x : ℝ)

/-- `examples/wavelets/axisymmetric_wavelet_covariance.py:99-113`: the errors reported. -/
noncomputable def report (jMin : ℤ) (measured : List ℂ) (stds theory : List ℝ) : List Report :=
  (List.range theory.length).map fun j =>
    let error := |‖measured.getD j 0‖ - theory.getD j 0|
    if isErgodic jMin j then .inStd (error / stds.getD j 0) else .absolute error

/-- `examples/wavelets/axisymmetric_wavelet_covariance.py:38-113`, `axisymmetric_wavelet_covariance`: measured covariances and
report.  Simplification: with `runs=0` the means are nan in NumPy. -/
noncomputable def axisymCovariance (normals : ℕ → ℕ → ℝ) (s : Setup) (w : World) : Except Err (List ℂ × List Report) := do
  let theory := waveletCovariance s.wavelets s.varFlm
  let (rng, w₁) := defaultRng randomSeed w
  let (data, _) ← axisymRuns normals s rng s.runs w₁
  let m ← measured s.jMin data theory.length
  return (m, report s.jMin m ((columns data theory.length).map std) theory)

/-- `examples/arbitrary/africa/slepian_wavelet_covariance_africa.py:41-58`, one run: the fields of the wavelet coefficients of a
random signal.  The South America version is the same text. -/
noncomputable def slepianRun {L : ℕ} {Pix : Type} (normals : ℕ → ℕ → ℝ) (sl : Transform.Slepian (L ^ 2))
    (synth : (Fin (L ^ 2) → ℂ) → Pix → ℂ) (wavelets : Array2 ℂ) (v : ℝ) (rng : ℕ) (w : World) :
    Except Err (List (Pix → ℂ) × World) := do
  let (fp, w₁) ← randomSignal normals L rng v w
  let wp ← Wavelets.slepianForward fp wavelets sl.N
  let fields ← wp.rows.mapM (Transform.slepianInverse sl synth)
  return (fields, w₁)

/-- `examples/arbitrary/africa/slepian_wavelet_covariance_africa.py:40-58`, the loop over the runs. -/
noncomputable def slepianRuns {L : ℕ} {Pix : Type} (normals : ℕ → ℕ → ℝ) (sl : Transform.Slepian (L ^ 2))
    (synth : (Fin (L ^ 2) → ℂ) → Pix → ℂ) (wavelets : Array2 ℂ) (v : ℝ) (rng : ℕ) :
    ℕ → World → Except Err (List (List (Pix → ℂ)) × World)
  | 0, w => .ok ([], w)
  | n + 1, w => do
    let (r, w₁) ← slepianRun normals sl synth wavelets v rng w
    let (rs, w₂) ← slepianRuns normals sl synth wavelets v rng n w₁
    return (r :: rs, w₂)

/-- `covar_data_runs.var(axis=0)` (line 61), where rows that were not written are zero (line 35). -/
noncomputable def varOverRuns {Pix : Type} (n : ℕ) (data : List (List (Pix → ℂ))) : List (Pix → ℝ) :=
  (List.range n).map fun j x => var (data.map fun r => r.getD j (fun _ => 0) x)

open Classical in
/-- `wavelet_methods.py:148-163`, `find_non_zero_wavelet_coefficients` with `axis=(1, 2)`. -/
noncomputable def nonZeroFields {Pix : Type} (fs : List (Pix → ℝ)) : List (Pix → ℝ) := fs.filter fun f => decide (∃ x, f x ≠ 0)

/-- `examples/arbitrary/africa/slepian_wavelet_covariance_africa.py:21-84`, `main`: the measured covariances and the relative
differences that are plotted. -/
noncomputable def slepianExperiment {L : ℕ} {Pix : Type} (normals : ℕ → ℕ → ℝ) (sl : Transform.Slepian (L ^ 2))
    (synth : (Fin (L ^ 2) → ℂ) → Pix → ℂ) (wavelets : Array2 ℂ) (v : ℝ) (runs : ℕ) (w : World) :
    Except Err (List (Pix → ℝ) × List (Pix → ℝ)) := do
  let theory ← slepianWaveletCovariance sl synth wavelets.rows v
  let (rng, w₁) := defaultRng randomSeed w
  let (data, _) ← slepianRuns normals sl synth wavelets v rng runs w₁
  let measured := varOverRuns theory.length data
  let differences ← broadcast (fun (d t : Pix → ℝ) x => |d x - t x| / t x) (nonZeroFields measured) (nonZeroFields theory)
  return (measured, differences)

end Sleplet.Experiments
