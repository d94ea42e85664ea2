import Mathlib.Analysis.SpecialFunctions.Log.Base
import Mathlib.Analysis.SpecialFunctions.Pow.Real
import Verif.Model.HarmonicIndex
import Verif.Model.NumPy

/-!
Noise and simulated or loaded harmonic coefficients: `noise.py:19-112,243-280`, `_data/create_earth_flm.py`,
`_data/create_wmap_flm.py`, `_smoothing.py`.

Real numbers replace floats.  `numpy.random` is external: a generator is a seed and the number of values it has
produced, and `normals s k` is value number `k` of a generator seeded with `s`.
-/
namespace Sleplet.Noise

open Complex

/-- All the generators created so far in the process, by the other calls too: seed and number of values drawn. -/
abbrev World := List (ℕ × ℕ)

/-- `_vars.py`, `RANDOM_SEED`. -/
def randomSeed : ℕ := 30

/-- `np.random.default_rng(seed)`: a new generator at its first value.  Returns its address. -/
def defaultRng (seed : ℕ) (w : World) : ℕ × World := (w.length, w ++ [(seed, 0)])

/-- `rng.standard_normal()`.  The error case is a generator that was never created. -/
def standardNormal (normals : ℕ → ℕ → ℝ) (rng : ℕ) (w : World) : Except Err (ℝ × World) :=
  match w[rng]? with
  | some (s, k) => .ok (normals s k, w.set rng (s, k + 1))
  | none => .error .runtimeError

/-- `noise.py:19-21`, `_signal_power`. -/
noncomputable def signalPower (signal : List ℂ) : ℝ := (signal.map fun x => ‖x‖ ^ 2).sum

/-- `noise.py:24-43`, `compute_snr`, without the log message.  Simplification: zero powers give inf/nan in NumPy. -/
noncomputable def computeSnr (signal noise : List ℂ) : ℝ := 10 * Real.logb 10 (signalPower signal / signalPower noise)

/-- `noise.py:46-65`, `compute_sigma_noise`.  Simplification: a zero denominator gives inf/nan in NumPy. -/
noncomputable def computeSigmaNoise (signal : List ℂ) (snrIn : ℝ) (denominator : Option ℕ) : ℝ :=
  let d : ℕ := denominator.getD signal.length
  Real.sqrt ((10 : ℝ) ^ (-snrIn / 10) * signalPower signal / d)

/-- `noise.py:87-95`, the body of the loop over `m`; `_data/create_wmap_flm.py:25-33` is the same text. -/
noncomputable def orderBody (normals : ℕ → ℕ → ℝ) (rng : ℕ) (sigma : ℝ) (ell : ℕ) (st : List ℂ × World) (m : ℕ) :
    Except Err (List ℂ × World) := do
  let (a, w₁) ← standardNormal normals rng st.2
  let (b, w₂) ← standardNormal normals rng w₁
  let nlm ← NumPy.setItem st.1 (elm2ind ell m) ((sigma : ℂ) / (Real.sqrt 2 : ℂ) * ((a : ℂ) + I * (b : ℂ)))
  let x ← NumPy.item nlm (elm2ind ell m)
  let nlm' ← NumPy.setItem nlm (elm2ind ell (-(m : ℤ))) ((-1) ^ m * (starRingEnd ℂ) x)
  return (nlm', w₂)

/-- `noise.py:84-95`, the body of the loop over `ell`; `_data/create_wmap_flm.py:23-33` is the same text. -/
noncomputable def degreeBody (normals : ℕ → ℕ → ℝ) (rng : ℕ) (sigma : ℝ) (ell : ℕ) (st : List ℂ × World) :
    Except Err (List ℂ × World) := do
  let (a, w₁) ← standardNormal normals rng st.2
  let nlm ← NumPy.setItem st.1 (elm2ind ell 0) ((sigma : ℂ) * (a : ℂ))
  (List.range' 1 ell).foldlM (orderBody normals rng sigma ell) (nlm, w₁)

/-- `noise.py:68-96`, `_create_noise`: the noise and the generators afterwards. -/
noncomputable def createNoise (normals : ℕ → ℕ → ℝ) (L : ℕ) (signal : List ℂ) (snrIn : ℝ) (w : World) :
    Except Err (List ℂ × World) :=
  let (rng, w₁) := defaultRng randomSeed w
  let sigma := computeSigmaNoise signal snrIn none
  (List.range L).foldlM (fun st ell => degreeBody normals rng sigma ell st) (List.replicate (L ^ 2) 0, w₁)

/-- `noise.py:99-112`, `_create_slepian_noise`, given the inverse and forward Slepian transforms and `ssht.forward`. -/
noncomputable def createSlepianNoise {F : Type} (normals : ℕ → ℕ → ℝ) (slepianInverse : List ℂ → Except Err F)
    (sshtForward : F → List ℂ) (slepianForward : List ℂ → Except Err (List ℂ)) (L : ℕ) (slepianSignal : List ℂ)
    (snrIn : ℝ) (w : World) : Except Err (List ℂ × World) := do
  let f ← slepianInverse slepianSignal
  let (nlm, w') ← createNoise normals L (sshtForward f) snrIn w
  let np ← slepianForward nlm
  return (np, w')

/-- `noise.py:258-259`, the loop body. -/
noncomputable def meshBody (normals : ℕ → ℕ → ℝ) (rng : ℕ) (sigma : ℝ) (st : List ℝ × World) (i : ℕ) :
    Except Err (List ℝ × World) := do
  let (a, w₁) ← standardNormal normals rng st.2
  let ni ← NumPy.setItem st.1 i (sigma * a)
  return (ni, w₁)

/-- `noise.py:243-260`, `_create_mesh_noise`. -/
noncomputable def createMeshNoise (normals : ℕ → ℕ → ℝ) (u : List ℂ) (snrIn : ℝ) (w : World) :
    Except Err (List ℝ × World) :=
  let (rng, w₁) := defaultRng randomSeed w
  let sigma := computeSigmaNoise u snrIn none
  (List.range u.length).foldlM (meshBody normals rng sigma) (List.replicate u.length 0, w₁)

/-- `noise.py:263-280`, `_create_slepian_mesh_noise`, given the mesh transforms. -/
noncomputable def createSlepianMeshNoise {F : Type} (normals : ℕ → ℕ → ℝ) (slepianMeshInverse : List ℂ → Except Err F)
    (meshForward : F → Except Err (List ℂ)) (slepianMeshForward : List ℝ → Except Err (List ℂ)) (signal : List ℂ)
    (snrIn : ℝ) (w : World) : Except Err (List ℂ × World) := do
  let f ← slepianMeshInverse signal
  let u ← meshForward f
  let (ni, w') ← createMeshNoise normals u snrIn w
  let np ← slepianMeshForward ni
  return (np, w')

/-- `_data/create_wmap_flm.py:11-34`, `create_flm`, given the loaded power spectrum `cl`.  Simplification: a negative
power would give nan. -/
noncomputable def createWmap (normals : ℕ → ℕ → ℝ) (cl : List ℝ) (L : ℕ) (w : World) : Except Err (List ℂ × World) :=
  let (rng, w₁) := defaultRng randomSeed w
  (List.range' 2 (L - 2)).foldlM (fun st ell => do
    let c ← NumPy.item cl (ell - 2)
    let sigma := Real.sqrt (2 * Real.pi / ((ell : ℝ) * ((ell : ℝ) + 1)) * c)
    degreeBody normals rng sigma ell st) (List.replicate (L ^ 2) 0, w₁)

/-- `_data/create_earth_flm.py:18-22`, the body of the loop over `m`. -/
noncomputable def earthOrder (ell : ℕ) (flm : List ℂ) (m : ℕ) : Except Err (List ℂ) := do
  let x ← NumPy.item flm (elm2ind ell m)
  NumPy.setItem flm (elm2ind ell (-(m : ℤ))) ((-1) ^ m * (starRingEnd ℂ) x)

/-- `_smoothing.py:11-27`, `apply_gaussian_smoothing`, with the external `ssht.gaussian_smoothing(flm, L, sigma)`. -/
noncomputable def applyGaussianSmoothing (smooth : List ℂ → ℕ → ℝ → List ℂ) (flm : List ℂ) (L : ℕ) (factor : ℤ) :
    Except Err (List ℂ) :=
  if factor * (L : ℤ) = 0 then .error .zeroDivisionError
  else .ok (smooth flm L (Real.pi / ((factor : ℝ) * (L : ℝ))))

/-- `_data/create_earth_flm.py:11-29`, `create_flm`, given the loaded array `src`. -/
noncomputable def createEarth (smooth : List ℂ → ℕ → ℝ → List ℂ) (src : List ℂ) (L : ℕ) (smoothing : Option ℤ) :
    Except Err (List ℂ) := do
  let flm ← (List.range' 1 (L - 1)).foldlM (fun flm ell => (List.range' 1 ell).foldlM (earthOrder ell) flm) src
  let flm' := (flm.take (L ^ 2)).map (starRingEnd ℂ)
  match smoothing with
  | some factor => applyGaussianSmoothing smooth flm' L factor
  | none => .ok flm'

end Sleplet.Noise
