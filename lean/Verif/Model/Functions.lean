import Mathlib.Analysis.SpecialFunctions.Gamma.Basic
import Mathlib.Analysis.SpecialFunctions.Log.Basic
import Verif.Model.Harmonic
import Verif.Model.Noise
import Verif.Model.Region
import Verif.Model.SlepianTransform
import Verif.Model.Strings
import Verif.Model.Wavelets

/-!
Functions on the sphere: `functions/coefficients.py`, `functions/flm.py`, `functions/fp.py`, the functions defined by a
formula (`dirac_delta.py`, `gaussian.py`, `harmonic_gaussian.py`, `identity.py`, `spherical_harmonic.py`, `ridgelets.py`,
`slepian_identity.py`), and `slepian_methods.py:155-168`.

Real and complex numbers replace floats.
-/
namespace Sleplet.Functions

open Complex NumPy

/-! ### coefficients given by a formula -/

/-- `functions/dirac_delta.py:22-29`. -/
noncomputable def diracDelta (L : ℕ) : Except Err (List ℂ) :=
  (List.range L).foldlM (fun flm ell =>
    setItem flm (elm2ind ell 0) ((Real.sqrt ((2 * (ell : ℝ) + 1) / (4 * Real.pi)) : ℝ) : ℂ)) (List.replicate (L ^ 2) 0)

/-- Python's `x / y` on floats. -/
noncomputable def div (x y : ℝ) : Except Err ℝ := if y = 0 then .error .zeroDivisionError else .ok (x / y)

/-- `functions/gaussian.py:25-32`. -/
noncomputable def gaussian (L : ℕ) (sigma : ℝ) : Except Err (List ℂ) :=
  (List.range L).foldlM (fun (flm : List ℂ) (ell : ℕ) => do
    let x ← div (-(ell : ℝ) * ((ell : ℝ) + 1)) (2 * sigma ^ 2)
    setItem flm (elm2ind ell 0) (Real.exp x : ℂ)) (List.replicate (L ^ 2) 0)

/-- `functions/harmonic_gaussian.py:31-40`. -/
noncomputable def harmonicGaussian (L : ℕ) (lSigma mSigma : ℝ) : Except Err (List ℂ) :=
  (List.range L).foldlM (fun (flm : List ℂ) (ell : ℕ) => do
    let x ← div (ell : ℝ) lSigma
    let upsilon := Real.exp (-(x ^ 2) / 2)
    (arangeEmm ell).foldlM (fun (flm : List ℂ) (m : ℤ) => do
      let y ← div (m : ℝ) mSigma
      setItem flm (elm2ind ell m) ((upsilon * Real.exp (-(y ^ 2) / 2) : ℝ) : ℂ)) flm) (List.replicate (L ^ 2) 0)

/-- `functions/identity.py:20-23` and `functions/slepian_identity.py:20-23`. -/
noncomputable def identity (L : ℕ) : List ℂ := List.replicate (L ^ 2) 1

/-- `scipy.special.gammaln` away from the poles: `log |Γ(x)|`. -/
noncomputable def gammaln (x : ℝ) : ℝ := Real.log (Real.Gamma x)

/-- `functions/ridgelets.py:88-108`, the value written for degree `ell`.  `np.real((-1) ** x)` is `cos(πx)`: Python gives a
complex number when `x` is not an integer. -/
noncomputable def ringEntry (spin : ℤ) (ell : ℕ) : ℝ :=
  let logp2 := gammaln ((ell : ℝ) + spin + 1) - (ell : ℝ) * Real.log 2 - gammaln (((ell : ℝ) + spin) / 2 + 1) -
    gammaln (((ell : ℝ) - spin) / 2 + 1)
  let p0 := Real.cos (Real.pi * (((ell : ℝ) + spin) / 2)) * Real.exp logp2
  2 * Real.pi * Real.sqrt ((2 * (ell : ℝ) + 1) / (4 * Real.pi)) * p0 * (-1) ^ spin *
    Real.sqrt (Real.exp (gammaln ((ell : ℝ) - spin + 1) - gammaln ((ell : ℝ) + spin + 1)))

/-- `functions/ridgelets.py:85-110`, `_compute_ring`. -/
noncomputable def ring (L : ℕ) (spin : ℤ) : Except Err (List ℂ) :=
  (List.range' spin.natAbs (L - spin.natAbs)).foldlM (fun r ell => setItem r (elm2ind ell 0) (ringEntry spin ell : ℂ))
    (List.replicate (L ^ 2) 0)

/-- `functions/ridgelets.py:79-82` for row `j`.  Simplification: the assignments to rows `1:` are made row by row. -/
noncomputable def ridgeletRow (L : ℕ) (ringLm : List ℂ) (j : ℕ) (kappa : List ℝ) : Except Err (List ℂ) :=
  (List.range L).foldlM (fun w ell => do
    let k ← item kappa ell
    let r ← item ringLm (elm2ind ell 0)
    setItem w (elm2ind ell 0) (if j = 0 then (k : ℂ) * r else (k : ℂ) * r / (Real.sqrt (2 * Real.pi) : ℂ)))
    (List.replicate (L ^ 2) 0)

/-- `functions/ridgelets.py:74-83`, `_create_wavelets`, given the generating functions of `create_kappas`. -/
noncomputable def ridgelets (L : ℕ) (spin : ℤ) (kappas : List (List ℝ)) : Except Err (List (List ℂ)) := do
  let r ← ring L spin
  (List.zip (List.range kappas.length) kappas).mapM fun jk => ridgeletRow L r jk.1 jk.2

/-! ### spherical harmonics -/

/-- `functions/spherical_harmonic.py:52-64`, `_check_ell`. -/
def checkEll (L : ℕ) (v : ℤ) : Except Err Unit :=
  if v < 0 then .error .valueError else if v ≥ (L : ℤ) then .error .valueError else .ok ()

/-- `functions/spherical_harmonic.py:66-75`, `_check_m`, with the degree validated before (`none`: it was rejected). -/
def checkM (ell : Option ℤ) (v : ℤ) : Except Err Unit :=
  match ell with
  | none => .error .keyError
  | some ell => if |v| > ell then .error .valueError else .ok ()

/-- The fields `ell` and `m` of `SphericalHarmonic(L, ell=ell, m=m, extra_args=extra)`.  pydantic validates the fields in
order and reports errors together, so the validator of `m` runs even if `ell` was rejected; then `_setup_args`
(`functions/spherical_harmonic.py:44-50`) assigns, again validated. -/
def sphericalHarmonicArgs (L : ℕ) (ell m : ℤ) (extra : Option (List ℤ)) : Except Err (ℤ × ℤ) := do
  let valid := match checkEll L ell with
    | .ok _ => some ell
    | .error _ => none
  checkM valid m
  match extra with
  | none => return (ell, m)
  | some [ell', m'] =>
    checkEll L ell'
    checkM (some ell') m'
    return (ell', m')
  | some _ => .error .valueError

/-- `functions/spherical_harmonic.py:25-29`. -/
noncomputable def sphericalHarmonic (L : ℕ) (ell m : ℤ) (extra : Option (List ℤ)) : Except Err (List ℂ) := do
  let (l, m) ← sphericalHarmonicArgs L ell m extra
  createSphericalHarmonic L (elm2ind l.toNat m)

/-! ### the base classes -/

/-- What a class defines: the abstract methods of `functions/coefficients.py:144-206`. -/
structure Hooks where
  setupArgs : Except Err Unit
  name : String
  spin : ℤ
  reality : Bool
  create : Noise.World → Except Err (List ℂ × Noise.World)

/-- the constructor arguments common to all classes (`functions/coefficients.py:27-38`). -/
structure Settings where
  L : ℕ
  noise : Option ℚ := none
  region : Option Region.Obj := none
  smoothing : Option ℤ := none

/-- the attributes after construction (`functions/coefficients.py:39-64`). -/
structure Obj where
  L : ℕ
  name : String
  spin : ℤ
  reality : Bool
  coefficients : List ℂ
  unnoised : Option (List ℂ)
  snr : Option ℝ

/-- `_COEFFICIENTS_TO_NOT_MASK` (`functions/coefficients.py:17`). -/
def notMasked : List String := ["slepian", "south", "america"]

/-- `set(self.name.split("_")) & _COEFFICIENTS_TO_NOT_MASK` is not empty. -/
def namesSlepian (name : String) : Bool := notMasked.any fun w => (name.toList.splitOn '_').contains w.toList

/-- `functions/coefficients.py:126-142`, `_add_details_to_name`. -/
def addDetails (limDen : ℚ → ℚ) (s : Settings) (name : String) : String :=
  let name := match s.region with
    | some r => if namesSlepian name then name else name ++ ("_" ++ r.nameEnding)
    | none => name
  let name := match s.noise with
    | some n => name ++ Strings.filenameArgs limDen n "noise"
    | none => name
  let name := match s.smoothing with
    | some n => name ++ Strings.filenameArgs limDen (n : ℚ) "smoothed"
    | none => name
  name ++ "_L" ++ toString s.L

/-- The coefficients, the clean coefficients and the signal-to-noise ratio. -/
abbrev Noised := List ℂ × Option (List ℂ) × Option ℝ

/-- `functions/coefficients.py:66-73`, `__post_init__`, with the noise step of the subclass. -/
noncomputable def postInit (limDen : ℚ → ℚ) (h : Hooks) (s : Settings)
    (addNoise : List ℂ → Noise.World → Except Err (Noised × Noise.World)) (w : Noise.World) :
    Except Err (Obj × Noise.World) := do
  h.setupArgs
  let (c, w₁) ← h.create w
  let name := addDetails limDen s h.name
  let ((c', u, snr), w₂) ← addNoise c w₁
  return (⟨s.L, name, h.spin, h.reality, c', u, snr⟩, w₂)

/-- The common text of `functions/flm.py:40-51`, `functions/fp.py:64-80`, `meshes/mesh_harmonic_coefficients.py:22-33` and
`meshes/mesh_slepian_coefficients.py:30-45`, given how the noise is made. -/
noncomputable def addNoiseWith (mk : List ℂ → ℝ → Noise.World → Except Err (List ℂ × Noise.World)) (noise : Option ℚ)
    (c : List ℂ) (w : Noise.World) : Except Err (Noised × Noise.World) :=
  match noise with
  | none => .ok ((c, none, none), w)
  | some s => do
    let (n, w') ← mk c (s : ℝ) w
    let snr := Noise.computeSnr c n
    let c' ← broadcast (· + ·) c n
    return ((c', some c, some snr), w')

/-- `functions/flm.py:40-51`. -/
noncomputable def flmNoise (normals : ℕ → ℕ → ℝ) (s : Settings) :=
  addNoiseWith (fun c snr w => Noise.createNoise normals s.L c snr w) s.noise

/-- A harmonic function: `Flm.__post_init__` (`functions/flm.py:21-22`). -/
noncomputable def flm (limDen : ℚ → ℚ) (normals : ℕ → ℕ → ℝ) (h : Hooks) (s : Settings) (w : Noise.World) :
    Except Err (Obj × Noise.World) :=
  postInit limDen h s (flmNoise normals s) w

/-- a coefficient list as a vector of `L²` entries. -/
noncomputable def asVec (L : ℕ) (xs : List ℂ) : Fin (L ^ 2) → ℂ := fun i => xs.getD i 0

/-- The external transforms and the Slepian object used by a Slepian function. -/
structure SlepianEnv (L : ℕ) (Pix : Type) where
  sl : Transform.Slepian (L ^ 2)
  synth : (Fin (L ^ 2) → ℂ) → Pix → ℂ
  weight : Pix → ℝ
  sshtForward : (Pix → ℂ) → List ℂ

/-- `functions/fp.py:64-80`. -/
noncomputable def fpNoise {L : ℕ} {Pix : Type} [Fintype Pix] (normals : ℕ → ℕ → ℝ) (e : SlepianEnv L Pix)
    (noise : Option ℚ) :=
  addNoiseWith (fun c snr w => Noise.createSlepianNoise normals (Transform.slepianInverse e.sl e.synth) e.sshtForward
    (fun nlm => Transform.slepianForward e.sl e.synth e.weight { flm := some (asVec L nlm) } none) L c snr w) noise

/-- A Slepian function: `Fp.__post_init__` (`functions/fp.py:30-40`) after the Slepian object has been made. -/
noncomputable def fp {L : ℕ} {Pix : Type} [Fintype Pix] (limDen : ℚ → ℚ) (normals : ℕ → ℕ → ℝ) (e : SlepianEnv L Pix)
    (h : Hooks) (s : Settings) (w : Noise.World) : Except Err (Obj × Noise.World) :=
  postInit limDen h s (fpNoise normals e s.noise) w

/-- the hooks of `SlepianIdentity` (`functions/slepian_identity.py`). -/
noncomputable def slepianIdentity (L : ℕ) (regionName : String) : Hooks where
  setupArgs := .ok ()
  name := Strings.snake "SlepianIdentity" ++ "_" ++ regionName
  spin := 0
  reality := false
  create := fun w => .ok (identity L, w)

/-! ### translation -/

/-- `"x" in s`. -/
def contains (needle hay : String) : Bool := decide (needle.toList <:+: hay.toList)

/-- `functions/coefficients.py:100-124`, `convolve`: the result and the reality flag afterwards. -/
noncomputable def convolve (f g : List ℂ) (shannon : Option ℤ) : Except Err (List ℂ) × Bool :=
  (Wavelets.sift f g shannon, false)

/-- `functions/coefficients.py:75-98`, `translate`, given the result of the translation helper: the result and the
reality flag afterwards. -/
noncomputable def translate (o : Obj) (helper : Except Err (List ℂ)) (shannon : Option ℤ) : Except Err (List ℂ) × Bool :=
  match helper with
  | .error e => (.error e, o.reality)
  | .ok g => if contains "dirac_delta" o.name then (.ok g, o.reality) else convolve o.coefficients g shannon

/-- `functions/flm.py:33-38`; `ylm` is the external `ssht.create_ylm(theta, phi, L)` (flattened). -/
noncomputable def flmHelper (ylm : ℝ → ℝ → List ℂ) (alpha beta : ℝ) : Except Err (List ℂ) :=
  .ok ((ylm beta alpha).map (starRingEnd ℂ))

/-- `slepian_methods.py:155-168`, `_compute_s_p_omega_prime`, at the pixel of the requested angles. -/
noncomputable def sPOmegaPrime {L : ℕ} {Pix : Type} (e : SlepianEnv L Pix) (x : Pix) : Except Err (List ℂ) := do
  let sp ← Transform.computeSp e.sl e.synth (List.range e.sl.N)
  boostCoefficientResolution (sp.map fun s => s x) ((L : ℤ) ^ 2 - e.sl.N)

/-- `functions/fp.py:52-62`. -/
noncomputable def fpHelper {L : ℕ} {Pix : Type} (e : SlepianEnv L Pix) (x : Pix) : Except Err (List ℂ) := do
  let v ← sPOmegaPrime e x
  return v.map (starRingEnd ℂ)

/-! ### masking -/

open Classical in
/-- `_mask_methods.py:79-103`, `ensure_masked_flm_bandlimited`, with the external transforms.  No caller. -/
noncomputable def ensureMasked {Pix : Type} (inverse : List ℂ → Pix → ℂ) (forward : (Pix → ℂ) → List ℂ)
    (mask : Pix → Prop) (flm : List ℂ) : List ℂ :=
  let field := inverse flm
  forward fun x => if mask x then field x else 0

end Sleplet.Functions
