import Mathlib.Data.Complex.BigOperators
import Verif.Model.NumPy

/-!
Slepian decomposition on the sphere: `slepian/_slepian_decomposition.py`, `slepian_methods.py:72-152`,
`_integration_methods.py:24-40,64-66`.

Fields live on an arbitrary finite grid `Pix`; the external inverse transform is the parameter `synth`.
-/
namespace Sleplet.Transform

/-- The attributes of a Slepian object that the transforms use (`slepian_functions.py:22-46`).  `evecs` has as many rows
as are available: all of them after computing, only `N` after loading. -/
structure Slepian (n : ℕ) where
  N : ℕ
  evals : List ℝ
  evecs : List (Fin n → ℂ)

/-- `_integration_methods.py:64-66`, `_multiply_args` for two fields. -/
def multiply {Pix : Type} (f g : Pix → ℂ) : Pix → ℂ := fun x => f x * g x

/-- `_integration_methods.py:24-30`, `integrate_whole_sphere`. -/
noncomputable def integrateWhole {Pix : Type} [Fintype Pix] (w : Pix → ℝ) (f g : Pix → ℂ) : ℂ :=
  ∑ x, multiply f g x * (w x : ℂ)

/-- `_integration_methods.py:33-40`, `integrate_region_sphere`. -/
noncomputable def integrateRegion {Pix : Type} [Fintype Pix] (mask w : Pix → ℝ) (f g : Pix → ℂ) : ℂ :=
  ∑ x, multiply f g x * (w x : ℂ) * (mask x : ℂ)

inductive Method
  | harmonicSum | integrateSphere | integrateRegion
  deriving DecidableEq

/-- `_slepian_decomposition.py:105-122`, `_detect_method` on which of `f`, `flm`, `mask` were given. -/
def detectMethod (hasF hasFlm hasMask : Bool) : Except Err Method :=
  if hasFlm then .ok .harmonicSum
  else if hasF then
    if !hasMask then .ok .integrateSphere else .ok .integrateRegion
  else .error .runtimeError

/-- `_slepian_decomposition.py:124-131`, `_validate_rank`. -/
def validateRank (L : ℕ) (rank : ℤ) : Except Err Unit :=
  if rank < 0 then .error .valueError
  else if rank ≥ (L : ℤ) ^ 2 then .error .valueError
  else .ok ()

/-- What is passed to the constructor. -/
structure Inputs (n : ℕ) (Pix : Type) where
  f : Option (Pix → ℂ) := none
  flm : Option (Fin n → ℂ) := none
  mask : Option (Pix → ℝ) := none

/-- `_slepian_decomposition.py:96-103`, `_harmonic_sum`. -/
noncomputable def harmonicSum {n : ℕ} (sl : Slepian n) (flm : Fin n → ℂ) (rank : ℕ) : Except Err ℂ := do
  let v ← NumPy.item sl.evecs rank
  return ∑ i, flm i * (starRingEnd ℂ) (v i)

/-- `_slepian_decomposition.py:78-94`, `_integrate_sphere`. -/
noncomputable def integrateSphere {n : ℕ} {Pix : Type} [Fintype Pix] (sl : Slepian n) (synth : (Fin n → ℂ) → Pix → ℂ)
    (w : Pix → ℝ) (f : Pix → ℂ) (rank : ℕ) : Except Err ℂ := do
  let v ← NumPy.item sl.evecs rank
  return integrateWhole w f (fun x => (starRingEnd ℂ) (synth v x))

/-- `_slepian_decomposition.py:57-76`, `_integrate_region`.  Simplification: NumPy division by a zero eigenvalue gives
inf/nan with a warning; here it gives 0, and no theorem uses it. -/
noncomputable def integrateRegionMethod {n : ℕ} {Pix : Type} [Fintype Pix] (sl : Slepian n)
    (synth : (Fin n → ℂ) → Pix → ℂ) (w : Pix → ℝ) (mask : Pix → ℝ) (f : Pix → ℂ) (rank : ℕ) : Except Err ℂ := do
  let v ← NumPy.item sl.evecs rank
  let e ← NumPy.item sl.evals rank
  return integrateRegion mask w f (fun x => (starRingEnd ℂ) (synth v x)) / (e : ℂ)

/-- `_slepian_decomposition.py:32-45`, `decompose(rank)`, with the method chosen at construction (line 30). -/
noncomputable def decompose {L : ℕ} {Pix : Type} [Fintype Pix] (sl : Slepian (L ^ 2)) (synth : (Fin (L ^ 2) → ℂ) → Pix → ℂ)
    (w : Pix → ℝ) (inp : Inputs (L ^ 2) Pix) (rank : ℤ) : Except Err ℂ := do
  let method ← detectMethod inp.f.isSome inp.flm.isSome inp.mask.isSome
  validateRank L rank
  match method, inp.flm, inp.f, inp.mask with
  | .harmonicSum, some flm, _, _ => harmonicSum sl flm rank.toNat
  | .integrateSphere, _, some f, _ => integrateSphere sl synth w f rank.toNat
  | .integrateRegion, _, some f, some mask => integrateRegionMethod sl synth w mask f rank.toNat
  | _, _, _, _ => .error .valueError

/-- `_slepian_decomposition.py:47-55`, `decompose_all`: the loop over ranks. -/
noncomputable def decomposeAll {L : ℕ} {Pix : Type} [Fintype Pix] (sl : Slepian (L ^ 2))
    (synth : (Fin (L ^ 2) → ℂ) → Pix → ℂ) (w : Pix → ℝ) (inp : Inputs (L ^ 2) Pix) : List ℕ → Except Err (List ℂ)
  | [] => .ok []
  | r :: rs => do
    let c ← decompose sl synth w inp r
    let cs ← decomposeAll sl synth w inp rs
    return c :: cs

/-- `slepian_methods.py:93-124`, `slepian_forward`. -/
noncomputable def slepianForward {L : ℕ} {Pix : Type} [Fintype Pix] (sl : Slepian (L ^ 2))
    (synth : (Fin (L ^ 2) → ℂ) → Pix → ℂ) (w : Pix → ℝ) (inp : Inputs (L ^ 2) Pix) (nCoeffs : Option ℕ) :
    Except Err (List ℂ) := do
  let _ ← detectMethod inp.f.isSome inp.flm.isSome inp.mask.isSome
  decomposeAll sl synth w inp (List.range (nCoeffs.getD sl.N))

/-- `slepian_methods.py:127-152`, `compute_s_p_omega`: the fields of the first `N` eigenvectors. -/
noncomputable def computeSp {n : ℕ} {Pix : Type} (sl : Slepian n) (synth : (Fin n → ℂ) → Pix → ℂ) :
    List ℕ → Except Err (List (Pix → ℂ))
  | [] => .ok []
  | p :: ps => do
    let v ← NumPy.item sl.evecs p
    let r ← computeSp sl synth ps
    return synth v :: r

/-- `slepian_methods.py:72-90`, `slepian_inverse`. -/
noncomputable def slepianInverse {n : ℕ} {Pix : Type} (sl : Slepian n) (synth : (Fin n → ℂ) → Pix → ℂ) (fp : List ℂ) :
    Except Err (Pix → ℂ) := do
  let sp ← computeSp sl synth (List.range sl.N)
  let terms ← NumPy.broadcast (fun (c : ℂ) (s : Pix → ℂ) => fun x => c * s x) (fp.take sl.N) sp
  return fun x => (terms.map fun t => t x).sum

end Sleplet.Transform
