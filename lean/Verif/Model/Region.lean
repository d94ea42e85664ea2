import Verif.Model.Common
import Verif.Model.Python

/-!
Regions: `_vars.py`, `_bool_methods.py`, `slepian/region.py`, `slepian_methods.py:24-69`, `_mask_methods.py:25-68,106-130`,
area and Shannon number (`slepian_functions.py:53-64`, `slepian_polar_cap.py:60-61`, `slepian_limit_lat_lon.py:54-57`).

Angles are real numbers (no NaN).
-/
namespace Sleplet.Region

open Real

/-- `_vars.py:4` -/
noncomputable def phiMaxDefault : ℝ := 2 * π
/-- `_vars.py:5` -/
def phiMinDefault : ℝ := 0
/-- `_vars.py:10` -/
noncomputable def thetaMaxDefault : ℝ := π
/-- `_vars.py:11` -/
def thetaMinDefault : ℝ := 0

/-- `_bool_methods.py:4-16`. -/
noncomputable def isPolarCap (phiMin phiMax thetaMin thetaMax : ℝ) : Bool :=
  decide (phiMin = phiMinDefault) && decide (phiMax = phiMaxDefault) && decide (thetaMin = thetaMinDefault) &&
    decide (thetaMax ≠ thetaMaxDefault)

/-- `_bool_methods.py:19-33`. -/
noncomputable def isLimitedLatLon (phiMin phiMax thetaMin thetaMax : ℝ) : Bool :=
  (!isPolarCap phiMin phiMax thetaMin thetaMax && decide (phiMin ≠ phiMinDefault)) || decide (phiMax ≠ phiMaxDefault) ||
    decide (thetaMin ≠ thetaMinDefault)

/-- the arguments of `Region(...)` with their defaults (`region.py:20-39`). -/
structure Args where
  gap : Bool := false
  maskName : String := ""
  phiMax : ℝ := 2 * π
  phiMin : ℝ := 0
  thetaMax : ℝ := π
  thetaMin : ℝ := 0

/-- a `Region` object: its public fields, `_name_ending` and `_region_type` (`region.py:40-41`). -/
structure Obj where
  args : Args
  nameEnding : String
  regionType : String

/-- `_string_methods.py:76-78`. -/
noncomputable def angleAsDegree (radian : ℝ) : ℤ := Py.round (Py.rad2deg radian)

/-- `region.py:95-125`: the validators of the two longitudes. -/
noncomputable def checkPhi (v : ℝ) : Except Err Unit :=
  if v < phiMinDefault then .error .valueError
  else if v > phiMaxDefault then .error .valueError
  else .ok ()

/-- `region.py:127-157`: the validators of the two colatitudes. -/
noncomputable def checkTheta (v : ℝ) : Except Err Unit :=
  if v < thetaMinDefault then .error .valueError
  else if v > thetaMaxDefault then .error .valueError
  else .ok ()

/-- `region.py:46-93`, `_identify_region`: the type and the name ending. -/
noncomputable def identify (a : Args) : Except Err (String × String) :=
  if isPolarCap a.phiMin a.phiMax a.thetaMin a.thetaMax then
    .ok ("polar", "polar" ++ (if a.gap then "_gap" else "") ++ toString (angleAsDegree a.thetaMax))
  else if isLimitedLatLon a.phiMin a.phiMax a.thetaMin a.thetaMax then
    .ok ("lim_lat_lon", "theta" ++ toString (angleAsDegree a.thetaMin) ++ "-" ++ toString (angleAsDegree a.thetaMax) ++
      "_phi" ++ toString (angleAsDegree a.phiMin) ++ "-" ++ toString (angleAsDegree a.phiMax))
  else if a.maskName ≠ "" then .ok ("arbitrary", a.maskName)
  else .error .attributeError

/-- `Region(...)`: pydantic runs the field validators (all raise `ValueError`), then `__post_init__`. -/
noncomputable def mk (a : Args) : Except Err Obj := do
  checkPhi a.phiMax
  checkPhi a.phiMin
  checkTheta a.thetaMax
  checkTheta a.thetaMin
  let (ty, name) ← identify a
  return ⟨a, name, ty⟩

/-- which Slepian class with which arguments. -/
inductive Slepian
  | polarCap (L : ℕ) (thetaMax : ℝ) (gap : Bool)
  | limitLatLon (L : ℕ) (thetaMin thetaMax phiMin phiMax : ℝ)
  | arbitrary (L : ℕ) (maskName : String)

/-- `_create_region` of the three classes: `slepian_polar_cap.py:54-55`, `slepian_limit_lat_lon.py:43-49`,
`slepian_arbitrary.py:52-53`. -/
noncomputable def Slepian.createRegion : Slepian → Except Err Obj
  | .polarCap _ thetaMax gap => mk { gap := gap, thetaMax := thetaMax }
  | .limitLatLon _ thetaMin thetaMax phiMin phiMax =>
    mk { thetaMin := thetaMin, thetaMax := thetaMax, phiMin := phiMin, phiMax := phiMax }
  | .arbitrary _ maskName => mk { maskName := maskName }

/-- field validators of the classes: only `slepian_polar_cap.py:414-422` (with `order = None`). -/
noncomputable def Slepian.validate : Slepian → Except Err Unit
  | .polarCap _ thetaMax _ => if thetaMax = 0 then .error .valueError else .ok ()
  | _ => .ok ()

/-- `slepian_methods.py:24-69`, `choose_slepian_method`: the class and arguments chosen; then the constructor validates
and rebuilds the region (`slepian_functions.py:54`).  The rest of the constructor is modelled elsewhere. -/
noncomputable def choose (L : ℕ) (r : Obj) : Except Err (Slepian × Obj) := do
  let s ← (if r.regionType = "polar" then .ok (.polarCap L r.args.thetaMax r.args.gap)
    else if r.regionType = "lim_lat_lon" then
      .ok (.limitLatLon L r.args.thetaMin r.args.thetaMax r.args.phiMin r.args.phiMax)
    else if r.regionType = "arbitrary" then .ok (.arbitrary L r.args.maskName)
    else .error .valueError : Except Err Slepian)
  s.validate
  let r' ← s.createRegion
  return (s, r')

/-- `_mask_methods.py:53-67`: whether the sample at colatitude `theta`, longitude `phi` is in the mask of an angular
region (Boolean `+=` is logical or).  For arbitrary regions the mask is a file. -/
def inMask (r : Obj) (theta phi : ℝ) : Prop :=
  if r.regionType = "lim_lat_lon" then
    theta ≥ r.args.thetaMin ∧ theta ≤ r.args.thetaMax ∧ phi ≥ r.args.phiMin ∧ phi ≤ r.args.phiMax
  else
    theta ≤ r.args.thetaMax ∨ (r.args.gap = true ∧ theta ≥ π - r.args.thetaMax)

/-- bounds of a mesh region (the TOML settings).  Some files have infinite bounds; on finitely many vertices large ones do the same. -/
structure Box where
  xmin : ℝ
  xmax : ℝ
  ymin : ℝ
  ymax : ℝ
  zmin : ℝ
  zmax : ℝ

/-- `_mesh_methods.py:41-53` (and the copy `_mask_methods.py:118-130`), per vertex. -/
noncomputable def createMeshRegion (b : Box) (x y z : ℝ) : Bool :=
  decide (x ≥ b.xmin) && decide (x ≤ b.xmax) && decide (y ≥ b.ymin) && decide (y ≤ b.ymax) && decide (z ≥ b.zmin) &&
    decide (z ≤ b.zmax)

/-- `_calculate_area` of the two angular classes: `slepian_polar_cap.py:60-61`, `slepian_limit_lat_lon.py:54-57`.  For
arbitrary masks it is the sum of mask times weights (`slepian_arbitrary.py:58-62`), given as `maskArea`. -/
noncomputable def Slepian.area (maskArea : ℝ) : Slepian → ℝ
  | .polarCap _ thetaMax _ => 2 * π * (1 - cos thetaMax)
  | .limitLatLon _ thetaMin thetaMax phiMin phiMax => (phiMax - phiMin) * (cos thetaMin - cos thetaMax)
  | .arbitrary _ _ => maskArea

/-- the bandlimit. -/
def Slepian.L : Slepian → ℕ
  | .polarCap L _ _ => L
  | .limitLatLon L _ _ _ _ => L
  | .arbitrary L _ => L

/-- `slepian_functions.py:58`: `N = round(area * L**2 / (4 * pi))`. -/
noncomputable def Slepian.shannon (maskArea : ℝ) (s : Slepian) : ℤ :=
  Py.round (s.area maskArea * (s.L : ℝ) ^ 2 / (4 * π))

/-- `matrix_location`: `slepian_polar_cap.py:63-66`, `slepian_limit_lat_lon.py:59-62` use the name ending of the rebuilt
region, `slepian_arbitrary.py:64-65` the mask name (which is that region's name ending). -/
noncomputable def matrixLocation (maskArea : ℝ) (s : Slepian) (r : Obj) : String :=
  "slepian_eigensolutions_D_" ++ (match s with | .arbitrary _ m => m | _ => r.nameEnding) ++
    "_L" ++ toString s.L ++ "_N" ++ toString (s.shannon maskArea)

/-! ### the default region -/

/-- `_mask_methods.py:106-115`, `create_default_region`: `env` is `os.getenv`, `pyInt` is `int` on strings (`none` =
`ValueError`), `lower` is `str.lower`.  Keyword arguments are evaluated in the order written. -/
noncomputable def createDefaultRegion (env : String → Option String) (pyInt : String → Option ℤ) (lower : String → String) :
    Except Err Obj := do
  let int (name dflt : String) : Except Err ℝ :=
    match pyInt ((env name).getD dflt) with
    | some n => .ok (Py.deg2rad n)
    | none => .error .valueError
  let gap := lower ((env "POLAR_GAP").getD "False") == "true"
  let maskName := (env "SLEPIAN_MASK").getD "south_america"
  let phiMax ← int "PHI_MAX" "360"
  let phiMin ← int "PHI_MIN" "0"
  let thetaMax ← int "THETA_MAX" "180"
  let thetaMin ← int "THETA_MIN" "0"
  mk { gap := gap, maskName := maskName, phiMax := phiMax, phiMin := phiMin, thetaMax := thetaMax, thetaMin := thetaMin }

end Sleplet.Region
