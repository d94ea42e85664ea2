import Verif.Model.Region

/-!
Assignments to the fields of a `Region` after its construction: `validate_assignment=True` (`_validation.py:5`) runs the validator of
the field (`slepian/region.py:95-157`) and stores the value; `__post_init__` (`slepian/region.py:43-44`), which identifies the type and
the name ending, is not run again.

Simplification: values have the type of their field; pydantic's `ValidationError` is a `ValueError`.
-/
namespace Sleplet.RegionAssign

open Region

/-- `slepian/region.py:20-39`: a public field and a value. -/
inductive Assignment
  | gap (v : Bool)
  | maskName (v : String)
  | phiMax (v : ℝ)
  | phiMin (v : ℝ)
  | thetaMax (v : ℝ)
  | thetaMin (v : ℝ)

/-- `region.field = value`: the outcome and the object afterwards. -/
noncomputable def assign (r : Obj) : Assignment → Except Err Unit × Obj
  | .gap v => (.ok (), { r with args := { r.args with gap := v } })
  | .maskName v => (.ok (), { r with args := { r.args with maskName := v } })
  | .phiMax v => match checkPhi v with
    | .error e => (.error e, r)
    | .ok _ => (.ok (), { r with args := { r.args with phiMax := v } })
  | .phiMin v => match checkPhi v with
    | .error e => (.error e, r)
    | .ok _ => (.ok (), { r with args := { r.args with phiMin := v } })
  | .thetaMax v => match checkTheta v with
    | .error e => (.error e, r)
    | .ok _ => (.ok (), { r with args := { r.args with thetaMax := v } })
  | .thetaMin v => match checkTheta v with
    | .error e => (.error e, r)
    | .ok _ => (.ok (), { r with args := { r.args with thetaMin := v } })

/-- The object after a sequence of assignments, the failed ones caught. -/
noncomputable def assignAll (r : Obj) : List Assignment → Obj
  | [] => r
  | x :: xs => assignAll (assign r x).2 xs

end Sleplet.RegionAssign
