import Verif.Model.Functions

/-!
Using a function object after its construction: the methods `translate`, `convolve` and `rotate` (`functions/coefficients.py:75-124`,
`functions/flm.py:24-38`, `functions/fp.py:42-62`) and assignments to its fields.  `validate_assignment=True` (`_validation.py:5`) checks
the type of the value and stores it; `__post_init__` (`functions/coefficients.py:66-73`) is not run again.

Simplification: values have the type of their field.
-/
namespace Sleplet.ObjectUses

open Functions

/-- The fields given to the constructor (`functions/coefficients.py:27-38`) and the ones it makes (`:39-64`). -/
structure Inst where
  settings : Settings
  obj : Obj

/-- The two methods that the subclasses define. -/
structure Methods where
  helper : Obj → ℝ → ℝ → Except Err (List ℂ)
  rotate : Obj → ℝ → ℝ → ℝ → Except Err (List ℂ)

/-- `functions/flm.py:24-38`; `ylm` is `ssht.create_ylm`, `rot` is `ssht.rotate_flms`. -/
noncomputable def flmMethods (ylm : ℕ → ℝ → ℝ → List ℂ) (rot : ℕ → List ℂ → ℝ → ℝ → ℝ → List ℂ) : Methods where
  helper := fun o alpha beta => flmHelper (ylm o.L) alpha beta
  rotate := fun o alpha beta gamma => .ok (rot o.L o.coefficients alpha beta gamma)

/-- `functions/fp.py:42-62`; `pixel` is the sample next to the angles. -/
noncomputable def fpMethods {L : ℕ} {Pix : Type} (e : SlepianEnv L Pix) (pixel : ℝ → ℝ → Pix) : Methods where
  helper := fun _ alpha beta => fpHelper e (pixel alpha beta)
  rotate := fun _ _ _ _ => .error .notImplementedError

/-- A call of a method. -/
inductive Call
  | translate (alpha beta : ℝ) (shannon : Option ℤ)
  | convolve (f g : List ℂ) (shannon : Option ℤ)
  | rotate (alpha beta gamma : ℝ)

/-- The outcome of a call and the object afterwards.  `convolve` clears the flag before it computes (`functions/coefficients.py:118-124`). -/
noncomputable def call (m : Methods) (i : Inst) : Call → Except Err (List ℂ) × Inst
  | .translate alpha beta shannon =>
    let r := translate i.obj (m.helper i.obj alpha beta) shannon
    (r.1, { i with obj := { i.obj with reality := r.2 } })
  | .convolve f g shannon =>
    let r := convolve f g shannon
    (r.1, { i with obj := { i.obj with reality := r.2 } })
  | .rotate alpha beta gamma => (m.rotate i.obj alpha beta gamma, i)

/-- The outcomes of a sequence of calls, exceptions caught, and the object afterwards. -/
noncomputable def calls (m : Methods) (i : Inst) : List Call → List (Except Err (List ℂ)) × Inst
  | [] => ([], i)
  | c :: cs =>
    let r := call m i c
    let rs := calls m r.2 cs
    (r.1 :: rs.1, rs.2)

/-- An assignment to a field. -/
inductive Assignment
  | L (v : ℕ)
  | noise (v : Option ℚ)
  | region (v : Option Region.Obj)
  | smoothing (v : Option ℤ)
  | coefficients (v : List ℂ)

/-- `function.field = value`. -/
def assign (i : Inst) : Assignment → Inst
  | .L v => { settings := { i.settings with L := v }, obj := { i.obj with L := v } }
  | .noise v => { i with settings := { i.settings with noise := v } }
  | .region v => { i with settings := { i.settings with region := v } }
  | .smoothing v => { i with settings := { i.settings with smoothing := v } }
  | .coefficients v => { i with obj := { i.obj with coefficients := v } }

end Sleplet.ObjectUses
