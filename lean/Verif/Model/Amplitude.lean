import Verif.Model.SphereScript

/-!
The amplitude of a function, with its spin and its flag: `plot_methods.py:63-109`.  (`Plot.findMaxAmplitude` is the same for fields of spin zero.)
-/
namespace Sleplet.SphereScript

/-- `plot_methods.py:82-93`: the field of the function's coefficients.  Slepian coefficients go through `slepian_inverse`; others through `ssht.inverse`, without the
function's flag and spin. -/
noncomputable def amplitudeField (e : SphereEnv) {L : ℕ} (f : Made L) : Except Err (List (List ℂ)) :=
  match f.slepian with
  | some (s, _) => (Transform.slepianInverse s.env.sl s.env.synth f.target.obj.coefficients).map toRows
  | none => .ok (e.inverse false 0 L f.target.obj.coefficients)

/-- `plot_methods.py:63-109`, `find_max_amplitude`. -/
noncomputable def findMaxAmplitude (e : SphereEnv) {L : ℕ} (f : Made L) (plotType : String) (upsample : Bool) : Except Err ℝ := do
  let field ← amplitudeField e f
  let resolution := if upsample then Plot.calcPlotResolution L else L
  let o := f.target.obj
  let boosted ← Plot.boostField (e.forward o.reality o.spin) (e.inverse o.reality o.spin) field L resolution upsample
  let g ← Plot.plotTypeFun plotType
  Plot.amax (boosted.map fun r => r.map fun z => |g z|).flatten

end Sleplet.SphereScript
