import Mathlib.Data.Rat.Defs
import Mathlib.Algebra.Order.Ring.Rat
import Verif.Model.Common

/-!
Names: `_string_methods.py:12-73,81-103`, the class lists (`_class_lists.py:47-104`) and the lookup of a class by its
command-line name (`_scripts/plotting_on_sphere.py:34-51,360-364`, `_scripts/plotting_on_mesh.py:22-30,115-120`).

Parameters are rational numbers (every finite float is one).  `limDen` is the standard library's
`Fraction.limit_denominator()`.
-/
namespace Sleplet.Strings

/-- `_string_methods.py:12-15`, `_get_angle_num_dem`. -/
def angleNumDem (limDen : ℚ → ℚ) (x : ℚ) : ℤ × ℕ := ((limDen x).num, (limDen x).den)

/-- `_string_methods.py:18-24`, `_pi_in_filename`. -/
def piInFilename (num : ℤ) (den : ℕ) : String :=
  toString num ++ "pi" ++ (if den ≠ 1 then toString den else "")

/-- `_string_methods.py:27-34`, `filename_args`. -/
def filenameArgs (limDen : ℚ → ℚ) (value : ℚ) (argName : String) : String :=
  let nd := angleNumDem limDen value
  "_" ++ (toString nd.1 ++ argName) ++ (if |value| < 1 ∧ value ≠ 0 then toString nd.2 else "")

/-- `_string_methods.py:37-64`, `filename_angle`. -/
def filenameAngle (limDen : ℚ → ℚ) (alpha beta gamma : ℚ) : String :=
  let a := angleNumDem limDen alpha
  let b := angleNumDem limDen beta
  let g := angleNumDem limDen gamma
  let filename :=
    if a.1 = 0 ∧ b.1 = 0 then "alpha0_beta0"
    else if a.1 = 0 then "alpha0_beta" ++ piInFilename b.1 b.2
    else if b.1 = 0 then "alpha" ++ piInFilename a.1 a.2 ++ "_beta0"
    else "alpha" ++ piInFilename a.1 a.2 ++ "_beta" ++ piInFilename b.1 b.2
  if g.1 ≠ 0 then filename ++ "_gamma" ++ piInFilename g.1 g.2 else filename

/-- `_string_methods.py:81-83`, `wavelet_ending`. -/
def waveletEnding (limDen : ℚ → ℚ) (jMin : ℤ) : Option ℤ → String
  | none => "_scaling"
  | some j => filenameArgs limDen ((j + jMin : ℤ) : ℚ) "j"

/-- `re.sub(r"(?<!^)(?=[A-Z])", "_", name).lower()` from the second character on.  Simplification: ASCII names. -/
def snakeTail : List Char → List Char
  | [] => []
  | c :: cs => if c.isUpper then '_' :: c.toLower :: snakeTail cs else c.toLower :: snakeTail cs

/-- `_string_methods.py:86-88`, `_convert_camel_case_to_snake_case`. -/
def snake (name : String) : String :=
  match name.toList with
  | [] => ""
  | c :: cs => String.ofList (c.toLower :: snakeTail cs)

/-- `str.removeprefix`. -/
def removePrefix (pre name : String) : String :=
  if pre.toList.isPrefixOf name.toList then String.ofList (name.toList.drop pre.toList.length) else name

/-- `_string_methods.py:91-103`, `convert_classes_list_to_snake_case`, on class names. -/
def classesToSnake (classes : List String) (wordToRemove : String) : List String :=
  classes.map fun c => snake (removePrefix wordToRemove c)

/-- `CLASSES[convert_classes_list_to_snake_case(CLASSES).index(arg)]` after the argument was validated: a `ValueError` in
the validator or in `.index` for unknown names. -/
def lookup (classes : List String) (wordToRemove arg : String) : Except Err String :=
  if (classesToSnake classes wordToRemove).contains arg then
    match (classesToSnake classes wordToRemove).idxOf? arg with
    | some i => match classes[i]? with
      | some c => .ok c
      | none => .error .indexError
    | none => .error .valueError
  else .error .valueError

/-- `_class_lists.py:47-65`. -/
def FLM : List String :=
  ["Africa", "AxisymmetricWaveletCoefficientsAfrica", "AxisymmetricWaveletCoefficientsEarth",
   "AxisymmetricWaveletCoefficientsSouthAmerica", "AxisymmetricWavelets", "DiracDelta", "Earth", "ElongatedGaussian",
   "Gaussian", "HarmonicGaussian", "Identity", "NoiseEarth", "Ridgelets", "SouthAmerica", "SphericalHarmonic",
   "SquashedGaussian", "Wmap"]

/-- `_class_lists.py:67-78`. -/
def FP : List String :=
  ["Slepian", "SlepianAfrica", "SlepianDiracDelta", "SlepianIdentity", "SlepianNoiseAfrica", "SlepianNoiseSouthAmerica",
   "SlepianSouthAmerica", "SlepianWaveletCoefficientsAfrica", "SlepianWaveletCoefficientsSouthAmerica", "SlepianWavelets"]

/-- `_class_lists.py:80`. -/
def COEFFICIENTS : List String := FLM ++ FP

/-- `_class_lists.py:82-86`. -/
def MAPS_LM : List String := ["Earth", "SouthAmerica", "Wmap"]

/-- `_class_lists.py:88-104`. -/
def MESH_COEFFICIENTS : List String :=
  ["MeshBasisFunctions", "MeshField", "MeshNoiseField", "MeshSlepianField", "MeshSlepianFunctions",
   "MeshSlepianNoiseField", "MeshSlepianWaveletCoefficients", "MeshSlepianWavelets"]

end Sleplet.Strings
