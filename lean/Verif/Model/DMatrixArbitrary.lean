import Mathlib.Data.Complex.BigOperators
import Verif.Model.Executor
import Verif.Model.Parallel
import Verif.Model.HarmonicIndex

/-!
Model of the concentration matrix of an arbitrary region:
`slepian/slepian_arbitrary.py:105-214`, `_array_methods.py:7-10`, `_integration_methods.py:33-40`.
-/
namespace Sleplet.Arb

variable {Pix : Type}

/-- A field on the sampled sphere. -/
abbrev Field (Pix : Type) := Pix → ℂ

/-- What the construction depends on: the bandlimit, the mask and weights on the boosted grid and the (external)
inverse transform of the `x`-th spherical harmonic, which may raise (e.g. out of memory). -/
structure Params (Pix : Type) where
  L : ℕ
  mask : Pix → ℝ
  weight : Pix → ℝ
  /-- `slepian_arbitrary.py:198-202`: `invert_flm_boosted(_create_spherical_harmonic(L, x), L, resolution)`. -/
  fieldOf : ℕ → Except Err (Field Pix)

/-- `_integration_methods.py:33-40`: `(f * g * weight * mask).sum()`. -/
noncomputable def integrateRegion [Fintype Pix] (P : Params Pix) (f g : Field Pix) : ℂ :=
  ∑ p, f p * g p * (P.weight p : ℂ) * (P.mask p : ℂ)

/-- Shared state of the tasks: the dictionary `self._fields` and the two shared-memory matrices
(`slepian_arbitrary.py:110-117`). -/
structure Shared (Pix : Type) where
  fields : ℕ → Option (Field Pix)
  dr : ℕ → ℕ → ℝ
  di : ℕ → ℕ → ℝ

/-- Local variables of a task: outcome of a membership test, the two operands read from the dictionary, and
the variable `integral`. -/
structure Local (Pix : Type) where
  missing : Bool
  fa : Field Pix
  fb : Field Pix
  integral : ℂ

/-- matrix element assignment `D[j][i] = v`. -/
def setEntry (D : ℕ → ℕ → ℝ) (j i : ℕ) (v : ℝ) : ℕ → ℕ → ℝ :=
  fun a b => if a = j ∧ b = i then v else D a b

abbrev A (Pix : Type) := Act (Shared Pix) (Local Pix)

/-- `slepian_arbitrary.py:197,203`: `if x not in self._fields`. -/
def checkField (x : ℕ) : A Pix := fun s l => .ok (s, { l with missing := (s.fields x).isNone })

/-- `slepian_arbitrary.py:198-202,204-208`: `self._fields[x] = …`, only when the test said so. -/
def storeField (P : Params Pix) (x : ℕ) : A Pix := fun s l =>
  if l.missing then
    match P.fieldOf x with
    | .ok f => .ok ({ s with fields := Function.update s.fields x (some f) }, l)
    | .error e => .error e
  else .ok (s, l)

/-- `slepian_arbitrary.py:212`: `self._fields[i]`. -/
def readA (x : ℕ) : A Pix := fun s l =>
  match s.fields x with
  | some f => .ok (s, { l with fa := f })
  | none => .error .keyError

/-- `slepian_arbitrary.py:213`: `self._fields[j]`. -/
def readB (x : ℕ) : A Pix := fun s l =>
  match s.fields x with
  | some f => .ok (s, { l with fb := f })
  | none => .error .keyError

/-- `slepian_arbitrary.py:209-214`: the integral of `fields[i] * fields[j].conj()`. -/
noncomputable def evalIntegral [Fintype Pix] (P : Params Pix) : A Pix := fun s l =>
  .ok (s, { l with integral := integrateRegion P l.fa (fun p => (starRingEnd ℂ) (l.fb p)) })

/-- `slepian_arbitrary.py:195-214`, `_integral(i, j)`, as atomic actions. -/
noncomputable def integralActs [Fintype Pix] (P : Params Pix) (i j : ℕ) : List (A Pix) :=
  [checkField i, storeField P i, checkField j, storeField P j, readA i, readB j, evalIntegral P]

/-- `D_r[j][i] = integral.real`. -/
def writeR (j i : ℕ) : A Pix := fun s l => .ok ({ s with dr := setEntry s.dr j i l.integral.re }, l)

/-- `D_i[j][i] = integral.imag`. -/
def writeI (j i : ℕ) : A Pix := fun s l => .ok ({ s with di := setEntry s.di j i l.integral.im }, l)

/-- `slepian_arbitrary.py:188`: `D_r[k][i] = (-1) ** m_j * D_r[j][i]`. -/
noncomputable def mirrorR (k j i : ℕ) (m : ℤ) : A Pix := fun s l =>
  .ok ({ s with dr := setEntry s.dr k i ((-1 : ℝ) ^ m * s.dr j i) }, l)

/-- `slepian_arbitrary.py:189`: `D_i[k][i] = (-1) ** (m_j + 1) * D_i[j][i]`. -/
noncomputable def mirrorI (k j i : ℕ) (m : ℤ) : A Pix := fun s l =>
  .ok ({ s with di := setEntry s.di k i ((-1 : ℝ) ^ (m + 1) * s.di j i) }, l)

/-- `slepian_arbitrary.py:178-193`: the loop body for one `j`. -/
noncomputable def rowActs [Fintype Pix] (P : Params Pix) (i j : ℕ) : List (A Pix) :=
  if (ind2elm i).2 = 0 ∧ (ind2elm j).2 ≠ 0 ∧ (ind2elm j).1 < P.L then
    if (ind2elm j).2 > 0 then
      integralActs P j i ++ [writeR j i, writeI j i,
        mirrorR (elm2ind (ind2elm j).1 (-(ind2elm j).2)) j i (ind2elm j).2,
        mirrorI (elm2ind (ind2elm j).1 (-(ind2elm j).2)) j i (ind2elm j).2]
    else []
  else integralActs P j i ++ [writeR j i, writeI j i]

/-- `slepian_arbitrary.py:160-193`, `_matrix_helper(D_r, D_i, i)`. -/
noncomputable def matrixHelper [Fintype Pix] (P : Params Pix) (i : ℕ) : List (A Pix) :=
  integralActs P i i ++ [writeR i i, writeI i i] ++
    ((List.range (P.L ^ 2)).drop (i + 1)).flatMap (rowActs P i)

/-- `slepian_arbitrary.py:119-137`: the task run on one chunk. -/
noncomputable def chunkProgram [Fintype Pix] (P : Params Pix) (chunk : List ℕ) : List (A Pix) :=
  chunk.flatMap (matrixHelper P)

/-- `slepian_arbitrary.py:110-117`: empty dictionary, zero matrices. -/
def initShared : Shared Pix := ⟨fun _ => none, fun _ _ => 0, fun _ _ => 0⟩

/-- local variables before anything is assigned (never read before being written). -/
def initLocal : Local Pix := ⟨false, fun _ => 0, fun _ => 0, 0⟩

/-- `_array_methods.py:7-10`: `matrix[i_upper] = matrix.T[i_upper].conj()` with strict upper indices. -/
noncomputable def fillUpper (M : ℕ → ℕ → ℂ) : ℕ → ℕ → ℂ :=
  fun a b => if a < b then (starRingEnd ℂ) (M b a) else M a b

/-- One task per chunk (`slepian_arbitrary.py:140-150`). -/
noncomputable def programs [Fintype Pix] (P : Params Pix) (ncpu : ℕ) : Fin ncpu → List (A Pix) :=
  fun t => chunkProgram P ((Parallel.splitArrIntoChunks (P.L ^ 2) ncpu).getD t [])

/-- `CreatesD P ncpu we r`: some schedule makes `_create_D_matrix` followed by the triangle fill
(`slepian_arbitrary.py:89-92,105-158`) return `r`, with `we t` the exception stored in the future of task `t`
(never looked at by the code).  `ThreadPoolExecutor(max_workers=0)` raises `ValueError`; otherwise the pool runs to
completion and `D_r + 1j * D_i` is filled and returned. -/
inductive CreatesD [Fintype Pix] (P : Params Pix) : ℕ → (ℕ → Option Err) → Except Err (ℕ → ℕ → ℂ) → Prop
  | noWorkers : CreatesD P 0 (fun _ => none) (.error .valueError)
  | run (ncpu : ℕ) (hpos : 1 ≤ ncpu) (s' : Shared Pix) (ts' : Fin ncpu → Task (Shared Pix) (Local Pix))
      (h : PoolRun (programs P ncpu) initLocal initShared s' ts') :
      CreatesD P ncpu (fun t => if ht : t < ncpu then (ts' ⟨t, ht⟩).failed else none)
        (.ok (fillUpper fun a b => (s'.dr a b : ℂ) + Complex.I * (s'.di a b : ℂ)))

end Sleplet.Arb
