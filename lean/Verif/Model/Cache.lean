import Mathlib.Data.Complex.Basic
import Verif.Model.Region

/-!
The cache of eigensolutions: `_data/setup_pooch.py:57-80`, `slepian_arbitrary.py:67-103`, `slepian_limit_lat_lon.py:64-83`,
`slepian_polar_cap.py:68-138`, inside the constructor `slepian_functions.py:53-64`.

A constructor is a program of file loads and saves; processes run such programs concurrently over one data directory and
can be killed at any point.  Simplifications: looking a file up and opening it is one step (nothing in the package
deletes files); downloads of published files succeed; the numerical work between loads and saves is a deterministic
function of the problem and does not raise.
-/
namespace Sleplet.Cache

open Sleplet.Region

/-- contents of an `.npy` file; `torn e`: an incomplete file, on which `np.load` raises `e`. -/
inductive File
  | evals (w : List ℝ)
  | evecs (v : List (List ℂ))
  | orders (o : List ℤ)
  | torn (e : Err)

/-- the published files (the registry and what fetching a name gives) and the user's data directory. -/
structure FS where
  registry : String → Option File
  user : String → Option File

/-- where a lookup points. -/
inductive Path
  | pooch (name : String)
  | user (name : String)
  deriving DecidableEq

/-- `_data/setup_pooch.py:57-80`, `find_on_pooch_then_local`. -/
def find (fs : FS) (name : String) : Option Path :=
  if (fs.registry name).isSome then some (.pooch name)
  else if (fs.user name).isSome then some (.user name)
  else none

/-- the file at a path. -/
def FS.read (fs : FS) : Path → Option File
  | .pooch n => fs.registry n
  | .user n => fs.user n

/-- `np.load(path)`: `TypeError` for `None`. -/
def npLoad (fs : FS) : Option Path → Except Err File
  | none => .error .typeError
  | some p => match fs.read p with
    | some (.torn e) => .error e
    | some f => .ok f
    | none => .error .valueError

/-- what a constructor ends with: `eigenvalues`, `eigenvectors` and (polar caps) `order`. -/
structure Result where
  evals : File
  evecs : File
  orders : Option File

/-- a program of loads and saves. -/
inductive Prog
  | done (r : Except Err Result)
  | load (name : String) (next : Except Err File → Prog)
  | save (name : String) (f : File) (next : Prog)

/-- Python slice `xs[:n]`. -/
def slice {α : Type} (xs : List α) (n : ℤ) : List α :=
  if 0 ≤ n then xs.take n.toNat else xs.take (xs.length - n.natAbs)

/-- `_L_SAVE_ALL`, `slepian_polar_cap.py:29`. -/
def lSaveAll : ℕ := 16

def evalFile (loc : String) : String := loc ++ "_eigenvalues.npy"
def evecFile (loc : String) : String := loc ++ "_eigenvectors.npy"
def orderFile (loc : String) : String := loc ++ "_orders.npy"

/-- `slepian_arbitrary.py:67-103` and `slepian_limit_lat_lon.py:64-83`: load both files, else compute and save. -/
noncomputable def solvePlain (loc : String) (N : ℤ) (w : List ℝ) (v : List (List ℂ)) : Prog :=
  let scratch : Prog := .save (evalFile loc) (.evals w) <| .save (evecFile loc) (.evecs (slice v N)) <|
    .done (.ok ⟨.evals w, .evecs v, none⟩)
  .load (evalFile loc) fun
    | .error .typeError => scratch
    | .error e => .done (.error e)
    | .ok ev => .load (evecFile loc) fun
      | .error .typeError => scratch
      | .error e => .done (.error e)
      | .ok evec => .done (.ok ⟨ev, evec, none⟩)

/-- `a[np.where(orders == m)]`: the entries at the positions of order `m`, `IndexError` when one is out of range. -/
def gather {α : Type} (a : List α) (orders : List ℤ) (m : ℤ) : Except Err (List α) :=
  ((List.range orders.length).filter fun p => decide (orders[p]? = some m)).mapM fun p =>
    match a[p]? with
    | some x => .ok x
    | none => .error .indexError

/-- `slepian_polar_cap.py:103-107`: the end of `_solve_eigenproblem_from_files`. -/
noncomputable def selectOrder (order : Option ℤ) (ev evec ord : File) : Except Err Result :=
  match order with
  | none => .ok ⟨ev, evec, some ord⟩
  | some m => match ev, evec, ord with
    | .evals w, .evecs v, .orders o => do
      let w' ← gather w o m
      let v' ← gather v o m
      return ⟨.evals w', .evecs v', none⟩
    | _, _, _ => .error .valueError

/-- `slepian_polar_cap.py:68-138`.  `single m` is the solution of one order, `w, v, o` that of all orders. -/
noncomputable def solvePolar (loc : String) (L : ℕ) (N : ℤ) (order : Option ℤ) (w : List ℝ) (v : List (List ℂ)) (o : List ℤ)
    (single : ℤ → List ℝ × List (List ℂ)) : Prog :=
  let scratch : Prog := match order with
    | some m => .done (.ok ⟨.evals (single m).1, .evecs (single m).2, none⟩)
    | none => .save (evalFile loc) (.evals w) <|
      .save (evecFile loc) (.evecs (if L > lSaveAll then slice v N else v)) <|
      .save (orderFile loc) (.orders o) <| .done (.ok ⟨.evals w, .evecs v, some (.orders o)⟩)
  .load (evalFile loc) fun
    | .error .typeError => scratch
    | .error e => .done (.error e)
    | .ok ev => .load (evecFile loc) fun
      | .error .typeError => scratch
      | .error e => .done (.error e)
      | .ok evec => .load (orderFile loc) fun
        | .error .typeError => scratch
        | .error e => .done (.error e)
        | .ok ord => .done (selectOrder order ev evec ord)

/-- the numerical part: areas of named masks, solutions of whole problems, solutions of single orders. -/
structure Env where
  maskArea : String → ℕ → ℝ
  solve : Slepian → List ℝ × List (List ℂ) × List ℤ
  solveOrder : Slepian → ℤ → List ℝ × List (List ℂ)

/-- a construction: `SlepianPolarCap(..., order=order)` and so on (`order` only for polar caps). -/
structure Job where
  s : Slepian
  order : Option ℤ := none

noncomputable def Env.area (env : Env) : Slepian → ℝ
  | .arbitrary L m => env.maskArea m L
  | _ => 0

noncomputable def Env.shannon (env : Env) (s : Slepian) : ℤ := s.shannon (env.area s)

/-- `self.matrix_location`. -/
noncomputable def Env.location (env : Env) (s : Slepian) (r : Obj) : String := matrixLocation (env.area s) s r

/-- `slepian_polar_cap.py:403-412`: the order validator rejects. -/
def badOrder (L : ℕ) : Option ℤ → Bool
  | some m => decide (m.natAbs ≥ L)
  | none => false

/-- the constructor: validators, region, Shannon number, location, eigenproblem (`slepian_functions.py:53-64`). -/
noncomputable def construct (env : Env) (j : Job) : Prog :=
  match j.s.validate with
  | .error e => .done (.error e)
  | .ok _ =>
    match j.s.createRegion with
    | .error e => .done (.error e)
    | .ok r =>
      match j.s with
      | .polarCap L _ _ =>
        if badOrder L j.order then .done (.error .valueError)
        else solvePolar (env.location j.s r) L (env.shannon j.s) j.order (env.solve j.s).1 (env.solve j.s).2.1 (env.solve j.s).2.2
          (env.solveOrder j.s)
      | _ => solvePlain (env.location j.s r) (env.shannon j.s) (env.solve j.s).1 (env.solve j.s).2.1

/-! ### processes -/

/-- a process: about to do the next operation of its program, or in the middle of a save. -/
inductive Proc
  | running (p : Prog)
  | saving (name : String) (f : File) (next : Prog)

structure State where
  fs : FS
  procs : List (Job × Proc)

def FS.write (fs : FS) (name : String) (f : Option File) : FS :=
  { fs with user := fun n => if n = name then f else fs.user n }

/-- one step of the system.  While a save is under way the file can be torn, again and again (concurrent writers
truncate); `np.save` is not atomic.  `allowed` restricts which constructions are started, `killable` when a process can be
killed. -/
inductive Step (env : Env) (allowed : Job → Prop) (killable : Proc → Prop) : State → State → Prop
  | spawn (fs : FS) (ps : List (Job × Proc)) (j : Job) : allowed j →
      Step env allowed killable ⟨fs, ps⟩ ⟨fs, ps ++ [(j, .running (construct env j))]⟩
  | load (fs : FS) (ps : List (Job × Proc)) (i : ℕ) (j : Job) (n : String) (k : Except Err File → Prog) :
      ps[i]? = some (j, .running (.load n k)) →
      Step env allowed killable ⟨fs, ps⟩ ⟨fs, ps.set i (j, .running (k (npLoad fs (find fs n))))⟩
  | beginSave (fs : FS) (ps : List (Job × Proc)) (i : ℕ) (j : Job) (n : String) (f : File) (p : Prog) (e : Err) :
      ps[i]? = some (j, .running (.save n f p)) →
      Step env allowed killable ⟨fs, ps⟩ ⟨fs.write n (some (.torn e)), ps.set i (j, .saving n f p)⟩
  | tear (fs : FS) (ps : List (Job × Proc)) (i : ℕ) (j : Job) (n : String) (f : File) (p : Prog) (e : Err) :
      ps[i]? = some (j, .saving n f p) → Step env allowed killable ⟨fs, ps⟩ ⟨fs.write n (some (.torn e)), ps⟩
  | endSave (fs : FS) (ps : List (Job × Proc)) (i : ℕ) (j : Job) (n : String) (f : File) (p : Prog) :
      ps[i]? = some (j, .saving n f p) →
      Step env allowed killable ⟨fs, ps⟩ ⟨fs.write n (some f), ps.set i (j, .running p)⟩
  | kill (fs : FS) (ps : List (Job × Proc)) (i : ℕ) (j : Job) (p : Proc) :
      ps[i]? = some (j, p) → killable p → Step env allowed killable ⟨fs, ps⟩ ⟨fs, ps.eraseIdx i⟩
  | delete (fs : FS) (ps : List (Job × Proc)) (n : String) : Step env allowed killable ⟨fs, ps⟩ ⟨fs.write n none, ps⟩

/-- a program run alone and undisturbed from a file system. -/
def runAlone (fs : FS) : Prog → Except Err Result × FS
  | .done r => (r, fs)
  | .load n k => runAlone fs (k (npLoad fs (find fs n)))
  | .save n f p => runAlone (fs.write n (some f)) p

end Sleplet.Cache
