import Verif.Model.Cache

/-!
The files of meshes: basis functions (`_mesh_methods.py:65-111`, `meshes/mesh.py:62-92`) and Slepian functions of their region
(`meshes/mesh_slepian.py:44-94`).

As in `Model/Cache.lean` a constructor is a program of loads and saves.  `scipy.sparse.linalg.eigsh` starts from a random vector, so
what it returns is a function of the problem and of the run (`ω`).  Simplifications: the vertices, faces and region of a mesh are
functions of its name; the solution of the region matrix is a function of the basis; published files can always be fetched.
-/
namespace Sleplet.MeshCache

variable {Φ Ω : Type}

/-- contents of an `.npy` file: eigenvalues (of either kind), basis functions, rows of Slepian functions; `torn e`: an incomplete
file, on which `np.load` raises `e`. -/
inductive File (Φ : Type)
  | evals (w : List ℝ)
  | basis (φ : Φ)
  | rows (v : List (List ℝ))
  | torn (e : Err)

/-- the published files and the user's data directory. -/
structure FS (Φ : Type) where
  registry : String → Option (File Φ)
  user : String → Option (File Φ)

/-- the file that `find_on_pooch_then_local` leads to (`_data/setup_pooch.py:57-80`). -/
def FS.get (fs : FS Φ) (n : String) : Option (File Φ) :=
  match fs.registry n with
  | some f => some f
  | none => fs.user n

/-- `np.load(find_on_pooch_then_local(n))`: `TypeError` for `None`. -/
def FS.load (fs : FS Φ) (n : String) : Except Err (File Φ) :=
  match fs.get n with
  | none => .error .typeError
  | some (.torn e) => .error e
  | some f => .ok f

def FS.write (fs : FS Φ) (n : String) (f : Option (File Φ)) : FS Φ :=
  { fs with user := fun m => if m = n then f else fs.user m }

/-- The numerical part.  `vertices` is `vertices.shape[0]` after upsampling, `eigsh` the eigenvalues and the normalised
basis functions, `shannon` is `compute_mesh_shannon`, `solve` the cleaned eigensolution of the region matrix. -/
structure Env (Φ Ω : Type) where
  vertices : String → ℕ
  eigsh : String → ℤ → Ω → Except Err (List ℝ × Φ)
  shannon : String → ℕ → ℤ
  solve : String → Φ → List ℝ × List (List ℝ)

/-- `Mesh(name, number_basis_functions=number)`, and `MeshSlepian` of it if `slepian`; `ω` is the randomness of the run. -/
structure Job (Ω : Type) where
  name : String
  number : Option ℤ
  slepian : Bool
  ω : Ω

/-- the fields `mesh_eigenvalues`, `basis_functions` and `number_basis_functions` of the mesh; `slepian_eigenvalues` and
`slepian_functions` of the Slepian object. -/
structure Result (Φ : Type) where
  evals : List ℝ
  basis : Φ
  number : ℤ
  slepian : Option (List ℝ × List (List ℝ))

/-- a program of loads and saves. -/
inductive Prog (Φ : Type)
  | done (r : Except Err (Result Φ))
  | load (name : String) (next : Except Err (File Φ) → Prog Φ)
  | save (name : String) (f : File Φ) (next : Prog Φ)

/-- `_mesh_methods.py:86-88`. -/
def basisLoc (name : String) (k : ℤ) : String := "meshes_laplacians_basis_functions_" ++ name ++ "_b" ++ toString k

/-- `meshes/mesh_slepian.py:53-58`. -/
def slepianLoc (name : String) (K : ℕ) (N : ℤ) : String :=
  "meshes_laplacians_slepian_functions_" ++ name ++ "_b" ++ toString K ++ "_N" ++ toString N

/-- `_mesh_methods.py:77-78`. -/
def Env.number (env : Env Φ Ω) (j : Job Ω) : ℤ :=
  match j.number with
  | some k => k
  | none => ((env.vertices j.name / 4 : ℕ) : ℤ)

/-- `meshes/mesh_slepian.py:44-94`.  Another kind of array under these names cannot be loaded (see `C79_file_names`). -/
noncomputable def slepianProg (env : Env Φ Ω) (name : String) (k : ℤ) (w : List ℝ) (φ : Φ) : Prog Φ :=
  let N := env.shannon name w.length
  let loc := slepianLoc name w.length N
  let scratch : Prog Φ :=
    .save (Cache.evalFile loc) (.evals (env.solve name φ).1) <|
    .save (Cache.evecFile loc) (.rows (Cache.slice (env.solve name φ).2 N)) <|
    .done (.ok ⟨w, φ, k, some ((env.solve name φ).1, (env.solve name φ).2)⟩)
  .load (Cache.evalFile loc) fun
    | .error .typeError => scratch
    | .error e => .done (.error e)
    | .ok (.evals u) => .load (Cache.evecFile loc) fun
      | .error .typeError => scratch
      | .error e => .done (.error e)
      | .ok (.rows v) => .done (.ok ⟨w, φ, k, some (u, v)⟩)
      | .ok _ => .done (.error .valueError)
    | .ok _ => .done (.error .valueError)

/-- what follows the eigendecomposition of the mesh. -/
noncomputable def afterMesh (env : Env Φ Ω) (j : Job Ω) (w : List ℝ) (φ : Φ) : Prog Φ :=
  if j.slepian then slepianProg env j.name (env.number j) w φ else .done (.ok ⟨w, φ, env.number j, none⟩)

/-- `_mesh_methods.py:65-111` inside `meshes/mesh.py:62-92`, then `meshes/mesh_slepian.py:44-94`. -/
noncomputable def construct (env : Env Φ Ω) (j : Job Ω) : Prog Φ :=
  let k := env.number j
  let loc := basisLoc j.name k
  let scratch : Prog Φ := match env.eigsh j.name k j.ω with
    | .error e => .done (.error e)
    | .ok (w, φ) =>
      .save (Cache.evalFile loc) (.evals w) <| .save (Cache.evecFile loc) (.basis φ) <| afterMesh env j w φ
  .load (Cache.evalFile loc) fun
    | .error .typeError => scratch
    | .error e => .done (.error e)
    | .ok (.evals w) => .load (Cache.evecFile loc) fun
      | .error .typeError => scratch
      | .error e => .done (.error e)
      | .ok (.basis φ) => afterMesh env j w φ
      | .ok _ => .done (.error .valueError)
    | .ok _ => .done (.error .valueError)

/-! ### processes -/

/-- a process: about to do the next operation of its program, or in the middle of a save. -/
inductive Proc (Φ : Type)
  | running (p : Prog Φ)
  | saving (name : String) (f : File Φ) (next : Prog Φ)

structure State (Φ Ω : Type) where
  fs : FS Φ
  procs : List (Job Ω × Proc Φ)

/-- one step of the system, as in `Model/Cache.lean`; `deletable` says which files the user may delete. -/
inductive Step (env : Env Φ Ω) (deletable : String → Prop) : State Φ Ω → State Φ Ω → Prop
  | spawn (fs : FS Φ) (ps : List (Job Ω × Proc Φ)) (j : Job Ω) :
      Step env deletable ⟨fs, ps⟩ ⟨fs, ps ++ [(j, .running (construct env j))]⟩
  | load (fs : FS Φ) (ps : List (Job Ω × Proc Φ)) (i : ℕ) (j : Job Ω) (n : String) (k : Except Err (File Φ) → Prog Φ) :
      ps[i]? = some (j, .running (.load n k)) →
      Step env deletable ⟨fs, ps⟩ ⟨fs, ps.set i (j, .running (k (fs.load n)))⟩
  | beginSave (fs : FS Φ) (ps : List (Job Ω × Proc Φ)) (i : ℕ) (j : Job Ω) (n : String) (f : File Φ) (p : Prog Φ) (e : Err) :
      ps[i]? = some (j, .running (.save n f p)) →
      Step env deletable ⟨fs, ps⟩ ⟨fs.write n (some (.torn e)), ps.set i (j, .saving n f p)⟩
  | tear (fs : FS Φ) (ps : List (Job Ω × Proc Φ)) (i : ℕ) (j : Job Ω) (n : String) (f : File Φ) (p : Prog Φ) (e : Err) :
      ps[i]? = some (j, .saving n f p) → Step env deletable ⟨fs, ps⟩ ⟨fs.write n (some (.torn e)), ps⟩
  | endSave (fs : FS Φ) (ps : List (Job Ω × Proc Φ)) (i : ℕ) (j : Job Ω) (n : String) (f : File Φ) (p : Prog Φ) :
      ps[i]? = some (j, .saving n f p) →
      Step env deletable ⟨fs, ps⟩ ⟨fs.write n (some f), ps.set i (j, .running p)⟩
  | kill (fs : FS Φ) (ps : List (Job Ω × Proc Φ)) (i : ℕ) (j : Job Ω) (p : Proc Φ) :
      ps[i]? = some (j, p) → Step env deletable ⟨fs, ps⟩ ⟨fs, ps.eraseIdx i⟩
  | delete (fs : FS Φ) (ps : List (Job Ω × Proc Φ)) (n : String) : deletable n →
      Step env deletable ⟨fs, ps⟩ ⟨fs.write n none, ps⟩

/-- a program run alone and undisturbed from a file system. -/
def runAlone (fs : FS Φ) : Prog Φ → Except Err (Result Φ) × FS Φ
  | .done r => (r, fs)
  | .load n k => runAlone fs (k (fs.load n))
  | .save n f p => runAlone (fs.write n (some f)) p

/-- the files after the first `s` operations of a program run alone. -/
def runFor (fs : FS Φ) : Prog Φ → ℕ → FS Φ
  | _, 0 => fs
  | .done _, _ + 1 => fs
  | .load n k, s + 1 => runFor fs (k (fs.load n)) s
  | .save n f p, s + 1 => runFor (fs.write n (some f)) p s

end Sleplet.MeshCache
