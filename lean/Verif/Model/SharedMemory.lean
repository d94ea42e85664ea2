import Mathlib.Logic.Function.Basic
import Mathlib.Data.Nat.Notation
import Mathlib.Data.Int.Basic
import Verif.Model.Common

/-!
Life of the shared memory blocks behind the matrices built in parallel: `_parallel_methods.py:14-57` and its users
(`slepian/slepian_polar_cap.py:189-230`, `slepian/slepian_arbitrary.py:112-158`, `meshes/mesh_slepian.py:96-141`).

A build is the list of what happens to the blocks: created, attached to, read or written through a handle, handle closed, block
unlinked.  What is written is the subject of C03 and its relatives and left out here.  Creation fails only for size zero; a handle that
is dropped without being closed stays open.
-/
namespace Sleplet.Shm

/-- a handle belongs to the main thread (`shm_ext`) or to a worker (`shm_int`). -/
abbrev Handle := Option ℕ

inductive Ev
  | create (b : ℕ)
  | attach (w b : ℕ)
  | touch (h : Handle) (b : ℕ)
  | close (h : Handle) (b : ℕ)
  | unlink (b : ℕ)
  deriving DecidableEq

structure St where
  exist : ℕ → Bool
  opened : Handle → ℕ → Bool

def St.init : St := ⟨fun _ => false, fun _ _ => false⟩

/-- The effect of an event; `none` for what must not happen: attaching to or unlinking a block that is gone raises
`FileNotFoundError`, access through a closed handle is a segmentation fault. -/
def Ev.apply (s : St) : Ev → Option St
  | .create b => if s.exist b then none else
      some ⟨Function.update s.exist b true, Function.update s.opened none (Function.update (s.opened none) b true)⟩
  | .attach w b => if s.exist b then
      some ⟨s.exist, Function.update s.opened (some w) (Function.update (s.opened (some w)) b true)⟩ else none
  | .touch h b => if s.opened h b then some s else none
  | .close h b => some ⟨s.exist, Function.update s.opened h (Function.update (s.opened h) b false)⟩
  | .unlink b => if s.exist b then some ⟨Function.update s.exist b false, s.opened⟩ else none

def run (s : St) : List Ev → Option St
  | [] => some s
  | e :: es => (e.apply s).bind fun s' => run s' es

/-- `func(chunk)`: attach to the blocks, work, close the handles.  `work` is the sequence of accesses made; `raised` says that it
ended in an exception, which skips the closing. -/
def worker (blocks : ℕ) (w : ℕ) (work : List ℕ) (raised : Bool) : List Ev :=
  (List.range blocks).map (Ev.attach w) ++ work.map (Ev.touch (some w)) ++
    if raised then [] else (List.range blocks).map (Ev.close (some w))

/-- an interleaving of the programs of the workers. -/
inductive Shuffle : (ℕ → List Ev) → List Ev → Prop
  | nil (ps : ℕ → List Ev) : (∀ w, ps w = []) → Shuffle ps []
  | cons (ps : ℕ → List Ev) (w : ℕ) (e : Ev) (rest t : List Ev) : ps w = e :: rest → Shuffle (Function.update ps w rest) t →
      Shuffle ps (e :: t)

/-- `create_shared_memory_array` for each size in turn: `SharedMemory(create=True, size=0)` raises `ValueError`. -/
def createAll : ℕ → List ℕ → List Ev × Except Err Unit
  | _, [] => ([], .ok ())
  | b, size :: sizes => if size = 0 then ([], .error .valueError) else
      let r := createAll (b + 1) sizes
      (.create b :: r.1, r.2)

/-- `int(os.getenv("NCPU", "4"))`; `toInt` is Python's `int` on strings. -/
def ncpuOf (toInt : String → Option ℤ) (env : Option String) : Except Err ℤ :=
  match toInt (env.getD "4") with
  | some n => .ok n
  | none => .error .valueError

/-- A build: blocks created, `NCPU` read, pool started (`ValueError` unless `max_workers` is positive), workers run, result
read, handles closed, blocks unlinked.  `work w` is what worker `w` does and whether it raises. -/
inductive Builds (sizes : List ℕ) (ncpu : Except Err ℤ) (work : ℕ → List ℕ × Bool) : List Ev → Except Err Unit → Prop
  | creation (t : List Ev) (e : Err) : createAll 0 sizes = (t, .error e) → Builds sizes ncpu work t (.error e)
  | environment (t : List Ev) (e : Err) : createAll 0 sizes = (t, .ok ()) → ncpu = .error e → Builds sizes ncpu work t (.error e)
  | pool (t : List Ev) (n : ℤ) : createAll 0 sizes = (t, .ok ()) → ncpu = .ok n → n ≤ 0 → Builds sizes ncpu work t (.error .valueError)
  | done (t u : List Ev) (n : ℤ) : createAll 0 sizes = (t, .ok ()) → ncpu = .ok n → 0 < n →
      Shuffle (fun w => if (w : ℤ) < n then worker sizes.length w (work w).1 (work w).2 else []) u →
      Builds sizes ncpu work (t ++ u ++ (List.range sizes.length).map (Ev.touch none) ++
        (List.range sizes.length).map (Ev.close none) ++ (List.range sizes.length).map Ev.unlink) (.ok ())

/-- `array.nbytes` of the matrices: order `m` of a polar cap (`slepian_polar_cap.py:189`), real and imaginary part for a
mask (`slepian_arbitrary.py:113-114`), mesh (`mesh_slepian.py:100-102`). -/
def polarSizes (L m : ℕ) : List ℕ := [8 * (L - m) * (L - m)]
def arbitrarySizes (L : ℕ) : List ℕ := [8 * L ^ 2 * L ^ 2, 8 * L ^ 2 * L ^ 2]
def meshSizes (K : ℕ) : List ℕ := [8 * K * K]

end Sleplet.Shm
