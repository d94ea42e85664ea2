import Mathlib.Logic.Relation
import Mathlib.Logic.Function.Basic
import Mathlib.Data.Fintype.Basic
import Verif.Model.Common

/-!
Model of `with concurrent.futures.ThreadPoolExecutor(max_workers=ncpu) as e: e.map(func, chunks)`
as used at `slepian/slepian_arbitrary.py:149-150`, `slepian/slepian_polar_cap.py:221-222` and
`meshes/mesh_slepian.py:132-133`.

* `e.map` submits one task per chunk; the `with` block waits for all of them.
* The iterator returned by `e.map` is never consumed, so an exception raised inside a task is stored in its
  future and dropped: the task just stops.
* Tasks share memory; an execution is an arbitrary interleaving of their atomic actions.
-/
namespace Sleplet

/-- One atomic action of a task on shared state `σ` and task-local state `l`; it may raise. -/
abbrev Act (σ l : Type) := σ → l → Except Err (σ × l)

/-- A running task: remaining actions, local variables, and the exception that ended it, if any. -/
structure Task (σ l : Type) where
  rem : List (Act σ l)
  loc : l
  failed : Option Err

/-- One scheduling step: any task with work left performs its next action, or dies raising. -/
inductive Step {σ l : Type} {k : ℕ} : σ × (Fin k → Task σ l) → σ × (Fin k → Task σ l) → Prop
  | run (s s' : σ) (ts : Fin k → Task σ l) (i : Fin k) (a : Act σ l) (rest : List (Act σ l)) (l' : l)
      (hrem : (ts i).rem = a :: rest) (hact : a s (ts i).loc = .ok (s', l')) :
      Step (s, ts) (s', Function.update ts i ⟨rest, l', (ts i).failed⟩)
  | die (s : σ) (ts : Fin k → Task σ l) (i : Fin k) (a : Act σ l) (rest : List (Act σ l)) (e : Err)
      (hrem : (ts i).rem = a :: rest) (hact : a s (ts i).loc = .error e) :
      Step (s, ts) (s, Function.update ts i ⟨[], (ts i).loc, some e⟩)

/-- All tasks have finished (normally or by an exception): the `with` block exits. -/
def AllDone {σ l : Type} {k : ℕ} (ts : Fin k → Task σ l) : Prop := ∀ i, (ts i).rem = []

/-- The initial tasks, one per program. -/
def startTasks {σ l : Type} {k : ℕ} (progs : Fin k → List (Act σ l)) (l0 : l) : Fin k → Task σ l :=
  fun i => ⟨progs i, l0, none⟩

/-- `PoolRun progs l0 s s' ts'`: some schedule takes the pool from shared state `s` to completion in `s'`. -/
def PoolRun {σ l : Type} {k : ℕ} (progs : Fin k → List (Act σ l)) (l0 : l) (s s' : σ)
    (ts' : Fin k → Task σ l) : Prop :=
  Relation.ReflTransGen Step (s, startTasks progs l0) (s', ts') ∧ AllDone ts'

end Sleplet
