import Verif.Model.Pooch

/-!
C74: lookups of data files prefer the published ones, until loading the registry fails once.
-/
namespace Sleplet.Props

open Pooch

/-- What a lookup should answer when the network works. -/
def LookupSpec (published user : String → Bool) (name : String) (answer : Option Cache.Path) : Prop :=
  (published name = true → answer = some (.pooch name)) ∧
  (published name = false → user name = true → answer = some (.user name)) ∧
  (published name = false → user name = false → answer = none)

private theorem run_loaded (published user : String → Bool) (r : String → Bool) : ∀ calls : List Call,
    run published user calls (some r) = some r := by
  intro calls
  induction calls with
  | nil => rfl
  | cons c cs ih =>
    rw [run]
    have : (find published c.attempt c.fetch user c.name (some r)).2 = some r := by
      unfold find
      simp only [lazyLoad]
      split_ifs
      · split <;> rfl
      · rfl
      · rfl
    rw [this, ih]

private theorem find_loaded (published user r : String → Bool) (attempt : Option Err) (name : String) :
    (find published attempt none user name (some r)).1 =
      .ok (if r name then some (.pooch name) else if user name then some (.user name) else none) := by
  unfold find
  simp only [lazyLoad, Option.getD_some]
  split_ifs <;> rfl

private theorem after_one (published user : String → Bool) (c : Call) :
    (find published c.attempt c.fetch user c.name none).2 = some (if c.attempt = none then published else fun _ => false) := by
  unfold find
  cases h : c.attempt with
  | some e => simp [lazyLoad]
  | none =>
    simp only [lazyLoad, if_true, Option.getD_some]
    split_ifs
    · split <;> rfl
    · rfl
    · rfl

/-- C74, where it holds: if the registry could be loaded when it was first needed, every later lookup answers the published file, else
the user's file, else nothing, whatever the calls between, also if some of their downloads failed. -/
theorem C74_lookup_partial (published user : String → Bool) (calls : List Call)
    (h : ∀ c, calls.head? = some c → c.attempt = none) (name : String) (attempt : Option Err) (ha : calls = [] → attempt = none) :
    ∃ answer, (find published attempt none user name (run published user calls none)).1 = .ok answer ∧
      LookupSpec published user name answer := by
  have hspec : LookupSpec published user name
      (if published name then some (.pooch name) else if user name then some (.user name) else none) := by
    refine ⟨fun h => by simp [h], fun h h' => by simp [h, h'], fun h h' => by simp [h, h']⟩
  cases calls with
  | nil =>
    rw [ha rfl]
    refine ⟨_, ?_, hspec⟩
    simp only [run, find, lazyLoad, Option.getD_some]
    split_ifs <;> rfl
  | cons c cs =>
    have hc := h c rfl
    refine ⟨_, ?_, hspec⟩
    rw [run, after_one, hc, if_pos rfl, run_loaded, find_loaded]

/-- C74: failures are reported by the call in which they happen: a failed registry as its exception, and a failed download of a
published file as that exception. -/
theorem C74_failures (published user : String → Bool) (name : String) (e : Err) :
    (∀ fetch, (find published (some e) fetch user name none).1 = .error e) ∧
    (published name = true → (find published none (some e) user name none).1 = .error e) := by
  refine ⟨fun fetch => rfl, fun h => ?_⟩
  simp [find, lazyLoad, h]

/-- C74 is violated after loading the registry has failed once: in the rest of the process no published file is found any more, even
though the network works again; the user's file is taken, or the data are computed, without any sign. -/
theorem C74_registry_violation (published user : String → Bool) (first : Call) (e : Err) (he : first.attempt = some e)
    (calls : List Call) (name : String) (hname : published name = true) :
    ∃ answer, (find published none none user name (run published user (first :: calls) none)).1 = .ok answer ∧
      ¬ LookupSpec published user name answer ∧
      (user name = true → answer = some (.user name)) ∧ (user name = false → answer = none) := by
  refine ⟨if user name then some (.user name) else none, ?_, ?_, ?_, ?_⟩
  · rw [run, after_one, he, if_neg (by simp), run_loaded, find_loaded]
    simp
  · intro hs
    have := hs.1 hname
    split_ifs at this
    cases this
  · intro h; simp [h]
  · intro h; simp [h]

/-- the hypotheses of C74 are met: the network fails during the first lookup only. -/
example : ∃ (published user : String → Bool) (first : Call), published "earth.mat" = true ∧ user "earth.mat" = false ∧
    first.attempt = some .runtimeError ∧
    (find published none none user "earth.mat" (run published user [first] none)).1 = .ok none ∧
    (find published none none user "earth.mat" none).1 = .ok (some (.pooch "earth.mat")) := by
  refine ⟨fun n => n == "earth.mat", fun _ => false, ⟨"earth.mat", some .runtimeError, none⟩, by decide, rfl, rfl, rfl, rfl⟩

end Sleplet.Props
