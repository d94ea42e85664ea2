import Verif.Model.Cache

/-!
The published files and the lookup with its module-level state: `_data/setup_pooch.py:11-80`.

The published registry is external: loading it either succeeds or raises.  One process, one call at a time.
-/
namespace Sleplet.Pooch

/-- The global `_POOCH` (`_data/setup_pooch.py:11`): `none` before the first call, afterwards the names in its registry. -/
abbrev Global := Option (String → Bool)

/-- `_data/setup_pooch.py:42-51`: create the pooch with an empty registry, assign the global, then load the registry.
`attempt` is the exception raised by `load_registry_from_doi()`, if any. -/
def lazyLoad (published : String → Bool) (attempt : Option Err) (g : Global) : Except Err Unit × Global :=
  match g with
  | some r => (.ok (), some r)
  | none => match attempt with
    | none => (.ok (), some published)
    | some e => (.error e, some fun _ => false)

/-- `_data/setup_pooch.py:57-80`, `find_on_pooch_then_local` with its decorator.  `fetch` is the exception raised by the
download, if any; `user` says which files are in the data directory. -/
def find (published : String → Bool) (attempt fetch : Option Err) (user : String → Bool) (name : String) (g : Global) :
    Except Err (Option Cache.Path) × Global :=
  match lazyLoad published attempt g with
  | (.error e, g') => (.error e, g')
  | (.ok _, g') =>
    let registry := g'.getD fun _ => false
    if registry name then
      match fetch with
      | some e => (.error e, g')
      | none => (.ok (some (.pooch name)), g')
    else if user name then (.ok (some (.user name)), g')
    else (.ok none, g')

/-- One call of the lookup and what the network did. -/
structure Call where
  name : String
  attempt : Option Err := none
  fetch : Option Err := none

/-- The global after a sequence of calls. -/
def run (published : String → Bool) (user : String → Bool) : List Call → Global → Global
  | [], g => g
  | c :: cs, g => run published user cs (find published c.attempt c.fetch user c.name g).2

end Sleplet.Pooch
