/- When a makefile in the sense of `Spec/Make.lean` is the one with given targets and candidate rules (`Spec/Setup.lean`). -/
import Verif.Spec.Setup
import Verif.Spec.Make

namespace Jom.Spec.Build

open Jom.Inference Jom.Spec.Blocks Jom.Spec

/-- The same target: name, dependents, whether there are commands, and the files from which a candidate rule would make it. -/
structure Shows (candidates : Str → List Rule) (d : Described) (c : Decl) : Prop where
  name : c.name = d.name
  deps : c.deps = d.deps
  cmds : c.hasCmds = true ↔ d.cmds ≠ []
  rules : ∀ x, x ∈ c.rules ↔ ∃ r ∈ candidates d.name, Source r d.name x

/-- `db` is the makefile with these targets and candidate rules: a name is found iff it is the name of a target, names that differ in more than letter
case and slashes belong to different targets. -/
structure Reflects (target : Str → Option Described) (candidates : Str → List Rule) (dir : Str) (db : Db) : Prop where
  dir : db.dir = dir
  found : ∀ n k, db.lookup n = some k → ∃ d, target n = some d ∧ Shows candidates d (db.target k)
  every : ∀ n d, target n = some d → ∃ k, db.lookup n = some k
  same : ∀ n m k, db.lookup n = some k → (db.lookup m = some k ↔ canon m = canon n)

end Jom.Spec.Build
