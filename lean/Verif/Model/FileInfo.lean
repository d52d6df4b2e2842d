/-
Model of the file information cache `FastFileInfo` (src/jomlib/fastfileinfo.cpp).

A file attribute record is reduced to the time of the last write; "attributes invalid" is `none`.
`abs` stands for `QDir::toNativeSeparators(QFileInfo(name).absoluteFilePath())` followed by whatever the file
system does to find the file (letter case, `.` and `..`): it maps a name to the file it denotes.
-/
import Verif.QtStr

namespace Jom.FileInfo

/-- The disk (time of every existing file) and the static `fadHash` (fastfileinfo.cpp 55). -/
structure St where
  disk : Str → Option Nat
  cache : List (Str × Nat)

/-- `QHash::value` of `fadHash`. -/
def cached (name : Str) : List (Str × Nat) → Option Nat
  | [] => none
  | (n, t) :: r => if n = name then some t else cached name r

/-- Constructor `FastFileInfo(fileName)`: fastfileinfo.cpp 57-77. The answer is what `exists()` and
`lastModified()` report (fastfileinfo.cpp 79-92). -/
def query (abs : Str → Str) (name : Str) (s : St) : St × Option Nat :=
  match cached name s.cache with
  | some t => (s, some t)
  | none =>
    match s.disk (abs name) with
    | none => (s, none)
    | some t => ({ s with cache := (name, t) :: s.cache }, some t)

/-- `clearCacheForFile`: fastfileinfo.cpp 94-97. -/
def clearCache (name : Str) (s : St) : St := { s with cache := s.cache.filter (·.1 ≠ name) }

/-- What can happen: jom asks for a file, jom drops a cached entry (targetexecutor.cpp 236, with the target's
name after its commands ran), some process creates, changes (`some time`) or deletes (`none`) a file. -/
inductive Op where
  | query (name : Str)
  | clear (name : Str)
  | write (file : Str) (value : Option Nat)
deriving DecidableEq, Repr

def apply (abs : Str → Str) (s : St) : Op → St
  | .query n => (query abs n s).1
  | .clear n => clearCache n s
  | .write f v => { s with disk := fun x => if x = f then v else s.disk x }

/-- The state after a history that starts with an empty cache. -/
def run (abs : Str → Str) (disk : Str → Option Nat) (ops : List Op) : St :=
  ops.foldl (apply abs) { disk := disk, cache := [] }

/-- The answer to a query after a history. -/
def answer (abs : Str → Str) (disk : Str → Option Nat) (ops : List Op) (name : Str) : Option Nat :=
  (query abs name (run abs disk ops)).2

end Jom.FileInfo
