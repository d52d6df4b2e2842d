/-
Model of `DependencyGraph::isTargetUpToDate` (src/jomlib/dependencygraph.cpp 103-180).

A `FileTime` is a number, 0 is the invalid time (filetime.cpp 34-37, 54-57).  Targets are numbers.

Simplification: the answers of `FastFileInfo` (see `Model/FileInfo.lean`) and `FileTime::currentTime()` do not
change during one call.
-/
import Verif.QtStr
import Verif.Model.DepGraph

namespace Jom.UpToDate

open Jom.Graph (upd)

/-- The fields of a `DescriptionBlock` that are used; `rules` are the names `inferredDependent(targetName)` for the
elements of `m_inferenceRules`. -/
structure TInfo where
  name : Str
  fileExists : Bool
  time : Nat
  deps : List Str
  hasCmds : Bool
  rules : List Str
deriving DecidableEq, Repr

/-- `fi` = `FastFileInfo` (`none` = does not exist), `lookup` = `Makefile::target`, `now` =
`FileTime::currentTime()`. -/
structure World where
  fi : Str → Option Nat
  lookup : Str → Option Nat
  now : Nat

/-- `FastFileInfo(name).lastModified()`: fastfileinfo.cpp 84-92. -/
def World.modified (w : World) (name : Str) : Nat := (w.fi name).getD 0

/-- The loop over the dependents: dependencygraph.cpp 116-144. `latest` is `latestDependentTime`; leaving the loop
with `break` is returning `now`. -/
def latestTime (w : World) (info : Nat → TInfo) : List Str → Nat → Nat
  | [], latest => latest
  | d :: ds, latest =>
    let dep := (w.lookup d).map info
    -- 120-128
    if dep.any fun x => !x.fileExists && x.hasCmds then w.now
    else
      let ts := (dep.map (·.time)).getD 0
      -- 130-134
      let ts := if ts = 0 then w.modified d else ts
      -- 136-143
      if ts = 0 then w.now
      else latestTime w info ds (if latest < ts then ts else latest)

/-- dependencygraph.cpp 105-109. -/
def readFile (w : World) (t : Nat) (info : Nat → TInfo) : Nat → TInfo :=
  match w.fi (info t).name with
  | some time => upd info t { info t with fileExists := true, time := time }
  | none => info

/-- dependencygraph.cpp 111-150. -/
def compareTimes (w : World) (t : Nat) (info : Nat → TInfo) : (Nat → TInfo) × Bool :=
  let x := info t
  if x.deps.isEmpty then (info, x.fileExists)
  else
    let latest := latestTime w info x.deps 0
    let x := if x.fileExists then x else { x with time := latest }
    (upd info t x, x.fileExists && decide (latest ≤ x.time))

/-- dependencygraph.cpp 176-179. -/
def finish (t : Nat) (r : (Nat → TInfo) × Bool) : (Nat → TInfo) × Bool :=
  let x := r.1 t
  (if !r.2 && x.fileExists then upd r.1 t { x with time := 0 } else r.1, r.2)

/-- The inner call of `isTargetUpToDate` (169), made when `m_inferenceRules` is empty. -/
def plainUpToDate (w : World) (t : Nat) (info : Nat → TInfo) : (Nat → TInfo) × Bool :=
  finish t (compareTimes w t (readFile w t info))

/-- The loop over the saved rules: dependencygraph.cpp 161-167. Returns the new dependents. -/
def addInferred (w : World) : List Str → List Str → List Str
  | [], deps => deps
  | r :: rs, deps => addInferred w rs (if r ∉ deps ∧ (w.fi r).isSome then deps ++ [r] else deps)

/-- dependencygraph.cpp 152-174. -/
def checkInferred (w : World) (t : Nat) (r : (Nat → TInfo) × Bool) : (Nat → TInfo) × Bool :=
  let x := r.1 t
  if r.2 && !x.rules.isEmpty then
    let deps := addInferred w x.rules x.deps
    if deps ≠ x.deps then
      let (info, b) := plainUpToDate w t (upd r.1 t { x with deps := deps, rules := [] })
      (upd info t { info t with deps := x.deps, rules := x.rules }, b)
    else r
  else r

/-- `isTargetUpToDate`: dependencygraph.cpp 103-180. -/
def isTargetUpToDate (w : World) (t : Nat) (info : Nat → TInfo) : (Nat → TInfo) × Bool :=
  finish t (checkInferred w t (compareTimes w t (readFile w t info)))

end Jom.UpToDate
