/-
Model of the target table of a makefile, the cycle check of the parser (src/jomlib/parser.cpp 643-683) and
the lookup of dependents in the dependency graph (src/jomlib/dependencygraph.cpp 189-205).

A target (`DescriptionBlock*`) is a natural number, its fields are functions.
-/
import Verif.QtStr
import Verif.Model.DepGraph

namespace Jom.Graph

/-- The part of `Makefile` (makefile.h 217-228) used here: `hash` is `m_targets` (first entry of a key counts),
`dependents` is `m_dependents` of a target, `dirPath` is `dirPath()`. -/
structure Makefile where
  hash : List (Str × Nat)
  dependents : Nat → List Str
  dirPath : Str

/-- `QHash::value(key, 0)`. -/
def hashValue (h : List (Str × Nat)) (key : Str) : Option Nat :=
  (h.find? fun e => e.1 = key).map (·.2)

/-- `Makefile::target`: makefile.h 160-174. -/
def Makefile.target (m : Makefile) (name : Str) : Option Nat :=
  let lowerName := toLower name
  match hashValue m.hash lowerName with
  | some t => some t
  | none => hashValue m.hash (lowerName.map fun c => if c = '/' then '\\' else c)

/-- The lookup of a dependent when the graph is built: dependencygraph.cpp 190-205; `fileExists` is
`FastFileInfo(name).exists()`. -/
def Makefile.graphDep (m : Makefile) (fileExists : Str → Bool) (name : Str) : Dep :=
  match m.target name with
  | some t => .node t
  | none =>
    match m.target (m.dirPath ++ ['\\'] ++ name) with
    | some t => .node t
    | none => if fileExists name then .file else .missing

/-- The dependents of all targets as the graph builder sees them. -/
def Makefile.graphDeps (m : Makefile) (fileExists : Str → Bool) (t : Nat) : List Dep :=
  (m.dependents t).map (m.graphDep fileExists)

/-- Outcomes of the cycle check other than success. `cycle` is the exception of parser.cpp 664-667, `fuel`
an artefact of the model (proved unreachable). -/
inductive CycleErr where
  | cycle (t : Nat)
  | fuel
deriving DecidableEq, Repr

/-- The loop parser.cpp 673-676, given the looked-up dependents from the last to the first. The pair is the
set of targets with `m_bVisitedByCycleCheck` and the set of targets with `m_bNoCyclesRootedHere`. -/
def cycleLoop (recur : Option Nat → List Nat × List Nat → Except CycleErr (List Nat × List Nat)) :
    List (Option Nat) → List Nat × List Nat → Except CycleErr (List Nat × List Nat)
  | [], s => .ok s
  | d :: ds, s => do
    let s ← recur d s
    cycleLoop recur ds s

/-- `Parser::checkForCycles`: parser.cpp 643-683. `look t` are the dependents of `t` after
`m_makefile->target(...)`; `none` is a null pointer. The fuel bounds the recursion depth. -/
def checkForCycles (look : Nat → List (Option Nat)) :
    Nat → Option Nat → List Nat × List Nat → Except CycleErr (List Nat × List Nat)
  | _, none, s => .ok s
  | 0, some _, _ => .error .fuel
  | fuel + 1, some t, (visited, noCycles) =>
    if t ∈ noCycles then .ok (visited, noCycles)
    else if t ∈ visited then .error (.cycle t)
    else do
      let (visited, noCycles) ← cycleLoop (checkForCycles look fuel) (look t).reverse (t :: visited, noCycles)
      return (visited.filter (· ≠ t), t :: noCycles)

/-- The calls for all requested targets: parser.cpp 147-151 (`preselectInferenceRules` is not part of the
check; it only creates targets without dependents). -/
def checkAll (look : Nat → List (Option Nat)) (fuel : Nat) (active : List (Option Nat)) :
    Except CycleErr (List Nat × List Nat) :=
  cycleLoop (checkForCycles look fuel) active ([], [])

/-- The dependents of a makefile as the cycle check sees them: parser.cpp 674. -/
def Makefile.cycleLook (m : Makefile) (t : Nat) : List (Option Nat) := (m.dependents t).map m.target

end Jom.Graph
