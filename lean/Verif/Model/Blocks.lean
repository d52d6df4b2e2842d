/-
Model of the target table while description blocks are parsed: the second half of `Parser::parseDescriptionBlock`
(src/jomlib/parser.cpp 427-475), `Parser::createTarget` (289-295), `Makefile::append`, `Makefile::target` (src/jomlib/makefile.h
148-174), and the translation of `.SYNC` at the end of `Parser::apply` (parser.cpp 126-135).

Simplifications:
* `m_targets` is a list of entries with different keys; a target is found by its key.
* The target `ACSUnknown` does not occur: it is the state of targets that are created after all blocks are parsed.
* The warning for dropped commands is not modelled.
-/
import Verif.Model.ParserText
import Verif.Model.FileMacros
import Verif.Model.CycleCheck

namespace Jom.Blocks

open Inference (Command)
open FileMacro (FErr Tgt expandDependents)

/-- What is left of a description block after reading it: the target names, the dependents, whether the separator is `::`, the
commands. -/
structure Block where
  targets : List Str
  deps : List Str
  double : Bool
  cmds : List Command
deriving DecidableEq, Repr

/-- `DescriptionBlock` (makefile.h 66-121); `enabled` is `m_canAddCommands == ACSEnabled`. -/
structure DBlock where
  name : Str
  deps : List Str := []
  cmds : List Command := []
  enabled : Bool
deriving DecidableEq, Repr

/-- The members of `Makefile` and `Parser` used here; `first` is the key of `m_firstTarget`. -/
structure Mk where
  targets : List (Str × DBlock) := []
  first : Option Str := none
  notParallel : Bool := false
  sync : List (Str × List Str) := []
deriving DecidableEq, Repr

/-- Why parsing stops: `:` and `::` for one target (an exception), or the expansion of macros in dependents. -/
inductive BErr where
  | mixed
  | expand (e : FErr)
deriving DecidableEq, Repr

/-- The entry of a key (`QHash::value`). -/
def find (l : List (Str × α)) (key : Str) : Option α := (l.find? fun e => e.1 = key).map (·.2)

/-- `QHash::operator[]` as the destination of an assignment. -/
def put : List (Str × α) → Str → α → List (Str × α)
  | [], k, v => [(k, v)]
  | (k', v') :: l, k, v => if k' = k then (k, v) :: l else (k', v') :: put l k v

/-- `Makefile::target` (makefile.h 160-174); the key stands for the pointer. -/
def Mk.key (mk : Mk) (name : Str) : Option Str :=
  let lowerName := toLower name
  match find mk.targets lowerName with
  | some _ => some lowerName
  | none =>
    let systemName := lowerName.map fun c => if c = '/' then '\\' else c
    (find mk.targets systemName).map fun _ => systemName

/-- The target of a name. -/
def Mk.target (mk : Mk) (name : Str) : Option DBlock := (mk.key name).bind (find mk.targets)

/-- `Makefile::append` (makefile.h 148-152). -/
def Mk.append (mk : Mk) (b : DBlock) : Mk :=
  { mk with targets := put mk.targets (toLower b.name) b, first := mk.first.orElse fun _ => some (toLower b.name) }

/-- `QList::removeAt`. -/
def removeAt (l : List α) (i : Nat) : List α := l.take i ++ l.drop (i + 1)

/-- `.SYNC`. -/
def syncName : Str := ['.', 'S', 'Y', 'N', 'C']

/-- `.NOTPARALLEL`. -/
def notParallelName : Str := ['.', 'N', 'O', 'T', 'P', 'A', 'R', 'A', 'L', 'L', 'E', 'L']

/-- The loop for `.SYNC` (parser.cpp 433-444): the remaining dependents and the sync points. The first argument bounds the number
of rounds; every round shortens the rest of the list. -/
def syncLoop : Nat → List Str → Nat → Nat → List Str → List (Str × List Str) → List Str × List (Str × List Str)
  | 0, deps, _, _, _, sp => (deps, sp)
  | n + 1, deps, i, k, syncDeps, sp =>
    match deps[i]? with
    | none => (deps, sp)
    | some d =>
      if d = syncName then
        let deps := removeAt deps i
        if deps.length = i then (deps, sp)
        else syncLoop n deps i i ((deps.drop k).take (i - k)) sp
      else syncLoop n deps (i + 1) k syncDeps (put sp d ((find sp d).getD [] ++ syncDeps))

/-- `descblock->m_dependents.append(dependents)`, `expandFileNameMacrosForDependents()` (parser.cpp 464-465). -/
def addDeps (fuel : Nat) (b : DBlock) (deps : List Str) : Except BErr DBlock :=
  match expandDependents { name := b.name, deps := b.deps ++ deps, time := fun _ => 0 } fuel (b.deps ++ deps) with
  | .error e => .error (.expand e)
  | .ok ds => .ok { b with deps := ds }

/-- Adding the commands (parser.cpp 467-472). -/
def addCmds (b : DBlock) (canAdd : Bool) (cmds : List Command) : DBlock :=
  if cmds = [] then b
  else if canAdd = true ∨ b.cmds = [] then { b with cmds := b.cmds ++ cmds }
  else b

/-- The loop body for one target (parser.cpp 446-474). -/
def addTarget (fuel : Nat) (deps : List Str) (double : Bool) (cmds : List Command) (mk : Mk) (t : Str) : Except BErr Mk :=
  if t = notParallelName then .ok { mk with notParallel := true }
  else
    match mk.key t with
    | some key =>
      match find mk.targets key with
      | none => .ok mk
      | some b =>
        if double ≠ b.enabled then .error .mixed
        else do
          let b ← addDeps fuel b deps
          .ok { mk with targets := put mk.targets key (addCmds b double cmds) }
    | none => do
      let b ← addDeps fuel { name := t, enabled := double } deps
      .ok (mk.append (addCmds b true cmds))

/-- The loop over the targets. -/
def addTargets (fuel : Nat) (deps : List Str) (double : Bool) (cmds : List Command) : Mk → List Str → Except BErr Mk
  | mk, [] => .ok mk
  | mk, t :: ts => do
    let mk ← addTarget fuel deps double cmds mk t
    addTargets fuel deps double cmds mk ts

/-- The second half of `parseDescriptionBlock` (parser.cpp 431-475). -/
def addBlock (fuel : Nat) (mk : Mk) (b : Block) : Except BErr Mk :=
  let r := syncLoop (b.deps.length + 1) b.deps 0 0 [] mk.sync
  addTargets fuel r.1 b.double b.cmds { mk with sync := r.2 } b.targets

/-- All blocks of a makefile. -/
def addBlocks (fuel : Nat) : Mk → List Block → Except BErr Mk
  | mk, [] => .ok mk
  | mk, b :: bs => do
    let mk ← addBlock fuel mk b
    addBlocks fuel mk bs

/-- `QStringList::removeDuplicates`. -/
def removeDuplicates : List Str → List Str → List Str
  | _, [] => []
  | seen, s :: l => if s ∈ seen then removeDuplicates seen l else s :: removeDuplicates (s :: seen) l

/-- The translation of sync points into dependents (parser.cpp 126-135). `order` are the entries of `m_syncPoints` in the order of
iteration, which is arbitrary. -/
def applySync : Mk → List (Str × List Str) → Mk
  | mk, [] => mk
  | mk, (name, deps) :: order =>
    match mk.key name with
    | none => mk
    | some key =>
      match find mk.targets key with
      | none => mk
      | some b => applySync { mk with targets := put mk.targets key { b with deps := removeDuplicates [] (b.deps ++ deps) } } order

/-- The number of jobs of the `TargetExecutor` (main.cpp 208-213): `.NOTPARALLEL` replaces `-j`. -/
def jobsOf (mk : Mk) (maxNumberOfJobs : Nat) : Nat := if mk.notParallel then 1 else maxNumberOfJobs

/-- Targets are numbered by their position in the table. -/
def numbered : List (Str × DBlock) → Nat → List (Str × Nat)
  | [], _ => []
  | e :: l, i => (e.1, i) :: numbered l (i + 1)

/-- The makefile of `Model/CycleCheck.lean` for a table of targets. -/
def Mk.makefile (mk : Mk) (dirPath : Str) : Graph.Makefile :=
  { hash := numbered mk.targets 0, dependents := fun i => ((mk.targets[i]?).map (·.2.deps)).getD [], dirPath := dirPath }

end Jom.Blocks
