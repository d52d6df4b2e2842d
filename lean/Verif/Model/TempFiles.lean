import Verif.Model.CommandExec

/-!
The temporary files of all executors until jom ends: `CommandExecutor::start`, `createTempFiles`, `cleanupTempFiles` (src/jomlib/commandexecutor.cpp
66-69, 82-83, 257-321), `TargetExecutor::removeTempFiles` (targetexecutor.cpp 274-283), `ConsoleCtrlHandlerRoutine` (main.cpp 86-98).

The steps of the executors and of their processes come in any order. Removing a file works always.
-/

namespace Jom.Temp

open Jom.Exec

/-- The disk and `m_tempFiles` of the executors (name, keep). -/
structure St where
  fs : FS
  temps : Nat → List (Str × Bool)

/-- What happens: executor `e` begins with a target that has commands (82); it writes one inline file (263-309); somebody else, e.g. a process, writes
(`some`) or removes (`none`) a file. -/
inductive Op where
  | begins (e : Nat)
  | creates (e : Nat) (name content : Str) (keep : Bool)
  | writes (name : Str) (content : Option Str)

/-- One step. -/
def step (s : St) : Op → St
  | .begins e => { fs := cleanup (s.temps e) s.fs, temps := fun k => if k = e then [] else s.temps k }
  | .creates e name content keep =>
    { fs := fun x => if x = name then some content else s.fs x
      temps := fun k => if k = e then s.temps e ++ [(name, keep)] else s.temps k }
  | .writes name content => { s with fs := fun x => if x = name then content else s.fs x }

def run (s : St) (ops : List Op) : St := ops.foldl step s

/-- At the beginning nobody has temporary files. -/
def init (fs : FS) : St := { fs := fs, temps := fun _ => [] }

/-- How jom ends: `main` returns (the destructor of `TargetExecutor` deletes the executors: commandexecutor.cpp 66-69); Ctrl-C (main.cpp 93-96);
`exit(2)` in `DependencyGraph::internalBuild` (dependencygraph.cpp 203), which does not destroy the objects of `main`. -/
inductive Ending where
  | returns
  | ctrlC
  | exits
deriving DecidableEq

/-- The cleanup by all executors, in the order in which they were created: targetexecutor.cpp 276-282. -/
def removeAll (jobs : Nat) (s : St) : FS := (List.range jobs).foldl (fun fs e => cleanup (s.temps e) fs) s.fs

/-- The disk after the end. -/
def leaves (jobs : Nat) (s : St) : Ending → FS
  | .returns => removeAll jobs s
  | .ctrlC => removeAll jobs s
  | .exits => s.fs

end Jom.Temp
