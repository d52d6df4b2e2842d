/-
Model of a tree of jom processes that share one job server: several instances of the scheduler model
(`Model/Scheduler.lean`) and the system semaphore created by `JobServer::start` (src/jomlib/jobserver.cpp 47-66,
initial value `maxNumberOfJobs - 1`), from which every `JobClient` (jobclient.cpp) acquires and to which it
releases.

A jom process runs as command of a target of its parent, i.e. in an executor of the parent: the executor's target cannot finish before
the process has ended.  One executor may run several joms one after the other (commands of a target run in
sequence).  A jom has ended when it has emitted an exit code.

Not modelled: a nested jom that creates its own job server (main.cpp 115-149, see C52, and `Model/Forest.lean`).
-/
import Verif.Model.Scheduler

namespace Jom.Tree

open Jom.Sched

/-- A jom process; `parent` = index of the parent process and number of the executor that runs it. -/
structure Proc where
  cfg : Cfg
  st : St
  parent : Option (Nat × Nat)

/-- The process has not ended. -/
def Proc.alive (p : Proc) : Bool := p.st.exits.isEmpty

/-- The whole tree: value of the semaphore and the processes in the order of their creation. -/
structure Sys where
  sem : Nat
  procs : List Proc

inductive SysEvent where
  /-- process `k` handles an event -/
  | proc (k : Nat) (ev : Event)
  /-- executor `x` of process `k` starts a jom with configuration `cfg` -/
  | spawn (k x : Nat) (cfg : Cfg)

/-- Busy executors of live processes, with the index of the process; the first process has index `k`. -/
def slotsFrom : Nat → List Proc → List (Nat × Nat)
  | _, [] => []
  | k, p :: ps => (if p.alive then p.st.busy.map (fun b => (k, b.1)) else []) ++ slotsFrom (k + 1) ps

/-- Busy executors of live processes, with the index of the process. -/
def slots (y : Sys) : List (Nat × Nat) := slotsFrom 0 y.procs

/-- The executors that run a live jom. -/
def hosts (y : Sys) : List (Nat × Nat) :=
  (y.procs.filter (·.alive)).filterMap (·.parent)

/-- Is the executor the event speaks about allowed to finish? -/
def mayFinish (y : Sys) (k : Nat) : Event → Bool
  | .childFinished x _ => decide ((k, x) ∉ hosts y)
  | _ => true

/-- The semaphore after a step: tokens released minus tokens taken. -/
def semAfter (sem : Nat) (s s' : St) : Nat :=
  sem + (s'.relChild + s'.relWait + s.taken) - (s.relChild + s.relWait + s'.taken)

/-- Tokens can only be granted while the semaphore is positive. -/
def mayGrant (y : Sys) : Event → Bool
  | .grant => decide (0 < y.sem)
  | _ => true

/-- One step of the tree; `none` = not possible.  A jom has at least one executor (options.cpp 42, 295-302). -/
def step (y : Sys) : SysEvent → Option Sys
  | .proc k ev =>
    match y.procs[k]? with
    | none => none
    | some p =>
      if p.alive && mayFinish y k ev && mayGrant y ev then
        match Sched.step p.cfg p.st ev with
        | none => none
        | some st => some { sem := semAfter y.sem p.st st, procs := y.procs.set k { p with st := st } }
      else none
  | .spawn k x cfg =>
    if (k, x) ∈ slots y ∧ (k, x) ∉ hosts y ∧ 0 < cfg.jobs then
      some { y with procs := y.procs ++ [{ cfg := cfg, st := init cfg, parent := some (k, x) }] }
    else none

/-- The first jom with its job server. -/
def start (cfg : Cfg) : Sys := { sem := cfg.jobs - 1, procs := [{ cfg := cfg, st := init cfg, parent := none }] }

def run : Sys → List SysEvent → Option Sys
  | y, [] => some y
  | y, e :: es => (step y e).bind fun y => run y es

def Reachable (cfg : Cfg) (y : Sys) : Prop := ∃ es, run (start cfg) es = some y

/-- Running processes that are not joms: busy executors that do not run a live jom. -/
def leafProcesses (y : Sys) : Nat := ((slots y).filter (· ∉ hosts y)).length

end Jom.Tree
