/-
Model of `TargetExecutor` (src/jomlib/targetexecutor.cpp) with `JobClient` (src/jomlib/jobclient.cpp): one jom process
as a transition system over arbitrary event sequences.

Every slot that Qt's event loop calls is one atomic step:
* `startProcesses`  – a queued call of `TargetExecutor::startProcesses`;
* `grant`           – the helper thread gets a token from the semaphore (jobclientacquirehelper.cpp);
* `acquired`        – the queued signal of the helper thread reaches `JobClient::onHelperAcquired`;
* `childFinished`   – a `CommandExecutor` finishes its target (signal `finished`);
* `abortDone`       – the nested waits of the abort path (`waitForProcesses`, `waitForJobClient`) are over.

Everything the outside world decides is a parameter of the event: file times, whether a target has commands
(inference rules are applied while a target is searched), exceptions, results of commands, the order of
events.  Targets are numbers as in `Model/DepGraph.lean`; executors are the numbers `0 .. jobs-1`.

Simplification: a nested event loop (abort path) is not a stack of frames but a counter of waiting frames;
events that arrive while a frame waits are ordinary steps.  Ctrl-C is not modelled.
-/
import Verif.Model.DepGraph

namespace Jom.Sched

open Jom.Graph

/-- What does not change during a run.  `deps b` are the dependents of all targets when the `b`-th graph is built
(inference rules may add dependents between two builds); `targets` are the requested targets. -/
structure Cfg where
  jobs : Nat
  keepGoing : Bool
  buildAll : Bool
  dumpGraph : Bool
  targets : List Nat
  deps : Nat → Nat → List Dep
  fuel : Nat

/-- Observable history; `b` is the number of the graph build (= index of the requested target); `exception` is the
message printed for an exception. -/
inductive Ev where
  | upToDate (b t : Nat)
  | noCommands (b t : Nat)
  | unbuildable (b t : Nat)
  | started (b t : Nat)
  | succeeded (b t : Nat)
  | failed (b t : Nat)
  | exception
deriving DecidableEq, Repr

/-- State of a `TargetExecutor` (targetexecutor.h) and its `JobClient`.
`avail` = `m_availableProcesses`; `busy` = executors with a running target; `stuck` = executors whose
`start` threw an exception; `buffered` = `isBufferedOutputSet()`; `acquiring` = `m_isAcquiring`; `granted` =
the helper thread has the token but the signal has not been delivered; `jobAcq` = `m_jobAcquisitionCount`;
`queued` = posted calls of `startProcesses`; `frames` = abort paths waiting; `taken`, `relChild`, `relWait` =
number of tokens taken from and given back to the semaphore (by `onChildFinished` / by `waitForJobClient`);
`exits` = emitted `finished(code)` signals; `dead` = the process ended by `exit(2)`; `ub` = undefined behaviour
happened (null pointer, empty list, failed assertion). -/
structure St where
  build : Nat
  g : Graph
  next : Option Nat
  avail : List Nat
  busy : List (Nat × Nat)
  stuck : List (Nat × Nat)
  buffered : Nat → Bool
  acquiring : Bool
  granted : Bool
  jobAcq : Nat
  aborted : Bool
  allOk : Bool
  pending : List Nat
  queued : Nat
  frames : Nat
  taken : Nat
  relChild : Nat
  relWait : Nat
  exits : List Nat
  dead : Bool
  ub : Bool
  log : List Ev

/-- Outcome of `CommandExecutor::start`: processes are running; the target finished before `start` returned (dry run,
built-in commands only); an exception was thrown (inline file cannot be written). -/
inductive StartRes where
  | running
  | sync (failed : Bool)
  | throws
deriving DecidableEq, Repr

/-- External answers used by one call of `startProcesses`; the first argument counts the iterations of
`findNextTarget` (downwards). -/
structure Oracle where
  upToDate : Nat → Nat → Nat → Bool
  hasCmds : Nat → Nat → Bool
  throws : Nat → Bool
  res : StartRes

inductive Event where
  | startProcesses (o : Oracle)
  | grant
  | acquired (res : StartRes) (inWait : Bool)
  | childFinished (executor : Nat) (failed : Bool)
  | abortDone

/-- `numberOfRunningProcesses`: targetexecutor.cpp 269-272. -/
def St.running (cfg : Cfg) (s : St) : Nat := cfg.jobs - s.avail.length

/-- `finishBuild`: targetexecutor.cpp 191-201. -/
def finishBuild (cfg : Cfg) (code : Nat) (s : St) : St :=
  let code := if code = 0 ∧ s.allOk = false ∧ cfg.keepGoing = true then 1 else code
  { s with exits := s.exits ++ [code] }

/-- The `catch` blocks targetexecutor.cpp 149-153 and 168-172. -/
def onException (cfg : Cfg) (s : St) : St :=
  finishBuild cfg 1 { s with aborted := true, log := s.log ++ [.exception] }

/-- The output hand-over in `onChildFinished`: targetexecutor.cpp 243-254. `s.avail` already contains
`executor`, `s.busy` does not. -/
def handOver (executor : Nat) (s : St) : St :=
  if s.buffered executor then s
  else
    let active := s.busy.map (·.1) ++ s.stuck.map (·.1)
    let b := upd s.buffered executor true
    if active.isEmpty then
      match s.avail with
      | [] => { s with ub := true }
      | e :: _ => { s with buffered := upd b e false }
    else { s with buffered := fun e => if e ∈ active then false else b e }

/-- `onChildFinished` for the executor of target `t`: targetexecutor.cpp 224-267. In the abort case the waiting and
`finishBuild(2)` are done by the later event `abortDone`. -/
def childFinished (cfg : Cfg) (executor t : Nat) (failed : Bool) (s : St) : St :=
  -- 227-235
  let s := if failed then { s with allOk := false } else s
  let s := if failed && cfg.keepGoing then
      { s with g := markParents (s.g.ids.length + 1) s.g t, ub := s.ub || decide (t ∉ s.g.ids) } else s
  -- 237, including the assertion of dependencygraph.cpp 286
  let s := { s with
    ub := s.ub || decide (t ∈ s.g.ids ∧ s.g.children t ≠ [])
    g := removeLeaf s.g t
    log := s.log ++ [if failed then Ev.failed s.build t else Ev.succeeded s.build t] }
  -- 238-241
  let s := if s.jobAcq > 0 then { s with relChild := s.relChild + 1, jobAcq := s.jobAcq - 1 } else s
  -- 242
  let s := { s with busy := s.busy.filter (·.1 ≠ executor), avail := s.avail ++ [executor] }
  -- 243-254
  let s := handOver executor s
  -- 256-266
  if failed && !cfg.keepGoing then
    { s with aborted := true, g := clear s.g, pending := [], frames := s.frames + 1 }
  else { s with queued := s.queued + 1 }

/-- Executor `e` has started target `t`: targetexecutor.cpp 162-166. -/
def begin (e t : Nat) (rest : List Nat) (s : St) : St :=
  { s with avail := rest, busy := (e, t) :: s.busy, log := s.log ++ [.started s.build t] }

/-- End of `buildNextTarget`: targetexecutor.cpp 167 and 173. -/
def begun (s : St) : St := { s with next := none, queued := s.queued + 1 }

/-- `buildNextTarget`: targetexecutor.cpp 156-173 and `CommandExecutor::start`. -/
def buildNextTarget (cfg : Cfg) (res : StartRes) (s : St) : St :=
  match s.next with
  | none => { s with ub := true }
  | some t =>
    if s.aborted then s
    else
      match s.avail with
      | [] => { s with ub := true }
      | e :: avail =>
        match res with
        | .throws => onException cfg { s with avail := avail, stuck := (e, t) :: s.stuck }
        | .running => begun (begin e t avail s)
        | .sync failed => begun (childFinished cfg e t failed (begin e t avail s))

/-- `findNextTarget` with `DependencyGraph::findAvailableTarget`: targetexecutor.cpp 203-222, dependencygraph.cpp
300-342. `error` is an exception thrown while inference rules are applied. Between two iterations
`m_nextTarget` is reset here; the C++ code keeps the stale pointer until the next iteration overwrites it (if that
one throws, the build is aborted and the pointer is never read). -/
def findNextTarget (cfg : Cfg) (o : Oracle) : Nat → St → Except St St
  | 0, s => .ok s
  | i + 1, s =>
    if s.g.leaves.isEmpty then .ok { s with next := none }
    else
      let (g, gone) := prune cfg.buildAll (o.upToDate i) s.g
      let s := { s with g := g, log := s.log ++ gone.map (.upToDate s.build ·) }
      if o.throws i then .error s
      else
        let (g, r) := pick s.g
        let s := { s with g := g, next := r }
        match r with
        | none => .ok s
        | some t =>
          if o.hasCmds i t = false then
            findNextTarget cfg o i
              { s with g := removeLeaf s.g t, next := none, log := s.log ++ [.noCommands s.build t] }
          else if cfg.keepGoing && s.g.state t == .unbuildable then
            findNextTarget cfg o i
              { s with g := removeLeaf s.g t, next := none, log := s.log ++ [.unbuildable s.build t] }
          else .ok s

/-- `m_depgraph->clear(); build(next requested target)`: targetexecutor.cpp 142-145 (and 106 for the first one). -/
def rebuild (cfg : Cfg) (b t : Nat) (rest : List Nat) (s : St) : St :=
  match build (cfg.deps b) cfg.fuel t with
  | .ok g => { s with build := b, g := g, pending := rest, queued := s.queued + 1 }
  | .error _ => { s with build := b, g := Graph.empty, pending := rest, exits := s.exits ++ [2], dead := true }

/-- `startProcesses`: targetexecutor.cpp 119-154. -/
def startProcesses (cfg : Cfg) (o : Oracle) (s : St) : St :=
  if s.aborted || s.acquiring || s.avail.isEmpty then s
  else
    match (if s.next.isNone then findNextTarget cfg o (s.g.ids.length + 1) s else .ok s) with
    | .error s => onException cfg s
    | .ok s =>
      if s.next.isSome then
        if s.running cfg = 0 then buildNextTarget cfg o.res s
        else { s with jobAcq := s.jobAcq + 1, acquiring := true }
      else if s.running cfg = 0 then
        match s.pending with
        | [] => finishBuild cfg 0 s
        | t :: rest => rebuild cfg (s.build + 1) t rest s
      else s

/-- One step; `none` = the event is not possible in this state. -/
def step (cfg : Cfg) (s : St) : Event → Option St
  | .startProcesses o =>
    if s.dead = false ∧ 0 < s.queued then some (startProcesses cfg o { s with queued := s.queued - 1 }) else none
  | .grant =>
    if s.dead = false ∧ s.acquiring = true ∧ s.granted = false then
      some { s with granted := true, taken := s.taken + 1 } else none
  | .acquired res inWait =>
    -- jobclient.cpp 89-93, targetexecutor.cpp 156; 181-189 when a frame waits in `waitForJobClient`
    if s.dead = false ∧ s.granted = true ∧ (inWait = true → 0 < s.frames)
        ∧ (inWait = false → s.busy ≠ [] ∨ s.frames = 0) then
      let s := buildNextTarget cfg res { s with acquiring := false, granted := false }
      some (if inWait then { s with relWait := s.relWait + 1 } else s)
    else none
  | .childFinished e failed =>
    if s.dead then none
    else match s.busy.find? (·.1 = e) with
      | some (_, t) => some (childFinished cfg e t failed s)
      | none => none
  | .abortDone =>
    if s.dead = false ∧ 0 < s.frames ∧ s.acquiring = false then
      let s := finishBuild cfg 2 { s with frames := s.frames - 1 }
      some { s with queued := s.queued + 1 }
    else none

/-- The state after `TargetExecutor()`, `apply` (targetexecutor.cpp 39-117) and the extra call posted by `main`
(main.cpp 218).  With `/DUMPGRAPH` or without any target `apply` emits `finished(0)` before the event loop
runs; that signal has no effect (`QCoreApplication::exit` before `exec`), only `main`'s call is queued. -/
def init (cfg : Cfg) : St :=
  let s : St := {
    build := 0, g := Graph.empty, next := none, avail := List.range cfg.jobs, busy := [], stuck := [],
    buffered := fun e => e ≠ 0, acquiring := false, granted := false, jobAcq := 0, aborted := false, allOk := true,
    pending := [], queued := 0, frames := 0, taken := 0, relChild := 0, relWait := 0, exits := [], dead := false,
    ub := false, log := [] }
  match cfg.targets with
  | [] => { s with queued := 1 }
  | t :: rest => rebuild cfg 0 t rest (if cfg.dumpGraph then s else { s with queued := 1 })

/-- A sequence of steps. -/
def run (cfg : Cfg) : St → List Event → Option St
  | s, [] => some s
  | s, e :: es => (step cfg s e).bind fun s => run cfg s es

/-- States that can occur. -/
def Reachable (cfg : Cfg) (s : St) : Prop := ∃ es, run cfg (init cfg) es = some s

end Jom.Sched
