/-
Model of the end of a build after a failure without `/K`: the nested waits of the abort path of `TargetExecutor::onChildFinished`
(src/jomlib/targetexecutor.cpp 256-264), `waitForProcesses` (175-179), `waitForJobClient` (181-189), `Process::waitForFinished`
(src/jomlib/jomprocess.cpp 446-459), `Process::onProcessFinished` (424-444) and `CommandExecutor` (src/jomlib/commandexecutor.cpp 71-136).

An executor executes the commands of its target one after the other. While a frame of `waitForFinished` waits for the signal `finished` of a process, the
nested event loop goes on: processes end, the next commands of their targets are started, and a second failure begins another round of waits inside.

Qt semantics (trusted): slots are called in the order in which they were connected, so the executor, which may start the next command, comes before the `quit`
of the waiting loop; `QCoreApplication::exit` (connected to `finished(int)`, src/app/main.cpp 214) ends all event loops of the thread, also those that
would be started later.

Simplifications: the end of a process and its notification are one event (exit code 259 is the matter of C42 and C83); which targets are started when is left to the
events (`Model/Scheduler.lean` says more about that); there are no exceptions.
-/
import Verif.Model.DepGraph

namespace Jom.Abort

open Jom.Graph (upd)

/-- A command: a process, or something that jom does itself (comments, `cd`, `set`), which can fail. -/
inductive Cmd where
  | process
  | inner (fails : Bool)
  deriving DecidableEq, Repr

/-- What can be seen from outside: processes are started and end, a command has failed, jom calls `exit`. Processes are numbered. -/
inductive Ev where
  | started (p : Nat)
  | ended (p : Nat)
  | failed
  | exit
  deriving DecidableEq, Repr

/-- `proc e`: the process of executor `e` that is running; `running e`: `m_state == Running`; `left e`: the commands behind the current one. `frames`: the calls of
`waitForProcesses`, the innermost first, each with the executors that it has not passed; a frame waits for the first of them, and for the job client if there is none.
`acquiring`: `JobClient::isAcquiring`. `exited`: `QCoreApplication::exit` was called. -/
structure St where
  proc : Nat → Option Nat
  running : Nat → Bool
  left : Nat → List Cmd
  frames : List (List Nat)
  acquiring : Bool
  exited : Bool
  next : Nat
  log : List Ev

/-- No executor is active. -/
def init : St :=
  { proc := fun _ => none, running := fun _ => false, left := fun _ => [], frames := [], acquiring := false, exited := false, next := 0, log := [] }

inductive Outcome where
  | process (rest : List Cmd)
  | done
  | failed
  deriving DecidableEq, Repr

/-- `executeCurrentCommandLine` and `onProcessFinished`, which call each other (commandexecutor.cpp 99-125, 154-256): execute what jom does itself up to the next
process. -/
def execute : List Cmd → Outcome
  | [] => .done
  | .process :: cs => .process cs
  | .inner true :: _ => .failed
  | .inner false :: cs => execute cs

/-- jomprocess.cpp 448-449: `waitForProcesses` passes executors whose process is not `Running`. -/
def pass (running : Nat → Bool) (todo : List Nat) : List Nat := todo.dropWhile fun e => !running e

/-- targetexecutor.cpp 181-201 and 262-263: if the innermost `waitForProcesses` is over and there is no request for a token, jom calls `exit`. All event loops end:
the frames below run to their ends (jomprocess.cpp 457 for the processes that they have not passed) and call `exit` too. -/
def finish (s : St) : St :=
  match s.frames with
  | [] :: rest =>
    if s.acquiring then s
    else
      { s with
        frames := [], exited := true
        running := fun e => s.running e && !rest.any fun todo => decide (e ∈ todo)
        log := s.log ++ List.replicate (rest.length + 1) .exit }
  | _ => s

/-- targetexecutor.cpp 227, 256-263: a command has failed. -/
def abort (jobs : Nat) (s : St) : St :=
  finish { s with log := s.log ++ [.failed], frames := pass s.running (List.range jobs) :: s.frames }

/-- `Process::start`: jomprocess.cpp 347-409. -/
def startProcess (e : Nat) (rest : List Cmd) (s : St) : St :=
  { s with
    proc := upd s.proc e (some s.next), running := upd s.running e true, left := upd s.left e rest
    next := s.next + 1, log := s.log ++ [.started s.next] }

/-- jomprocess.cpp 454-458: the innermost loop waited for the process of `e` and ends. Whatever the executor has done meanwhile, the state becomes `NotRunning`. -/
def wake (e : Nat) (s : St) : St :=
  match s.frames with
  | (e' :: todo) :: rest =>
    if e' = e then
      finish { s with running := upd s.running e false, frames := pass (upd s.running e false) todo :: rest }
    else s
  | _ => s

inductive Event where
  /-- `CommandExecutor::start` for an executor that has nothing to do. -/
  | target (e : Nat) (cmds : List Cmd)
  /-- The process of executor `e` ends; `failed`: with an exit code that counts as failure. -/
  | ends (e : Nat) (failed : Bool)
  /-- `JobClient::asyncAcquire`. -/
  | ask
  /-- `JobClient::onHelperAcquired`. -/
  | acquired

/-- jom has given up: `m_bAborted`. -/
def St.aborted (s : St) : Bool := !s.frames.isEmpty || s.exited

/-- One step; `none`: the event is not possible. After `exit` jom ends. -/
def step (jobs : Nat) (s : St) : Event → Option St
  | .target e cmds =>
    -- targetexecutor.cpp 119-122, 156-163: nothing is started after an abort
    if s.aborted = false ∧ e < jobs ∧ s.proc e = none then
      match execute cmds with
      | .process rest => some (startProcess e rest s)
      | .done => some s
      | .failed => some (abort jobs s)
    else none
  | .ends e failed =>
    if s.exited then none
    else
      match s.proc e with
      | none => none
      | some p =>
        let s : St := { s with proc := upd s.proc e none, log := s.log ++ [Ev.ended p] }
        -- jomprocess.cpp 426-427
        if s.running e then
          -- 436, 443: the slot of the executor, then that of the loop that waits (unless the slot has begun another `waitForProcesses`)
          let s : St := { s with running := upd s.running e false }
          match (if failed then Outcome.failed else execute (s.left e)) with
          | .process rest => some (wake e (startProcess e rest s))
          | .done => some (wake e s)
          | .failed => some (abort jobs s)
        else some s
  | .ask => if s.aborted = false ∧ s.acquiring = false then some { s with acquiring := true } else none
  | .acquired => if s.exited = false ∧ s.acquiring then some (finish { s with acquiring := false }) else none

/-- What can happen from state to state. -/
inductive Run (jobs : Nat) : St → List Event → St → Prop
  | nil (s : St) : Run jobs s [] s
  | cons {s s' t : St} {e : Event} {es : List Event} : step jobs s e = some s' → Run jobs s' es t → Run jobs s (e :: es) t

end Jom.Abort
