/-
Model of the life of the processes that one `Process` object starts one after the other (src/jomlib/jomprocess.cpp 347-544) together with
the completion port (src/jomlib/iocompletionport.cpp). Two threads act: the main thread (start, notifications, timers) and the thread of the
completion port.

* Functions of the two threads exclude each other where they touch the same data: delivery holds the mutex of the port, `onProcessFinished`
  prints after it has unregistered the channels. Registering, unregistering and reading of one channel commute with what the port does
  for the other channel, so `start` and `onProcessFinished` are single steps.
* Windows (trusted): a read that is waiting for data is completed by the arrival of data, by the end of the pipe, or by closing
  the handle of jom; each completion puts one packet into the queue of the port, which is first in, first out. A read started at the end
  of a pipe fails at once. The data of a read is placed at the beginning of the buffer it was started with. The exit code of the invalid
  handle is that of jom itself, which is still active.
* The creation of pipes and the first reads succeed; `CreateProcess` may fail. `intermediateOutputBuffer` keeps its contents when it is resized.
* Where the output goes (directly or to the buffers) is the matter of `Model/Process.lean`.
-/
import Verif.Model.Process

namespace Jom.Life

open Proc (Chan)

/-- `STILL_ACTIVE`. -/
def stillActive : Int := 259

/-- A packet in the queue of the port: number of bytes, and whether the read has succeeded. -/
structure Packet where
  ch : Chan
  n : Nat
  ok : Bool
deriving DecidableEq, Repr

/-- State of `Process`, its pipes and the port. Processes are numbered from 1; `gen` is the last one. `running` is `m_state == Running`,
`exitCode` is `d->exitCode` (`none` = still active), `handle` is `hProcess`, `enabled` belongs to `deathNotifier`, `registered` says whether
the channels are in the set of observers. `pipe` is what the process has written and jom has not read; `isOpen`: somebody may still write.
`reads` counts the reads that wait, `buf` is `intermediateOutputBuffer`. `calls` counts the queued calls and `timers` the timers of
`tryToRetrieveExitCode`. `ended` are the exit codes of the processes that have ended, `finished` the emitted signals. `wrote` is what
process `g` has written, `got` what jom has taken for the output of the process it is running. -/
structure St where
  gen : Nat := 0
  running : Bool := false
  exitCode : Option Int := none
  handle : Option Nat := none
  enabled : Bool := false
  registered : Bool := false
  pipe : Chan → Str := fun _ => []
  isOpen : Chan → Bool := fun _ => false
  reads : Chan → Nat := fun _ => 0
  buf : Chan → Str := fun _ => []
  port : List Packet := []
  calls : Nat := 0
  timers : Nat := 0
  ended : Nat → Option Int := fun _ => none
  finished : List (Nat × Int) := []
  wrote : Nat → Chan → Str := fun _ _ => []
  got : Nat → Chan → Str := fun _ _ => []

/-- Change of one value. -/
def upd {α β : Type} [DecidableEq α] (f : α → β) (a : α) (b : β) : α → β := fun x => if x = a then b else f x

/-- `Process::start` (jomprocess.cpp 347-409): new pipes, both channels registered and read. -/
def start (s : St) : St :=
  { s with
    gen := s.gen + 1
    running := true
    handle := some (s.gen + 1)
    enabled := true
    registered := true
    pipe := fun _ => []
    isOpen := fun _ => true
    reads := fun _ => 1 }

/-- `Process::start` when `CreateProcess` fails (jomprocess.cpp 347-396): the channels stay registered and the pipes open. -/
def startFails (s : St) : St :=
  { s with registered := true, pipe := fun _ => [], isOpen := fun _ => true, reads := fun _ => 1 }

/-- `Process::onProcessFinished` (jomprocess.cpp 423-444). Closing the pipes ends the reads that wait. -/
def onProcessFinished (s : St) (code : Int) : St :=
  if s.running then
    { s with
      running := false
      enabled := false
      registered := false
      handle := none
      pipe := fun _ => []
      isOpen := fun _ => false
      reads := fun _ => 0
      port := s.port ++ List.replicate (s.reads .out) ⟨.out, 0, false⟩ ++ List.replicate (s.reads .err) ⟨.err, 0, false⟩
      exitCode := none
      finished := s.finished ++ [(s.gen, code)] }
  else { s with exitCode := some code }

/-- `GetExitCodeProcess` for `hProcess`; `none` = still active. -/
def exitCodeNow (s : St) : Option Int :=
  match s.handle with
  | none => none
  | some g => match s.ended g with
    | some c => if c = stillActive then none else some c
    | none => none

/-- `Process::tryToRetrieveExitCode` (jomprocess.cpp 411-421). -/
def tryToRetrieveExitCode (s : St) : St :=
  match s.exitCode.orElse fun _ => exitCodeNow s with
  | none => { s with timers := s.timers + 1 }
  | some c => onProcessFinished s c

/-- `OutputChannel::completionPortNotified` and `startRead` (jomprocess.cpp 470-492, 522-544). -/
def notified (s : St) (p : Packet) : St :=
  let s := if p.n = 0 then s else { s with got := upd s.got s.gen (upd (s.got s.gen) p.ch (s.got s.gen p.ch ++ (s.buf p.ch).take p.n)) }
  if p.ok && (s.isOpen p.ch || !(s.pipe p.ch).isEmpty) then { s with reads := upd s.reads p.ch (s.reads p.ch + 1) }
  else { s with calls := s.calls + 1 }

/-- What happens. `start`, `startFails`: the executor starts its next command; `write`, `hangup`, `exit`: the process (or one it has started) writes,
closes a pipe, the process ends; `complete`: data arrives for a read; `broken`: a read meets the end of the pipe; `deliver`: the thread of the
port takes a packet from the queue (`IoCompletionPort::run`, iocompletionport.cpp 85-115); `death`: the handle of the process is
signalled; `call`, `timer`: a queued call or a timer of `tryToRetrieveExitCode`. -/
inductive Ev where
  | start
  | startFails
  | write (ch : Chan) (text : Str)
  | hangup (ch : Chan)
  | exit (code : Int)
  | complete (ch : Chan) (n : Nat)
  | broken (ch : Chan)
  | deliver
  | death
  | call
  | timer
deriving DecidableEq, Repr

/-- One event; events that are impossible in a state change nothing. -/
def step (s : St) : Ev → St
  | .start => if s.running then s else start s
  | .startFails => if s.running then s else startFails s
  | .write ch text =>
    if s.running && s.isOpen ch then
      { s with pipe := upd s.pipe ch (s.pipe ch ++ text), wrote := upd s.wrote s.gen (upd (s.wrote s.gen) ch (s.wrote s.gen ch ++ text)) }
    else s
  | .hangup ch => if s.running then { s with isOpen := upd s.isOpen ch false } else s
  | .exit code => if s.running && (s.ended s.gen).isNone then { s with ended := upd s.ended s.gen (some code) } else s
  | .complete ch n =>
    if s.reads ch = 0 ∨ n = 0 ∨ (s.pipe ch).length < n then s
    else
      { s with
        reads := upd s.reads ch (s.reads ch - 1)
        buf := upd s.buf ch ((s.pipe ch).take n ++ (s.buf ch).drop n)
        pipe := upd s.pipe ch ((s.pipe ch).drop n)
        port := s.port ++ [⟨ch, n, true⟩] }
  | .broken ch =>
    if s.reads ch = 0 ∨ s.isOpen ch ∨ (s.pipe ch) ≠ [] then s
    else { s with reads := upd s.reads ch (s.reads ch - 1), port := s.port ++ [⟨ch, 0, false⟩] }
  | .deliver =>
    match s.port with
    | [] => s
    | p :: ps => if s.registered then notified { s with port := ps } p else { s with port := ps }
  | .death => if s.enabled && (s.ended s.gen).isSome then tryToRetrieveExitCode s else s
  | .call => if s.calls = 0 then s else tryToRetrieveExitCode { s with calls := s.calls - 1 }
  | .timer => if s.timers = 0 then s else tryToRetrieveExitCode { s with timers := s.timers - 1 }

/-- A sequence of events. -/
def run (s : St) (evs : List Ev) : St := evs.foldl step s

end Jom.Life
