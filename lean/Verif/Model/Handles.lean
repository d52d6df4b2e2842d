/- The handles that a `Process` opens and closes (src/jomlib/jomprocess.cpp). -/
namespace Jom.Handles

/-- What the operating system sees, newest first.  Handles are numbers.  Simplification: Windows reuses the values of closed handles;
here every handle has its own value, so that a handle that is closed twice is noticed. -/
inductive Os where
  /-- A handle is opened; `inherit` tells whether it is inherited by processes that are created later. -/
  | opened (h : Nat) (inherit : Bool)
  /-- `CloseHandle` is called. -/
  | closed (h : Nat)
  /-- `CreateProcess` has created a process with these standard handles for object `k`. -/
  | created (k : Nat) (stdin stdout stderr : Option Nat)
  /-- `Process::start` has failed for object `k`. -/
  | notCreated (k : Nat)
  /-- The end of the process of object `k` has been handled. -/
  | ended (k : Nat)
  /-- `qFatal` -/
  | fatal
  deriving DecidableEq, Repr

/-- The handles opened so far and what the operating system has seen. -/
structure W where
  next : Nat := 0
  log : List Os := []
  deriving Repr

/-- jomprocess.cpp:57-77: `struct Pipe`; `none` is INVALID_HANDLE_VALUE. -/
structure Pipe where
  hRead : Option Nat := none
  hWrite : Option Nat := none
  deriving DecidableEq, Repr

/-- jomprocess.cpp:114-144: the handles of `ProcessPrivate`; `running` is `m_state == Running` (jomprocess.cpp:146-153). -/
structure Proc where
  stdin : Pipe := {}
  stdout : Pipe := {}
  stderr : Pipe := {}
  hProcess : Option Nat := none
  hThread : Option Nat := none
  running : Bool := false
  deriving DecidableEq, Repr

/-- The operating system opens a handle. -/
def openHandle (w : W) (inherit : Bool) : W := { next := w.next + 1, log := .opened w.next inherit :: w.log }

/-- jomprocess.cpp:79-85: `safelyCloseHandle`; the caller forgets the handle. -/
def closeHandle (w : W) : Option Nat → W
  | none => w
  | some h => { w with log := .closed h :: w.log }

/-- The result of one call of `CreateNamedPipe`: a handle, ERROR_PIPE_BUSY or another error. -/
inductive Attempt where
  | ok
  | busy
  | error
  deriving DecidableEq, Repr

/-- What the operating system answers in `setupPipe`: the calls of `CreateNamedPipe` (busy behind the end of the list) and whether
`CreateFile` works. -/
structure PipeAnswer where
  attempts : List Attempt := [.ok]
  file : Bool := true
  deriving Repr

/-- jomprocess.cpp:292-321: the loop around `CreateNamedPipe` with the remaining number of attempts.  `none` if there is another
error, `some none` if the pipe was busy in all attempts. -/
def createPipe (inherit : Bool) : Nat → List Attempt → W → Option (Option Nat) × W
  | 0, _, w => (some none, w)
  | _ + 1, [], w => (some none, w)
  | _ + 1, .ok :: _, w => (some (some w.next), openHandle w inherit)
  | n + 1, .busy :: as, w => createPipe inherit n as w
  | _ + 1, .error :: _, w => (none, w)

/-- jomprocess.cpp:285-345: `setupPipe`.  The reading end is inherited for `InputPipe`, the writing end for `OutputPipe`.
(`ConnectNamedPipe` and the restoration of `sa->bInheritHandle`, which every call sets itself, have no effect here.) -/
def setupPipe (w : W) (input : Bool) (a : PipeAnswer) : Option Pipe × W :=
  match createPipe input 1000 a.attempts w with
  | (none, w) => (none, w)
  | (some hRead, w) =>
    if a.file then (some { hRead := hRead, hWrite := some w.next }, openHandle w (!input))
    else (none, closeHandle w hRead)

/-- What the operating system answers in `Process::start`. -/
structure Answers where
  stdin : PipeAnswer := {}
  stdout : PipeAnswer := {}
  stderr : PipeAnswer := {}
  /-- `startRead` works for both pipes -/
  read : Bool := true
  /-- `CreateProcess` works -/
  create : Bool := true
  deriving Repr

/-- jomprocess.cpp:347-409: `Process::start` of object `k`, which need not be fresh: the pipes of an earlier call are overwritten.  `none`: `qFatal`. -/
def start (k : Nat) (w : W) (p : Proc) (a : Answers) : Option Proc × W :=
  match setupPipe w true a.stdin with
  | (none, w) => (none, w)
  | (some i, w) =>
    match setupPipe w false a.stdout with
    | (none, w) => (none, w)
    | (some o, w) =>
      match setupPipe w false a.stderr with
      | (none, w) => (none, w)
      | (some e, w) =>
        let p := { p with stdin := i, stdout := o, stderr := e }
        if !a.read || !a.create then
          (some { p with running := false }, { w with log := .notCreated k :: w.log })
        else
          let w := { w with log := .created k i.hRead o.hWrite e.hWrite :: w.log }
          let hProcess := w.next
          let w := openHandle w false
          let hThread := w.next
          let w := openHandle w false
          let w := closeHandle w i.hRead
          let w := closeHandle w i.hWrite
          let w := closeHandle w o.hWrite
          let w := closeHandle w e.hWrite
          (some { stdin := {}, stdout := { hRead := o.hRead }, stderr := { hRead := e.hRead }, hProcess := some hProcess,
                  hThread := some hThread, running := true }, w)

/-- commandexecutor.cpp:213-255: the end of `executeCurrentCommandLine`.  `direct` is there if the command line is simple and does not
begin with the name of a shell builtin; if the process could not be started, and otherwise at once, the command is
started through the shell.  `none`: `qFatal`. -/
def command (k : Nat) (w : W) (p : Proc) (direct : Option Answers) (shell : Answers) : Option Proc × W :=
  let viaShell (w : W) (p : Proc) : Option Proc × W :=
    match start k w p shell with
    | (none, w) => (none, w)
    | (some p, w) => if p.running then (some p, w) else (none, w)
  match direct with
  | none => viaShell w p
  | some a =>
    match start k w p a with
    | (none, w) => (none, w)
    | (some p, w) => if p.running then (some p, w) else viaShell w p

/-- jomprocess.cpp:423-444: `Process::onProcessFinished` of object `k` while the process is running. -/
def finished (k : Nat) (w : W) (p : Proc) : Proc × W :=
  let w := closeHandle w p.stdout.hRead
  let w := closeHandle w p.stderr.hRead
  let w := closeHandle w p.hProcess
  let w := closeHandle w p.hThread
  ({ p with stdout := { p.stdout with hRead := none }, stderr := { p.stderr with hRead := none }, hProcess := none,
            hThread := none, running := false }, { w with log := .ended k :: w.log })

/-- The objects of all executors; after `qFatal` jom has ended. -/
structure Sys where
  procs : List Proc
  w : W := {}
  fatal : Bool := false
  deriving Repr

inductive Event where
  /-- Executor `k`, which runs no process, executes a command. -/
  | command (k : Nat) (direct : Option Answers) (shell : Answers)
  /-- The end of the process of executor `k` is noticed. -/
  | finished (k : Nat)
  deriving Repr

def init (jobs : Nat) : Sys := { procs := List.replicate jobs {} }

/-- An executor executes its next command when the end of the last one was reported (commandexecutor.cpp:99-127). -/
def step (s : Sys) : Event → Option Sys
  | .command k direct shell =>
    match s.procs[k]? with
    | none => none
    | some p =>
      if s.fatal || p.running then none
      else match command k s.w p direct shell with
        | (none, w) => some { s with w := { w with log := .fatal :: w.log }, fatal := true }
        | (some p, w) => some { s with procs := s.procs.set k p, w := w }
  | .finished k =>
    match s.procs[k]? with
    | none => none
    | some p =>
      if s.fatal || !p.running then none
      else let r := finished k s.w p
        some { s with procs := s.procs.set k r.1, w := r.2 }

def run (s : Sys) : List Event → Option Sys
  | [] => some s
  | e :: es => (step s e).bind fun s => run s es

def Reachable (jobs : Nat) (s : Sys) : Prop := ∃ es, run (init jobs) es = some s

end Jom.Handles
