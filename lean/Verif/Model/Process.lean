/-
Model of the output handling and of the environment block of `Process` (src/jomlib/jomprocess.cpp).

* The functions of the I/O thread and of the main thread that touch the buffers exclude each other: a chunk arrives
  under `bufferedOutputModeSwitchMutex`, which `setBufferedOutput` holds while it prints, and
  `onProcessFinished` prints after it has unregistered the channels (under the mutex of the completion port).
  Therefore each of them is one atomic step.
* A chunk of output is a text; `fwrite_binary` writes it completely (jomprocess.cpp 494-516).
* `Process::start`, pipes and handles are not modelled beyond what a pipe holds.
-/
import Verif.Model.MacroTable

namespace Jom.Proc

/-- Standard output and standard error. -/
inductive Chan where
  | out | err
deriving DecidableEq, Repr

/-- `TimeStampedBuffer` (jomprocess.cpp 87-96). -/
structure Chunk where
  time : Nat
  data : Str
deriving DecidableEq, Repr

/-- The output side of a `Process`: `buffered` = `m_bufferedOutput`, `outBuf` and `errBuf` = `buffers` of the two channels,
`written` = what has been written to the streams of jom, with the channel and the time stamp of the chunk. -/
structure Out where
  buffered : Bool := true
  outBuf : List Chunk := []
  errBuf : List Chunk := []
  written : List (Chan × Chunk) := []
deriving DecidableEq, Repr

/-- The loop of `printBufferedOutput` (jomprocess.cpp 546-568): what is written, in order.  `n` bounds the number of
rounds; each one removes a buffer. -/
def printLoop : Nat → List Chunk → List Chunk → List (Chan × Chunk)
  | 0, _, _ => []
  | n + 1, o, e =>
    match o, e with
    | [], [] => []
    | [], b :: e => (.err, b) :: printLoop n [] e
    | a :: o, [] => (.out, a) :: printLoop n o []
    | a :: o, b :: e =>
      if a.time > b.time then (.err, b) :: printLoop n (a :: o) e else (.out, a) :: printLoop n o (b :: e)

/-- `Process::printBufferedOutput` (jomprocess.cpp 546-568). -/
def printBuffered (s : Out) : Out :=
  { s with
    outBuf := [], errBuf := []
    written := s.written ++ printLoop (s.outBuf.length + s.errBuf.length) s.outBuf s.errBuf }

/-- A chunk of output arrives: `OutputChannel::completionPortNotified` (jomprocess.cpp 522-544), and text of jom itself:
`writeToStandardOutput`, `writeToStandardError` (commandexecutor.cpp 329-343, jomprocess.cpp 191-203). -/
def chunk (ch : Chan) (c : Chunk) (s : Out) : Out :=
  if s.buffered then
    match ch with
    | .out => { s with outBuf := s.outBuf ++ [c] }
    | .err => { s with errBuf := s.errBuf ++ [c] }
  else { s with written := s.written ++ [(ch, c)] }

/-- `Process::setBufferedOutput` (jomprocess.cpp 177-189). -/
def setBuffered (b : Bool) (s : Out) : Out :=
  if s.buffered = b then s
  else
    let s := { s with buffered := b }
    if !b then printBuffered s else s

/-- What happens to the output of a process. -/
inductive Op where
  | chunk (ch : Chan) (c : Chunk)
  | setBuffered (b : Bool)
  /-- `onProcessFinished` (jomprocess.cpp 423-444) or the destructor (166-175): the buffered output is printed. -/
  | finished
deriving DecidableEq, Repr

/-- One operation. -/
def Out.step (s : Out) : Op → Out
  | .chunk ch c => Proc.chunk ch c s
  | .setBuffered b => Proc.setBuffered b s
  | .finished => printBuffered s

/-- A sequence of operations. -/
def Out.run (s : Out) (ops : List Op) : Out := ops.foldl Out.step s

/-! ### Pipes -/

/-- A running command and its pipes: `inPipe` = written by the command, not yet read by jom; `ended` = the command has
ended; `done` = `onProcessFinished` has been executed. -/
structure Pipes where
  out : Out := {}
  inPipe : Chan → Str := fun _ => []
  clock : Nat := 0
  ended : Bool := false
  done : Bool := false

/-- `write` = the command writes; `read` = an asynchronous read of jom is completed with the first `n` characters
(jomprocess.cpp 470-492, 522-544); `exit` = the command ends; `notified` = jom learns of the end
(`tryToRetrieveExitCode`, 411-421: by the process handle or by the end of one of the pipes) and calls
`onProcessFinished`, which closes the pipes; `setBuffered` = the output mode is switched. -/
inductive PEv where
  | write (ch : Chan) (text : Str)
  | read (ch : Chan) (n : Nat)
  | exit
  | notified
  | setBuffered (b : Bool)
deriving DecidableEq, Repr

/-- One event; events that are impossible in a state change nothing. -/
def Pipes.step (s : Pipes) : PEv → Pipes
  | .write ch text =>
    if s.ended then s
    else { s with inPipe := fun c => if c = ch then s.inPipe c ++ text else s.inPipe c }
  | .read ch n =>
    if s.done ∨ ((s.inPipe ch).take n).isEmpty then s
    else { s with
      out := Proc.chunk ch ⟨s.clock, (s.inPipe ch).take n⟩ s.out
      inPipe := fun c => if c = ch then (s.inPipe c).drop n else s.inPipe c
      clock := s.clock + 1 }
  | .exit => { s with ended := true }
  | .notified =>
    if s.ended && !s.done then { s with out := printBuffered s.out, inPipe := fun _ => [], done := true } else s
  | .setBuffered b => { s with out := Proc.setBuffered b s.out }

/-- A sequence of events. -/
def Pipes.run (s : Pipes) (evs : List PEv) : Pipes := evs.foldl Pipes.step s

/-! ### Environment block -/

/-- The character that ends a string. -/
def nul : Char := Char.ofNat 0

/-- The loop over the variables, jomprocess.cpp 245-266 (`wchar_t` = character). -/
def envEntries : List (Str × Str) → Str
  | [] => []
  | (k, v) :: l => if k.length + v.length + 2 = 2 then envEntries l else k ++ '=' :: (v ++ nul :: envEntries l)

/-- `copy` in `createEnvBlock` (jomprocess.cpp 214-236): `path` and `systemRoot` are the variables of jom itself (empty if
not set). Variables are in the order of the list; the order of `QMap` (by name) is not modelled. -/
def completeEnv (path systemRoot : Str) (env : List (Str × Str)) : List (Str × Str) :=
  let copy := env
  let copy := if (envLookup c!"Path" copy).isSome || path.isEmpty then copy else envSet c!"Path" path copy
  if (envLookup c!"SystemRoot" copy).isSome || systemRoot.isEmpty then copy else envSet c!"SystemRoot" systemRoot copy

/-- `createEnvBlock` (jomprocess.cpp 210-275); the empty result makes `CreateProcess` pass on the environment of jom. -/
def createEnvBlock (path systemRoot : Str) (env : List (Str × Str)) : Str :=
  if env.isEmpty then []
  else envEntries (completeEnv path systemRoot env) ++ [nul, nul]

end Jom.Proc
