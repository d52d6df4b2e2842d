/-
Model of `CommandExecutor` (src/jomlib/commandexecutor.cpp): one executor as a state machine, inline files, and the
executors of one jom that share their environment.

* The texts of messages are reduced to events of the log, which is cleared when a target is started.
* What Windows answers is a parameter: which files exist, which command lines can be started (`World`), exit codes
  (events), the clock.
* `fileNameFromFilePath` of a target name, the process id and the clock make the names of temporary files; the model
  takes the sequence of the candidates as parameter.
* The calls `onProcessFinished` ↔ `executeCurrentCommandLine` are nested in the code; the stack is unbounded here.
-/
import Verif.Model.Inference
import Verif.Model.Process

namespace Jom.Exec
open Inference (Command InlineFile)

/-- What one sees of the commands of a target: `begin i` = the `i`-th command is looked at; `print` = text on standard output;
`error` = message on standard error; `run` = a process has been started (command line, working directory,
environment); `chdir`, `assign` = effects of the builtins `cd` and `set`; `ended i code` = the `i`-th command is over;
`finished failed` = the signal `finished`. -/
inductive Ev where
  | «begin» (i : Nat)
  | print (text : Str)
  | error (text : Str)
  | run (line dir : Str) (env : List (Str × Str))
  | chdir (dir : Str)
  | assign (name value : Str)
  | ended (i code : Nat)
  | finished (failed : Bool)
deriving DecidableEq, Repr

/-- Answers of the system: `starts n dir line` — whether the `n`-th attempt to start a process, with this working directory
and command line, succeeds; `abs` — `QFileInfo(name).absoluteFilePath()` if the file or directory exists; `cwd` — the
current directory of jom; `comSpec` — the variable ComSpec. -/
structure World where
  starts : Nat → Str → Str → Bool
  abs : Str → Option Str
  cwd : Str
  comSpec : Str

/-- The options used here (options.h). -/
structure Opts where
  dryRun : Bool := false
  silent : Bool := false
deriving DecidableEq, Repr

/-- State of an executor (commandexecutor.h 76-92): `cmds` = the commands from `m_currentCommandIdx` on; `dir`, `nextDir` =
working directory of the process and `m_nextWorkingDir` (empty = not set); `running` = `m_process.isRunning()`;
`temps` = `m_tempFiles` (name, keep); `fatal` = the program was ended by `qFatal`; `ub` = undefined behaviour;
`attempts` counts calls of `Process::start`; `log` = what happened since the start of the target. -/
structure St where
  env : List (Str × Str)
  cmds : List Command := []
  idx : Nat := 0
  dir : Str := []
  nextDir : Str := []
  active : Bool := false
  running : Bool := false
  fatal : Bool := false
  ub : Bool := false
  attempts : Nat := 0
  temps : List (Str × Bool) := []
  log : List Ev := []
deriving DecidableEq, Repr

/-- Adds events to the log. -/
def St.say (s : St) (evs : List Ev) : St := { s with log := s.log ++ evs }

/-- `finishExecution` (commandexecutor.cpp 127-131). The slot `TargetExecutor::onChildFinished` starts no command on this
executor before it returns (targetexecutor.cpp 224-267: `startProcesses` is queued). -/
def finish (failed : Bool) (s : St) : St := { s with active := false }.say [.finished failed]

/-- `onProcessFinished` (commandexecutor.cpp 99-125) for the command `c`; `k` is `executeCurrentCommandLine` for the commands
`later`. -/
def onFinished (c : Command) (later : List Command) (code : Nat) (k : St → St) (s : St) : St :=
  let s := s.say [.ended s.idx code]
  if code > c.cmd.maxExitCode then finish true (s.say [.error []])
  else
    let s := { s with idx := s.idx + 1 }
    if later.isEmpty then finish false s else k s

/-- `commandLineStartsWithCommand` (commandexecutor.cpp 138-143). -/
def startsWithCommand (line word : Str) : Bool :=
  match line.drop word.length with
  | [] => false
  | c :: _ => isSpace c && startsWith (toLower line) word

/-- The names in the regular expression of `startsWithShellBuiltin` (commandexecutor.cpp 147-150). -/
def shellBuiltins : List Str :=
  [c!"assoc", c!"break", c!"call", c!"chdir", c!"cd", c!"cls", c!"color", c!"copy", c!"del", c!"dir", c!"echo",
   c!"endlocal", c!"erase", c!"exit", c!"for", c!"ftype", c!"goto", c!"if", c!"md", c!"move", c!"path", c!"pause",
   c!"popd", c!"prompt", c!"pushd", c!"ren", c!"rename", c!"setlocal", c!"shift", c!"time", c!"title", c!"type",
   c!"ver", c!"verify", c!"vol"]

/-- `startsWithShellBuiltin` (commandexecutor.cpp 145-152). -/
def startsWithShellBuiltin (line : Str) : Bool := shellBuiltins.any fun w => startsWithCommand line w

/-- `rexShellComment` (commandexecutor.cpp 171-173). -/
def isComment (line : Str) : Bool := startsWith line [':'] || startsWithCommand line c!"rem"

/-- `isSimpleCommandLine` (commandexecutor.cpp 345-349). -/
def isSimple (line : Str) : Bool := !line.any fun c => c == '|' || c == '>' || c == '<' || c == '&'

/-- `exec_cd` (commandexecutor.cpp 351-391): new state and success. -/
def execCd (w : World) (line : Str) (s : St) : St × Bool :=
  let args := trimmed (line.drop 3)
  if args.isEmpty then (s.say [.print (if s.dir.isEmpty then w.cwd else s.dir)], true)
  else
    let d := startsWith (toLower args) c!"/d"
    let args := if d then trimmed (args.drop 3) else args
    if d && args.isEmpty then (s, true)
    else
      let args := removeDoubleQuotes args
      match w.abs args with
      | none => (s.say [.error args], false)
      | some p => ({ s with nextDir := p }.say [.chdir p], true)

/-- The builtin `set` (commandexecutor.cpp 193-203). -/
def execSet (line : Str) (s : St) : St :=
  let a := trimmed (line.drop 4)
  match indexOf? ['='] a with
  | none => s
  | some i => { s with env := envSet (a.take i) (a.drop (i + 1)) s.env }.say [.assign (a.take i) (a.drop (i + 1))]

/-- The command line for the shell (commandexecutor.cpp 232-248): the loop that counts quotes never advances, so that one
quote counts as three. -/
def shellLine (w : World) (line : Str) : Str :=
  let line := if line.contains '"' then ['"'] ++ line ++ ['"'] else line
  (if w.comSpec.isEmpty then c!"cmd.exe" else w.comSpec) ++ c!" /C " ++ line

/-- `m_process.start(line)` (jomprocess.cpp 347-409); the result tells whether the process is running. -/
def tryStart (w : World) (line : Str) (s : St) : St × Bool :=
  if w.starts s.attempts s.dir line then
    ({ s with attempts := s.attempts + 1, running := true }.say [.run line s.dir s.env], true)
  else ({ s with attempts := s.attempts + 1 }, false)

/-- How an attempt to execute a command ends: it is over (builtins, comments), a process is running, or no process
could be started. -/
inductive Res where
  | over (code : Nat)
  | running
  | notStarted
deriving DecidableEq, Repr

/-- `executeCurrentCommandLine` (commandexecutor.cpp 154-251) up to the calls of `onProcessFinished`. -/
def attempt (w : World) (o : Opts) (c : Command) (s : St) : St × Res :=
  let s := if o.dryRun || (!c.cmd.silent && !o.silent) then s.say [.print c.cmd.line] else s
  let line := replaceAll c!"%%" c!"%" c.cmd.line
  if o.dryRun || isComment line then (s, .over 0)
  else
    let s := if s.nextDir.isEmpty then s else { s with dir := s.nextDir, nextDir := [] }
    if isSimple line && startsWithCommand line c!"cd" then
      let (s, ok) := execCd w line s
      (s, .over (if ok then 0 else 1))
    else if isSimple line && startsWithCommand line c!"set" then (execSet line s, .over 0)
    else
      let (s, ok) := if isSimple line && !startsWithShellBuiltin line then tryStart w line s else (s, false)
      if ok then (s, .running)
      else
        let (s, ok) := tryStart w (shellLine w line) s
        (s, if ok then .running else .notStarted)

/-- `executeCurrentCommandLine` (commandexecutor.cpp 154-255); the list are the commands from the current one on. If the shell
cannot be started, `Process::start` emits `error`, `onProcessError` calls `onProcessFinished(2)`, and afterwards
the program ends with `qFatal` unless the next command has been started meanwhile. -/
def execute (w : World) (o : Opts) : List Command → St → St
  | [], s => { s with ub := true }
  | c :: later, s =>
    match attempt w o c ({ s with cmds := c :: later }.say [.begin s.idx]) with
    | (s, .over code) => onFinished c later code (execute w o later) s
    | (s, .running) => s
    | (s, .notStarted) =>
      let s := onFinished c later 2 (execute w o later) s
      if s.running then s else { s with fatal := true }

/-- The exit code that `CommandExecutor::onProcessFinished` sees (jomprocess.cpp 437-443, commandexecutor.cpp 102-103): a
crash counts as 2. -/
def effectiveCode (exitCode : Nat) : Nat :=
  if exitCode = 0xf291 ∨ 2147483648 ≤ exitCode then 2 else exitCode

/-- The process has ended with this code (`DWORD`): `Process::tryToRetrieveExitCode`, `Process::onProcessFinished`
(jomprocess.cpp 411-444) and `CommandExecutor::onProcessFinished` (99-125). The code 259 is `STILL_ACTIVE`: jom asks
again after 250 ms. -/
def processEnded (w : World) (o : Opts) (exitCode : Nat) (s : St) : St :=
  if !s.running || exitCode = 259 then s
  else
    match s.cmds with
    | [] => { s with ub := true }
    | c :: later => onFinished c later (effectiveCode exitCode) (execute w o later) { s with running := false }

/-! ### Inline files -/

/-- The file system: contents of the existing files. -/
abbrev FS := Str → Option Str

/-- The loop that looks for a new name (commandexecutor.cpp 266-273): the first candidate from the `k`-th on that does not
exist, and the number of the next candidate. -/
def freshName (fs : FS) (cand : Nat → Str) : Nat → Nat → Option (Str × Nat)
  | 0, _ => none
  | n + 1, k => if (fs (cand k)).isSome then freshName fs cand n (k + 1) else some (cand k, k + 1)

/-- Quotes around a name with blanks (commandexecutor.cpp 299-303). -/
def quoteName (name : Str) : Str :=
  if name.contains ' ' || name.contains '\t' then ['"'] ++ name ++ ['"'] else name

/-- State of `createTempFiles`. -/
structure TempSt where
  fs : FS
  next : Nat
  temps : List (Str × Bool)

/-- Why `createTempFiles` does not end normally: `cannotOpen` = exception; `noName` = the loop does not end within the
bound. -/
inductive TempErr where
  | cannotOpen (name : Str)
  | noName
deriving DecidableEq, Repr

/-- One inline file (commandexecutor.cpp 263-309): the new command line.  `native` is `toNativeSeparators`, `writable` tells
whether the file can be opened for writing. -/
def createTemp (writable : Str → Bool) (native : Str → Str) (cand : Nat → Str) (fuel : Nat) (f : InlineFile) (line : Str)
    (t : TempSt) : Except TempErr (Str × TempSt) := do
  let (name, next) ← (if f.filename.isEmpty then
      (match freshName t.fs cand fuel t.next with
        | none => .error .noName
        | some r => .ok r)
    else .ok (f.filename, t.next))
  if !writable name then .error (.cannotOpen name)
  else
    let line := match indexOf? c!"<<" line with
      | some (i + 1) => line.take (i + 1) ++ quoteName (native name) ++ line.drop (i + 3)
      | _ => line
    .ok (line, { fs := fun x => if x = name then some f.content else t.fs x, next := next,
                 temps := t.temps ++ [(name, f.keep)] })

/-- The inline files of one command. -/
def createTempsOf (writable : Str → Bool) (native : Str → Str) (cand : Nat → Str) (fuel : Nat) :
    List InlineFile → Str → TempSt → Except TempErr (Str × TempSt)
  | [], line, t => .ok (line, t)
  | f :: files, line, t => do
    let (line, t) ← createTemp writable native cand fuel f line t
    createTempsOf writable native cand fuel files line t

/-- `createTempFiles` (commandexecutor.cpp 257-312) for all commands of a target. -/
def createTemps (writable : Str → Bool) (native : Str → Str) (cand : Nat → Str) (fuel : Nat) :
    List Command → TempSt → Except TempErr (List Command × TempSt)
  | [], t => .ok ([], t)
  | c :: cmds, t => do
    let (line, t) ← createTempsOf writable native cand fuel c.files c.cmd.line t
    let (cmds, t) ← createTemps writable native cand fuel cmds t
    .ok ({ c with cmd := { c.cmd with line := line } } :: cmds, t)

/-- `cleanupTempFiles` (commandexecutor.cpp 314-321): the last file first. -/
def cleanup (temps : List (Str × Bool)) (fs : FS) : FS :=
  temps.foldr (fun (f : Str × Bool) fs => if f.2 then fs else fun x => if x = f.1 then none else fs x) fs

/-- `start` (commandexecutor.cpp 71-90). `cmds` are the commands of the target, `expand` is `expandFileNameMacros`. -/
def start (w : World) (o : Opts) (writable : Str → Bool) (native : Str → Str) (cand : Nat → Str) (fuel : Nat)
    (expand : List Command → List Command) (cmds : List Command) (fs : FS) (s : St) : Except TempErr (St × FS) :=
  let s := { s with active := true, log := [], idx := 0 }
  if cmds.isEmpty then .ok (finish false s, fs)
  else do
    let (cmds, t) ← createTemps writable native cand fuel (expand cmds) { fs := cleanup s.temps fs, next := 0, temps := [] }
    .ok (execute w o cmds { s with temps := t.temps, nextDir := [], dir := [] }, t.fs)

/-! ### The executors of one jom -/

/-- The assignments in a log. -/
def assigns : List Ev → List (Str × Str)
  | [] => []
  | .assign n v :: l => (n, v) :: assigns l
  | _ :: l => assigns l

/-- The executors (`m_processes` of `TargetExecutor`) and everything that happened, with the number of the executor. -/
structure Team where
  execs : List St
  trace : List (Nat × Ev) := []

/-- What happens to the executor `k`: it gets the commands of a target (after `expandFileNameMacros` and `createTempFiles`), or
its process ends. -/
inductive TeamEv where
  | start (k : Nat) (cmds : List Command)
  | exited (k code : Nat)
deriving DecidableEq, Repr

/-- The executor `k` has changed to `s` with the new events `new`.  If it has emitted `environmentChanged`, the others have got
its environment: `connect` for all pairs of executors (targetexecutor.cpp 48-60). Between two emissions within one event
nothing happens to the others, so only the last one matters. -/
def Team.update (t : Team) (k : Nat) (s : St) (new : List Ev) : Team :=
  { execs := ((if (assigns new).isEmpty then t.execs else t.execs.map fun x => { x with env := s.env }).set k s)
    trace := t.trace ++ new.map fun e => (k, e) }

/-- One event. -/
def Team.step (w : World) (o : Opts) (t : Team) : TeamEv → Team
  | .start k cmds =>
    match t.execs[k]? with
    | none => t
    | some s =>
      if s.running then t
      else
        let s := execute w o cmds { s with active := true, log := [], idx := 0, dir := [], nextDir := [] }
        t.update k s s.log
  | .exited k code =>
    match t.execs[k]? with
    | none => t
    | some s =>
      let s' := processEnded w o code s
      t.update k s' (s'.log.drop s.log.length)

/-- A sequence of events. -/
def Team.run (w : World) (o : Opts) (t : Team) (evs : List TeamEv) : Team := evs.foldl (Team.step w o) t

end Jom.Exec
