/-
Model of the command line: `Options` and `GlobalOptions` (src/jomlib/options.{h,cpp}), the flags taken from the
environment (`getCommandLineArguments`) and the decision about the job server (`initJobServer`), both in
src/app/main.cpp.

Simplifications: messages are omitted; the contents of command files are given by a function from file names to
lines (each with its line end); letters outside ASCII have no upper case, so that the two characters outside
ASCII whose upper case is an ASCII letter (U+0131, U+017F) count as unknown options here.
-/
import Verif.Model.Helpers
import Verif.Model.MacroTable

namespace Jom.Cmd

/-- `Options` (options.h 44-70) with the initial values of the constructor (options.cpp 47-72).
`stderrFile` is `none` while the string is null. -/
structure Opts where
  buildAllTargets : Bool := false
  buildIfTimeStampsAreEqual : Bool := false
  showLogo : Bool := true
  suppressOutputMessages : Bool := false
  overrideEnvVarMacros : Bool := false
  displayIncludeFileNames : Bool := false
  dryRun : Bool := false
  stopOnErrors : Bool := true
  buildUnrelatedTargetsOnError : Bool := false
  checkTimeStampsButDoNotBuild : Bool := false
  changeTimeStampsButDoNotBuild : Bool := false
  ignorePredefinedRulesAndMacros : Bool := false
  suppressExecutedCommandsDisplay : Bool := false
  printWorkingDir : Bool := false
  batchModeEnabled : Bool := true
  dumpInlineFiles : Bool := false
  dumpDependencyGraph : Bool := false
  dumpDependencyGraphDot : Bool := false
  displayMakeInformation : Bool := false
  showUsageAndExit : Bool := false
  displayBuildInfo : Bool := false
  debugMode : Bool := false
  showVersionAndExit : Bool := false
  stderrFile : Option Str := none
deriving DecidableEq, Repr

/-- How reading the command line ends early. -/
inductive Err where
  /-- `readCommandLineArguments` returns false: usage is shown, exit code 128 (main.cpp 162-164). -/
  | usage
  /-- `exit(128)` because of an invalid macro name (options.cpp 107-110). -/
  | invalidMacroName
  /-- An exception of the macro table. -/
  | macroError (e : MacroErr)
  /-- `QString::at` outside of the text. -/
  | fault
deriving DecidableEq, Repr

/-- What `handleCommandLineOption` changes: `*this`, `g_options` (options.h 77-83), `makefile` (`none` while
null) and `makeflags`. -/
structure St where
  opts : Opts := {}
  jobs : Int
  jobsSet : Bool := false
  makefile : Option Str := none
  makeflags : Str := []
deriving DecidableEq, Repr

/-- The value of a text of decimal digits. -/
def digitsValue (s : Str) : Nat := s.foldl (fun n c => 10 * n + (c.toNat - 48)) 0

/-- A leading `+` is skipped. -/
def dropPlus : Str → Str
  | [] => []
  | c :: r => if c == '+' then r else c :: r

/-- `QString::toUInt(&ok)`: blanks around an optional `+` and decimal digits; `none` is `!ok`. -/
def toUInt? (s : Str) : Option Nat :=
  let d := dropPlus (trimmed s)
  if !d.isEmpty && d.all isDigit && digitsValue d < 4294967296 then some (digitsValue d) else none

/-- `QString::toInt(&ok)`: as `toUInt?`, also with `-`. -/
def toInt? (s : Str) : Option Int :=
  let t := trimmed s
  let neg := startsWith t ['-']
  let d := if neg then t.drop 1 else dropPlus t
  if !d.isEmpty && d.all isDigit then
    let v : Int := if neg then - (digitsValue d : Int) else digitsValue d
    if -2147483648 ≤ v ∧ v ≤ 2147483647 then some v else none
  else none

/-- Conversion of `unsigned int` to `int` (options.cpp 297): modulo 2^32. -/
def uintToInt (n : Nat) : Int := if n < 2147483648 then n else (n : Int) - 4294967296

/-- The tests for long option names, options.cpp 193-216: the rest of the argument and the new state. -/
def longOption (st : St) (arg : Str) : St × Str :=
  if arg.length > 1 then
    let u := toUpper arg
    if startsWith u c!"NOLOGO" then
      ({ st with makeflags := st.makeflags ++ ['L'], opts := { st.opts with showLogo := false } }, arg.drop 6)
    else if startsWith u c!"DUMPGRAPHDOT" then
      ({ st with opts := { st.opts with dumpDependencyGraph := true, dumpDependencyGraphDot := true,
                                        showLogo := false } }, arg.drop 12)
    else if startsWith u c!"DUMPGRAPH" then
      ({ st with opts := { st.opts with dumpDependencyGraph := true, showLogo := false } }, arg.drop 9)
    else if startsWith u c!"DEBUG" then
      ({ st with opts := { st.opts with debugMode := true } }, arg.drop 5)
    else if startsWith u c!"ERRORREPORT" then (st, arg.drop 11)
    else if startsWith u c!"VERSION" then
      ({ st with opts := { st.opts with showVersionAndExit := true } }, arg.drop 7)
    else (st, arg)
  else (st, arg)

/-- The options of one letter without argument, options.cpp 254-341; `none` is `default:`. -/
def simpleOption (o : Opts) (upper : Char) : Option Opts :=
  match upper with
  | 'A' => some { o with buildAllTargets := true }
  | 'B' => some { o with buildIfTimeStampsAreEqual := true }
  | 'C' => some { o with suppressOutputMessages := true }
  | 'D' => some { o with displayBuildInfo := true }
  | 'E' => some { o with overrideEnvVarMacros := true }
  | 'G' => some { o with displayIncludeFileNames := true }
  | 'H' => some { o with showUsageAndExit := true }
  | '?' => some { o with showUsageAndExit := true }
  | 'I' => some { o with stopOnErrors := false }
  | 'K' => some { o with buildUnrelatedTargetsOnError := true }
  | 'L' => some { o with showLogo := false }
  | 'N' => some { o with dryRun := true }
  | 'P' => some { o with displayMakeInformation := true }
  | 'Q' => some { o with checkTimeStampsButDoNotBuild := true }
  | 'R' => some { o with ignorePredefinedRulesAndMacros := true }
  | 'S' => some { o with suppressExecutedCommandsDisplay := true }
  | 'T' => some { o with changeTimeStampsButDoNotBuild := true }
  | 'U' => some { o with dumpInlineFiles := true }
  | 'W' => some { o with printWorkingDir := true }
  | 'Y' => some { o with batchModeEnabled := false }
  | _ => none

/-- The argument of `F` and `X` (options.cpp 226-252): the rest of the argument or the next argument.  Result:
the name and the remaining arguments. -/
def fileArg (arg : Str) (arguments : List Str) : Except Err (Str × List Str) :=
  if arg.isEmpty then
    match arguments with
    | [] => .error .usage
    | a :: r => .ok (a, r)
  else .ok (arg, arguments)

/-- The argument of `J`, options.cpp 279-295: number, rest of the argument, remaining arguments. -/
def jobsArg (arg : Str) (arguments : List Str) : Except Err (Str × Str × List Str) :=
  if arg.isEmpty then
    match arguments with
    | [] => .error .usage
    | a :: r => .ok (a, [], r)
  else
    let n := arg.takeWhile isDigit
    .ok (n, arg.drop n.length, arguments)

/-- The use of the number behind `J`, options.cpp 296-309. -/
def setJobs (st : St) (n : Str) : Except Err St :=
  match toUInt? n with
  | none => .error .usage
  | some v =>
    if uintToInt v < 1 then .error .usage
    else
      match st.makeflags.getLast? with
      | none => .error .fault
      | some l =>
        .ok { st with
          jobs := uintToInt v, jobsSet := true,
          makeflags := if toUpperC l == 'J' then st.makeflags ++ n else st.makeflags }

/-- One letter, options.cpp 221-350: `ch` has been removed from the argument, `arg` is the rest.
Result: state, rest of the argument, remaining arguments. -/
def letter (st : St) (ch : Char) (arg : Str) (arguments : List Str) : Except Err (St × Str × List Str) :=
  let st := if st.makeflags.contains ch then st else { st with makeflags := st.makeflags ++ [ch] }
  let u := toUpperC ch
  if u == 'F' then do
    let (f, r) ← fileArg arg arguments
    .ok ({ st with makeflags := st.makeflags.dropLast, makefile := some f }, [], r)
  else if u == 'X' then do
    let (f, r) ← fileArg arg arguments
    .ok ({ st with makeflags := st.makeflags.dropLast, opts := { st.opts with stderrFile := some f } }, [], r)
  else if u == 'J' then do
    let (n, a, r) ← jobsArg arg arguments
    let st ← setJobs st n
    .ok (st, a, r)
  else
    match simpleOption st.opts u with
    | some o => .ok ({ st with opts := o }, arg, arguments)
    | none => .error .usage

/-- The loop of `Options::handleCommandLineOption`, options.cpp 191-351; `n` bounds the number of rounds. -/
def handleLoop : Nat → St → Str → List Str → Except Err (St × List Str)
  | 0, st, _, arguments => .ok (st, arguments)
  | n + 1, st, arg, arguments =>
    if arg.isEmpty then .ok (st, arguments)
    else
      let (st, arg) := longOption st arg
      match arg with
      | [] => .ok (st, arguments)
      | ch :: arg => do
        let (st, arg, arguments) ← letter st ch arg arguments
        handleLoop n st arg arguments

/-- `Options::handleCommandLineOption` (options.cpp 189-354): every round removes at least one character
(`body_run` and `run_body` show that the bound never ends the loop). -/
def handleOption (st : St) (arg : Str) (arguments : List Str) : Except Err (St × List Str) :=
  handleLoop arg.length st arg arguments

/-- The command files, options.cpp 137-187.  `read` gives the lines of a file.  Arguments that do not begin
with `@` stay, the arguments found in command files are appended. -/
def commandFiles (read : Str → Option (List Str)) : List Str → List Str → List Str → Except Err (List Str)
  | [], kept, new => .ok (kept ++ new)
  | a :: rest, kept, new =>
    match a with
    | '@' :: name =>
      match name with
      | [] => .error .fault
      | q :: r =>
        let file := if q == '"' && endsWith name ['"'] then (r.dropLast) else name
        match read file with
        | none => .error .usage
        | some lines =>
          let new := (new ++ lines.flatMap splitCommandLine).filter fun x => !startsWith x ['@']
          commandFiles read rest kept new
    | _ => commandFiles read rest (kept ++ [a]) new

/-- `Options::expandCommandFiles` (options.cpp 137-187). -/
def expandCommandFiles (read : Str → Option (List Str)) (arguments : List Str) : Except Err (List Str) :=
  commandFiles read arguments [] []

/-- State of `readCommandLineArguments`: options, targets, macros and `explicitlyDefinedMacros`. -/
structure Line where
  st : St
  targets : List Str := []
  table : MacroTable
  explicit : List Str := []
deriving DecidableEq, Repr

/-- The macro table throws through `readCommandLineArguments`. -/
def liftMacro {α : Type} : Except MacroErr α → Except Err α
  | .ok a => .ok a
  | .error e => .error (.macroError e)

/-- A macro definition on the command line, options.cpp 103-121. -/
def macroArg (l : Line) (arg : Str) (idx : Nat) : Except Err Line := do
  let name := trimmed (arg.take idx)
  if !isMacroNameValid name then .error .invalidMacroName
  else
    let value := trimLeft (arg.drop (idx + 1))
    let l ← (if l.explicit.contains name then .ok l
      else do
        let t ← liftMacro (defineCommandLineMacroValue l.table name value)
        .ok { l with table := t, explicit := name :: l.explicit })
    let upperName := toUpper name
    if upperName != name && !l.explicit.contains upperName then do
      let t ← liftMacro (defineImplicitCommandLineMacroValue l.table upperName value)
      .ok { l with table := t }
    else .ok l

/-- The loop over the arguments, options.cpp 92-127; `n` bounds the number of rounds. -/
def argLoop : Nat → Line → List Str → Except Err Line
  | _, l, [] => .ok l
  | 0, l, _ => .ok l
  | n + 1, l, arg :: arguments =>
    match arg with
    | [] => .error .fault
    | c :: body =>
      if c == '-' || c == '/' then do
        let (st, arguments) ← handleOption l.st (trimmed body) arguments
        argLoop n { l with st := st } arguments
      else
        match indexOf? ['='] arg with
        | some idx => do
          let l ← macroArg l arg idx
          argLoop n l arguments
        | none =>
          let t := trimmed arg
          argLoop n (if l.targets.contains t then l else { l with targets := l.targets ++ [t] }) arguments

/-- The end of `readCommandLineArguments`, options.cpp 129-135. -/
def finish (l : Line) : Except Err Line := do
  let o := l.st.opts
  let o := if !o.stopOnErrors && o.buildUnrelatedTargetsOnError
    then { o with buildUnrelatedTargetsOnError := false } else o
  let t ← liftMacro (setMacroValue l.table c!"MAKEFLAGS" l.st.makeflags)
  .ok { l with
    st := { l.st with opts := o, makefile := some (l.st.makefile.getD c!"Makefile") }, table := t }

/-- `Options::readCommandLineArguments` (options.cpp 83-135).  `cpus` is the initial value of
`g_options.maxNumberOfJobs` (options.cpp 41-45). -/
def readCommandLine (read : Str → Option (List Str)) (cpus : Int) (table : MacroTable) (arguments : List Str) :
    Except Err Line := do
  let arguments ← expandCommandFiles read arguments
  let l ← argLoop arguments.length { st := { jobs := cpus }, table := table } arguments
  finish l

/-- `getCommandLineArguments` (main.cpp 100-113): the flags of the environment come first. -/
def commandLineArguments (jomflags makeflags : Str) (arguments : List Str) : List Str :=
  let f := if jomflags.isEmpty then makeflags else jomflags
  if f.isEmpty then arguments
  else
    let f := if startsWith f ['-'] then f.drop 1 else f
    if f.isEmpty then arguments else ('/' :: f) :: arguments

/-- The decision of `initJobServer` (main.cpp 115-147): `some n` — a job server is started with `n` tokens
(`JobServer::start`, jobserver.cpp 47-66), `none` — the inherited one is used.  `sub` is `isSubJOM()`,
`count` the variable `_JOMJOBCOUNT_` (empty if not set). -/
def initJobServer (sub : Bool) (count : Str) (jobs : Int) (jobsSet : Bool) : Option Int :=
  let must :=
    if sub then
      let inherited :=
        if count.isEmpty then jobs
        else match toInt? count with
          | some n => if n > 0 then n else jobs
          | none => jobs
      jobsSet && jobs != inherited
    else true
  if must then some (jobs - 1) else none

end Jom.Cmd
