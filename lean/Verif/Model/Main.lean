import Verif.Model.Options
import Verif.Model.Whole

/-!
`main` (src/app/main.cpp 149-231) and `MakefileFactory` (src/jomlib/makefilefactory.cpp) up to the point where the event loop takes over.

Simplifications:
* Messages, the logo and the dumps of `/P` are omitted; opening the files for `/X` either works or not (`writable`).
* The environment of jom is the list of texts `NAME=value` that `QProcess::systemEnvironment` returns; `qGetEnvironmentVariable` and
  `GetEnvironmentVariableA` are lookups in the same environment (all of it is in place when jom starts; jom itself changes `PATH` only).
* Whether the semaphore of a job server can be created (`semaphore`, its key) and whether a job client can attach to it (`client`) is decided outside.
-/

namespace Jom.Main

open Cmd Prepare

/-- What is outside of jom. `dirOf` is `QFileInfo::absolutePath` (makefile.cpp 437-444). -/
structure Outside where
  environment : List Str
  cpus : Int
  commandFile : Str → Option (List Str)
  writable : Str → Bool
  appPath : Str
  currentPath : Str
  world : PP.World
  dirOf : Str → Str
  entries : Str → Str → List Str
  fuel : Nat
  order : List (Str × List Str) → List (Str × List Str)
  keys : List Inference.Rule → List Str
  semaphore : Option Str
  client : Bool

/-- `QString::compare` with `Qt::CaseInsensitive` gives a negative number (on texts that are folded already). -/
def textLess : Str → Str → Bool
  | _, [] => false
  | [], _ :: _ => true
  | c :: s, d :: t => if c = d then textLess s t else decide (c.toNat < d.toNat)

/-- Insertion into a list that is sorted by `ProcessEnvironmentKey` (processenvironment.h 35-66). -/
def insertEntry (e : Str × Str) : List (Str × Str) → List (Str × Str)
  | [] => [e]
  | x :: l => if textLess (toLower x.1) (toLower e.1) then x :: insertEntry e l else e :: x :: l

/-- The order in which a `QMap` is iterated. -/
def sortEntries (l : List (Str × Str)) : List (Str × Str) := l.foldr insertEntry []

/-- One text of `setEnvironment` (makefilefactory.cpp 48-52). -/
def addEntry (m : List (Str × Str)) (e : Str) : List (Str × Str) :=
  match indexOf? ['='] e with
  | none => m
  | some idx => envSet (e.take idx) (e.drop (idx + 1)) m

/-- `MakefileFactory::setEnvironment` (makefilefactory.cpp 46-53). -/
def setEnvironment (env : List Str) : List (Str × Str) := sortEntries (env.foldl addEntry [])

/-- `readEnvironment` (makefilefactory.cpp 63-68). -/
def readEnvironment (readOnly : Bool) : List (Str × Str) → MacroTable → Except MacroErr MacroTable
  | [], t => .ok t
  | (k, v) :: l, t => do
    let t ← defineEnvironmentMacroValue t k v readOnly
    readEnvironment readOnly l t

/-- `isComplexPathName` (makefilefactory.cpp 73-81): the first character is not looked at. -/
def isComplexPathName (path : Str) : Bool := (path.drop 1).any isSpace

/-- `encloseInDoubleQuotesIfNeeded` (makefilefactory.cpp 86-95). -/
def encloseInDoubleQuotesIfNeeded (path : Str) : Str := if isComplexPathName path then '"' :: (path ++ ['"']) else path

/-- The predefined macros (makefilefactory.cpp 136-156). -/
def predefined (appPath currentPath : Str) : List (Str × Str) :=
  [(c!"MAKE", encloseInDoubleQuotesIfNeeded (Parse.toNative appPath)),
   (c!"MAKEDIR", encloseInDoubleQuotesIfNeeded (Parse.toNative currentPath)),
   (c!"AS", c!"ml"), (c!"ASFLAGS", []), (c!"BC", c!"bc"), (c!"BCFLAGS", []), (c!"CC", c!"cl"), (c!"CCFLAGS", []),
   (c!"COBOL", c!"cobol"), (c!"COBOLFLAGS", []), (c!"CPP", c!"cl"), (c!"CPPFLAGS", []), (c!"CXX", c!"cl"), (c!"CXXFLAGS", []),
   (c!"FOR", c!"fl"), (c!"FORFLAGS", []), (c!"PASCAL", c!"pl"), (c!"PASCALFLAGS", []), (c!"RC", c!"rc"), (c!"RCFLAGS", [])]

/-- Calls of `predefineValue`. -/
def predefineAll : List (Str × Str) → MacroTable → Except MacroErr MacroTable
  | [], t => .ok t
  | (k, v) :: l, t => do
    let t ← predefineValue t k v
    predefineAll l t

/-- The macros before the makefile is read (makefilefactory.cpp 134-157). -/
def initialMacros (w : Outside) (o : Opts) (t : MacroTable) : Except MacroErr MacroTable := do
  let t ← readEnvironment o.overrideEnvVarMacros (setEnvironment w.environment) t
  if o.ignorePredefinedRulesAndMacros then .ok t else predefineAll (predefined w.appPath w.currentPath) t

/-- The arguments, with the flags of the environment in front (main.cpp 100-113). -/
def arguments (w : Outside) (args : List Str) : List Str :=
  let flags := fun n => (envLookup n (setEnvironment w.environment)).getD []
  commandLineArguments (flags c!"JOMFLAGS") (flags c!"MAKEFLAGS") args

/-- The command line (main.cpp 160, makefilefactory.cpp 102-112). -/
def readLine (w : Outside) (args : List Str) : Except Cmd.Err Line :=
  readCommandLine w.commandFile w.cpus { env := setEnvironment w.environment } (arguments w args)

/-- A build that can begin: the command line, the folder of the makefile, the makefile, the table of targets, the targets to build, the
environment and the number of jobs of the executors. -/
structure Build where
  line : Line
  dir : Str
  p : Parse.PSt PP.St
  tab : Tab
  ids : List Nat
  env : List (Str × Str)
  jobs : Nat

/-- How `main` goes on: it ends with an exit code, the event loop runs, or something undefined happens. -/
inductive Outcome where
  | exit (code : Nat)
  | build (b : Build)
  | fault

/-- The end of `main`, once there is a makefile (main.cpp 196-219). -/
def start (w : Outside) (line : Line) (dir : Str) (p : Parse.PSt PP.St) (tab : Tab) : Outcome :=
  let env := p.src.table.env
  -- 198-201
  let server := initJobServer (envLookup c!"_JOMSRVKEY_" (setEnvironment w.environment)).isSome ((envLookup c!"_JOMJOBCOUNT_" env).getD [])
    line.st.jobs line.st.jobsSet
  match server, w.semaphore with
  | some _, none => .exit 3
  | server, key =>
    let env := if server.isSome then
        envSet c!"_JOMJOBCOUNT_" (Nat.toDigits 10 line.st.jobs.toNat) (envSet c!"_JOMSRVKEY_" (key.getD []) env)
      else env
    -- 209-213
    let jobs := Blocks.jobsOf p.table line.st.jobs.toNat
    -- 216
    if !w.client then .exit 2
    else
      match requested tab line.targets with
      | .error (.noTarget _) => .exit 2
      | .error _ => .fault
      | .ok ids => .build { line := line, dir := dir, p := p, tab := tab, ids := ids, env := env, jobs := jobs }

/-- Reading the makefile (makefilefactory.cpp 159-168) with the macros `t`, then `start`. -/
def makefile (w : Outside) (line : Line) (t : MacroTable) : Outcome :=
  let name := line.st.makefile.getD []
  let dir := w.dirOf name
  match PP.openFile w.world name { table := t } with
  | .error _ => .exit 2
  | .ok s =>
    match Whole.read w.world w.fuel w.entries dir line.st.opts.suppressOutputMessages line.st.opts.stopOnErrors s with
    | .error _ => .exit 2
    | .ok p =>
      match prepare p.rules p.suffixes (w.order p.table.sync) (w.keys p.rules) line.targets p.table with
      | .error .null => .fault
      | .error .fuel => .fault
      | .error _ => .exit 2
      | .ok tab => start w line dir p tab

/-- `main` (main.cpp 149-219) with `MakefileFactory::apply` (makefilefactory.cpp 97-176). -/
def main (w : Outside) (args : List Str) : Outcome :=
  match readLine w args with
  | .error .usage => .exit 128
  | .error .invalidMacroName => .exit 128
  | .error (.macroError _) => .exit 2
  | .error .fault => .fault
  | .ok line =>
    let o := line.st.opts
    -- main.cpp 173-181
    if o.showUsageAndExit || o.showVersionAndExit then .exit 0
    -- makefilefactory.cpp 116-131
    else if !(o.stderrFile.getD []).isEmpty && !w.writable (o.stderrFile.getD []) then .exit 2
    else
      match initialMacros w o line.table with
      | .error _ => .exit 2
      | .ok t => makefile w line t

end Jom.Main
