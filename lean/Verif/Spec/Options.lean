/-
What the options on a command line mean, stated independently of the option parser.

A command line is read as a list of items.  `Args` says which texts are spellings of which items; `Means` says
which settings a list of items asks for.
-/
import Verif.Model.Options

namespace Jom.Spec.Cmd
open Jom Jom.Cmd

/-! ### Numbers -/

/-- A decimal number without sign, leading zeros allowed. -/
inductive Decimal : Str → Nat → Prop where
  | one {c : Char} : isDigit c = true → Decimal [c] (c.toNat - 48)
  | more {s : Str} {v : Nat} {c : Char} : Decimal s v → isDigit c = true → Decimal (s ++ [c]) (10 * v + (c.toNat - 48))

/-- A usable number of jobs: blanks, an optional `+`, a decimal number between 1 and 2^31 - 1, blanks. -/
def JobCount (s : Str) (v : Nat) : Prop :=
  ∃ pre sign digits post : Str,
    s = pre ++ sign ++ digits ++ post ∧ pre.all isSpace = true ∧ post.all isSpace = true ∧
    (sign = [] ∨ sign = ['+']) ∧ Decimal digits v ∧ 1 ≤ v ∧ v < 2147483648

/-! ### Items and their spelling -/

/-- The options with a long name. -/
inductive Long where
  | nologo | dumpgraphdot | dumpgraph | debug | errorreport | version
deriving DecidableEq, Repr

/-- The long names. -/
def Long.name : Long → Str
  | .nologo => c!"NOLOGO"
  | .dumpgraphdot => c!"DUMPGRAPHDOT"
  | .dumpgraph => c!"DUMPGRAPH"
  | .debug => c!"DEBUG"
  | .errorreport => c!"ERRORREPORT"
  | .version => c!"VERSION"

/-- The letters of options without argument. -/
def simpleLetters : Str := c!"ABCDEGH?IKLNPQRSTUWY"

/-- One option as written: the letter keeps its case. -/
inductive Item where
  /-- an option of one letter without argument -/
  | flag (c : Char)
  /-- `/F name` -/
  | file (c : Char) (name : Str)
  /-- `/X name` -/
  | errFile (c : Char) (name : Str)
  /-- `/J number` -/
  | jobs (c : Char) (number : Str)
  /-- an option with a long name -/
  | long (w : Long)
deriving DecidableEq, Repr

/-- The text begins with a long name, in capital or small letters. -/
def BeginsLong (s : Str) : Prop := ∃ w : Long, w.name <+: toUpper s

/-- `Body fresh items text more`: the text of an option argument behind `-` or `/`, together with the arguments
`more` that follow it, spells the items.  `fresh` is false directly behind a long name: there the next letter is
not taken for the beginning of another long name. -/
inductive Body : Bool → List Item → Str → List Str → Prop where
  | nil {fresh : Bool} : Body fresh [] [] []
  | flag {fresh : Bool} {c : Char} {items : List Item} {text : Str} {more : List Str} :
      toUpperC c ∈ simpleLetters → (fresh = true → ¬ BeginsLong (c :: text)) → Body true items text more →
      Body fresh (.flag c :: items) (c :: text) more
  | jobs {fresh : Bool} {c : Char} {n : Str} {items : List Item} {text : Str} {more : List Str} :
      toUpperC c = 'J' → n.all isDigit = true → (n ++ text) ≠ [] →
      (∀ d, text.head? = some d → isDigit d = false) → Body true items text more →
      Body fresh (.jobs c n :: items) (c :: (n ++ text)) more
  | jobsNext {fresh : Bool} {c : Char} {n : Str} : toUpperC c = 'J' → Body fresh [.jobs c n] [c] [n]
  | file {fresh : Bool} {c : Char} {name : Str} :
      toUpperC c = 'F' → name ≠ [] → Body fresh [.file c name] (c :: name) []
  | fileNext {fresh : Bool} {c : Char} {name : Str} : toUpperC c = 'F' → Body fresh [.file c name] [c] [name]
  | errFile {fresh : Bool} {c : Char} {name : Str} :
      toUpperC c = 'X' → name ≠ [] → Body fresh [.errFile c name] (c :: name) []
  | errFileNext {fresh : Bool} {c : Char} {name : Str} :
      toUpperC c = 'X' → Body fresh [.errFile c name] [c] [name]
  | long {w : Long} {t text : Str} {items : List Item} {more : List Str} :
      toUpper t = w.name → (w = .dumpgraph → ¬ c!"DOT" <+: toUpper text) → Body false items text more →
      Body true (.long w :: items) (t ++ text) more

/-- Options, macro definitions and targets: `Args items plain args` — the arguments `args` spell the options
`items`, the other arguments are `plain` (macro definitions and targets), in this order. -/
inductive Args : List Item → List Str → List Str → Prop where
  | nil : Args [] [] []
  | opt {d : Char} {body : Str} {items items' : List Item} {more plain rest : List Str} :
      d = '-' ∨ d = '/' → Body true items (trimmed body) more → Args items' plain rest →
      Args (items ++ items') plain ((d :: body) :: (more ++ rest))
  | plain {c : Char} {a : Str} {items : List Item} {plain rest : List Str} :
      c ≠ '-' → c ≠ '/' → Args items plain rest → Args items ((c :: a) :: plain) ((c :: a) :: rest)

/-! ### Meaning -/

/-- The option with this (capital) letter is given. -/
def Given (items : List Item) (u : Char) : Prop := ∃ c, Item.flag c ∈ items ∧ toUpperC c = u

/-- An option with this long name is given. -/
def GivenLong (items : List Item) (w : Long) : Prop := Item.long w ∈ items

/-- The numbers given with `/J`, in order. -/
def jobNumbers (items : List Item) : List Str := items.filterMap fun
  | .jobs _ n => some n
  | _ => none

/-- The names given with `/F`, in order. -/
def fileNames (items : List Item) : List Str := items.filterMap fun
  | .file _ n => some n
  | _ => none

/-- The names given with `/X`, in order. -/
def errFileNames (items : List Item) : List Str := items.filterMap fun
  | .errFile _ n => some n
  | _ => none

/-- The settings asked for by the items; `cpus` is the number of jobs without `/J`. -/
structure Means (cpus : Int) (items : List Item) (s : St) : Prop where
  buildAllTargets : s.opts.buildAllTargets = true ↔ Given items 'A'
  buildIfTimeStampsAreEqual : s.opts.buildIfTimeStampsAreEqual = true ↔ Given items 'B'
  showLogo : s.opts.showLogo = false ↔
    Given items 'L' ∨ GivenLong items .nologo ∨ GivenLong items .dumpgraph ∨ GivenLong items .dumpgraphdot
  suppressOutputMessages : s.opts.suppressOutputMessages = true ↔ Given items 'C'
  overrideEnvVarMacros : s.opts.overrideEnvVarMacros = true ↔ Given items 'E'
  displayIncludeFileNames : s.opts.displayIncludeFileNames = true ↔ Given items 'G'
  dryRun : s.opts.dryRun = true ↔ Given items 'N'
  stopOnErrors : s.opts.stopOnErrors = false ↔ Given items 'I'
  /-- `/I` overrides `/K`. -/
  buildUnrelatedTargetsOnError : s.opts.buildUnrelatedTargetsOnError = true ↔ Given items 'K' ∧ ¬ Given items 'I'
  checkTimeStampsButDoNotBuild : s.opts.checkTimeStampsButDoNotBuild = true ↔ Given items 'Q'
  changeTimeStampsButDoNotBuild : s.opts.changeTimeStampsButDoNotBuild = true ↔ Given items 'T'
  ignorePredefinedRulesAndMacros : s.opts.ignorePredefinedRulesAndMacros = true ↔ Given items 'R'
  suppressExecutedCommandsDisplay : s.opts.suppressExecutedCommandsDisplay = true ↔ Given items 'S'
  printWorkingDir : s.opts.printWorkingDir = true ↔ Given items 'W'
  batchModeEnabled : s.opts.batchModeEnabled = false ↔ Given items 'Y'
  dumpInlineFiles : s.opts.dumpInlineFiles = true ↔ Given items 'U'
  dumpDependencyGraph : s.opts.dumpDependencyGraph = true ↔
    GivenLong items .dumpgraph ∨ GivenLong items .dumpgraphdot
  dumpDependencyGraphDot : s.opts.dumpDependencyGraphDot = true ↔ GivenLong items .dumpgraphdot
  displayMakeInformation : s.opts.displayMakeInformation = true ↔ Given items 'P'
  showUsageAndExit : s.opts.showUsageAndExit = true ↔ Given items 'H' ∨ Given items '?'
  displayBuildInfo : s.opts.displayBuildInfo = true ↔ Given items 'D'
  debugMode : s.opts.debugMode = true ↔ GivenLong items .debug
  showVersionAndExit : s.opts.showVersionAndExit = true ↔ GivenLong items .version
  /-- The last `/X` counts. -/
  stderrFile : s.opts.stderrFile = (errFileNames items).getLast?
  /-- The last `/F` counts. -/
  makefile : s.makefile = some ((fileNames items).getLast?.getD c!"Makefile")
  jobsSet : s.jobsSet = true ↔ jobNumbers items ≠ []
  jobsDefault : jobNumbers items = [] → s.jobs = cpus
  /-- The last `/J` counts. -/
  jobs : ∀ n, (jobNumbers items).getLast? = some n → ∃ v, JobCount n v ∧ s.jobs = v

/-- The argument defines a macro: blanks around the name, blanks in front of the value. -/
def Defines (arg name value : Str) : Prop :=
  ∃ b1 b2 b3 : Str, arg = b1 ++ name ++ b2 ++ '=' :: (b3 ++ value) ∧
    b1.all isSpace = true ∧ b2.all isSpace = true ∧ b3.all isSpace = true ∧
    '=' ∉ name ∧ isMacroNameValid name = true ∧ (∀ c r, value = c :: r → isSpace c = false)

/-- The words of a command file; references to further command files are ignored. -/
def fileWords (lines : List Str) : List Str := (lines.flatMap splitCommandLine).filter fun a => a.head? != some '@'

/-- `@name` or `@"name"` with the words of the file. -/
inductive CommandFile (read : Str → Option (List Str)) : Str → List Str → Prop where
  | bare {name : Str} {lines : List Str} : name ≠ [] → ¬ (name.head? = some '"' ∧ name.getLast? = some '"') →
      read name = some lines → CommandFile read ('@' :: name) (fileWords lines)
  | quoted {name : Str} {lines : List Str} : read name = some lines →
      CommandFile read ('@' :: '"' :: (name ++ ['"'])) (fileWords lines)

/-- The command line with the words of command files put in the place of the references. -/
inductive InPlace (read : Str → Option (List Str)) : List Str → List Str → Prop where
  | nil : InPlace read [] []
  | arg {a : Str} {rest out : List Str} : a.head? ≠ some '@' → InPlace read rest out → InPlace read (a :: rest) (a :: out)
  | file {a : Str} {words rest out : List Str} : CommandFile read a words → InPlace read rest out →
      InPlace read (a :: rest) (words ++ out)

/-- The options that a jom passes on to another one: all but the names of files. -/
def sameOptions (a b : Opts) : Prop := { a with stderrFile := none } = { b with stderrFile := none }

end Jom.Spec.Cmd
