/-
Model of the inference rule code: `Makefile::calculateInferenceRulePriorities`, `filterRulesByDependent`,
`applyInferenceRules`, `applyInferenceRule` (src/jomlib/makefile.cpp 396-669) and
`Parser::findRulesByTargetName` (src/jomlib/parser.cpp 698-725).

`QFileInfo::fileName` is the text behind the last separator (drive-relative names `c:x` are not modelled).
-/
import Verif.Model.MacroTable
import Verif.Model.Helpers
import Verif.Model.ParserText
import Mathlib.Data.List.Sort

namespace Jom.Inference

/-- `InlineFile` (makefile.h 38-47). -/
structure InlineFile where
  keep : Bool := false
  unicode : Bool := false
  filename : Str := []
  content : Str := []
deriving DecidableEq, Repr

/-- `Command` (makefile.h 49-62). -/
structure Command where
  cmd : Cmd
  files : List InlineFile := []
deriving DecidableEq, Repr

/-- `InferenceRule` (makefile.h 124-140). `priority` = `m_priority`, `none` is -1. -/
structure Rule where
  batch : Bool := false
  fromPath : Str
  fromExt : Str
  toPath : Str
  toExt : Str
  priority : Option Nat := none
  commands : List Command := []
deriving DecidableEq, Repr

/-- Inner loop of `calculateInferenceRulePriorities`: makefile.cpp 562-567. -/
def suffixIndex (ext : Str) : List Str → Nat → Option Nat
  | [], _ => none
  | s :: ss, i => if toLower ext == toLower s then some i else suffixIndex ext ss (i + 1)

/-- `calculateInferenceRulePriorities`: makefile.cpp 556-569. A rule without a hit keeps its priority (-1). -/
def calculatePriorities (suffixes : List Str) (rules : List Rule) : List Rule :=
  rules.map fun r => match suffixIndex r.fromExt suffixes 0 with
    | some i => { r with priority := some i }
    | none => r

/-- The directory part used by `findRulesByTargetName`: parser.cpp 712-716. -/
def targetDir (path : Str) : Str :=
  let file := fileNameFromFilePath path
  let dir := removeDirSeparatorAtEnd (path.take (path.length - file.length))
  if dir.isEmpty then ['.'] else dir

/-- `QString::endsWith(…, Qt::CaseInsensitive)`. -/
def endsWithCI (s t : Str) : Bool := endsWith (toLower s) (toLower t)

/-- One element of `m_ruleIdxByToExtension`: the rules with this target extension in the order of their definition
(parser.cpp 136-140: the loop runs backwards and prepends). -/
def bucket (rules : List Rule) (toExt : Str) : List Rule := rules.filter (·.toExt = toExt)

/-- `findRulesByTargetName`: parser.cpp 698-725. `keys` are the keys of the hash `m_ruleIdxByToExtension` in iteration
order. -/
def findRules (rules : List Rule) (keys : List Str) (path : Str) : List Rule :=
  keys.flatMap fun k =>
    if endsWithCI path k then
      (bucket rules k).filter fun r => r.priority.isSome && decide (targetDir path = r.toPath)
    else []

/-- The name tested by `filterRulesByDependent`: makefile.cpp 498-512. -/
def testedDependent (path : Str) (r : Rule) : Str :=
  let file := fileNameFromFilePath path
  r.fromPath ++ ['\\'] ++ file.take (file.length - r.toExt.length) ++ r.fromExt

/-- `filterRulesByDependent`: makefile.cpp 498-522. `there` = `m_targets.value(name)` is a target whose file exists,
or `QFile::exists(name)`. -/
def filterRules (there : Str → Bool) (path : Str) (rules : List Rule) : List Rule :=
  rules.filter fun r => there (testedDependent path r)

/-- `infRulesPriorityGreaterThan` (makefile.cpp 545-548) as "does not come after", for the stable sort. -/
def notAfter (a b : Rule) : Bool := decide (b.priority.getD 0 ≤ a.priority.getD 0)

/-- The rule chosen by `applyInferenceRules(DescriptionBlock*)`: makefile.cpp 588-604. `std::stable_sort` is a stable
insertion sort here (the result of a stable sort is unique). Rules without priority never get here (`findRules`). -/
def chooseRule (there : Str → Bool) (path : Str) (rules : List Rule) : Option Rule :=
  ((filterRules there path rules).insertionSort fun a b => notAfter a b = true).getLast?

/-- `inferredDependent`: makefile.cpp 396-406. -/
def inferredDependent (r : Rule) (path : Str) : Str :=
  let file := fileNameFromFilePath path
  let dep := file.take (file.length - r.toExt.length) ++ r.fromExt
  if r.fromPath ≠ ['.'] then r.fromPath ++ ['\\'] ++ dep else dep

/-- The fields of a `DescriptionBlock` that are used here. -/
structure DB where
  name : Str
  deps : List Str := []
  commands : List Command := []
  rules : List Rule := []
deriving DecidableEq, Repr

/-- The text `$<` after macro expansion: makefile.cpp 626, 658. -/
def sourceMacro : Str := [magicEscape, '<']

/-- Loop body makefile.cpp 629-638 and 659-668. -/
def instantiate (m : Macros) (names : Str) (c : Command) : Except MacroErr Command := do
  let files ← c.files.mapM fun f => do
    let content ← expandMacros m f.content
    return { f with content := replaceAll sourceMacro names content }
  let line ← expandMacros m c.cmd.line
  let cmd := evaluateModifiers { c.cmd with line := line }
  return { cmd := { cmd with line := replaceAll sourceMacro names cmd.line }, files := files }

/-- `QStringList::contains` and `append`: makefile.cpp 620-621, 648-649. -/
def addDep (deps : List Str) (d : Str) : List Str := if d ∈ deps then deps else deps ++ [d]

/-- `applyInferenceRule(target, rule)` for a rule that is not applied in batch mode: makefile.cpp 616-639. -/
def applyRule (m : Macros) (r : Rule) (t : DB) : Except MacroErr DB := do
  let d := inferredDependent r t.name
  let commands ← r.commands.mapM (instantiate m d)
  return { t with rules := [], deps := addDep t.deps d, commands := commands }

/-- `inferredDependents` after the loop: makefile.cpp 643-653. -/
def joinedNames (r : Rule) (names : List Str) : Str := names.flatMap fun n => inferredDependent r n ++ [' ']

/-- `applyInferenceRule(batch, rule)`: makefile.cpp 641-669. The targets are numbers, `db` are their fields. -/
def applyBatch (m : Macros) (r : Rule) (batch : List Nat) (db : Nat → DB) : Except MacroErr (Nat → DB) := do
  match batch with
  | [] => return db      -- `batch.first()` on an empty list; not reached
  | first :: _ =>
    let names := batch.map fun t => (db t).name
    let commands ← r.commands.mapM (instantiate m (joinedNames r names))
    return fun t =>
      if t ∈ batch then
        let x := { db t with rules := [] }
        if t = first then
          { x with deps := (names.map (inferredDependent r)).foldl addDep x.deps, commands := commands }
        else x
      else db t

/-- `filesPerBatch`: makefile.cpp 532. The quotient is a `float` there; `qRound` rounds half up. The
model rounds the exact quotient. -/
def filesPerBatch (n jobs : Nat) : Nat := max 1 ((2 * n + jobs) / (2 * jobs))

/-- The `do … while` loop makefile.cpp 533-538 as list of batches. -/
def batches {α : Type} (per : Nat) : Nat → List α → List (List α)
  | 0, _ => []
  | fuel + 1, ts =>
    ts.take per :: (if (ts.drop per).isEmpty then [] else batches per fuel (ts.drop per))

/-- The same loop with its effect; one rule of `m_batchModeRules` with its targets (`m_batchModeTargets.values`). -/
def applyBatches (m : Macros) (r : Rule) : List (List Nat) → (Nat → DB) → Except MacroErr (Nat → DB)
  | [], db => .ok db
  | b :: bs, db => do
    let db ← applyBatch m r b db
    applyBatches m r bs db

/-- makefile.cpp 530-539 for one rule. -/
def applyBatchRule (m : Macros) (r : Rule) (jobs : Nat) (targets : List Nat) (db : Nat → DB) :
    Except MacroErr (Nat → DB) :=
  applyBatches m r (batches (filesPerBatch targets.length jobs) (targets.length + 1) targets) db

end Jom.Inference
