/-
Model of what happens between parsing and building: the end of `Parser::apply` (src/jomlib/parser.cpp 108-158),
`Parser::preselectInferenceRules` (727-754), `TargetExecutor::apply` (src/jomlib/targetexecutor.cpp 87-106), and the
table of targets as `Model/Make.lean` sees it.

Simplifications:
* A target is identified with its key in `m_targets`.  `createTarget` for a name whose key is already in use (possible for
  dependents in double quotes only) replaces the entry; that `m_firstTarget` keeps pointing to the old one is not modelled.
* `m_canAddCommands` of created targets is `ACSUnknown`; it is not used any more.
* `resetCycleChecker` (parser.cpp 685-696) only clears marks that nobody reads any more.
-/
import Verif.Model.Blocks
import Verif.Model.Make

namespace Jom.Prepare

open Blocks Inference

/-- The table of targets; `rules` is `m_inferenceRules` and `done` is `m_bInferenceRulesPreselected` of the target with a
key. -/
structure Tab where
  table : Mk
  rules : List (Str × List Rule) := []
  done : List Str := []
deriving DecidableEq, Repr

/-- parser.cpp 747-748 with `createTarget` (289-295). -/
def createTarget (t : Tab) (name : Str) (rules : List Rule) : Tab :=
  { table := t.table.append { name := name, enabled := false }
    rules := put t.rules (toLower name) rules
    done := t.done.filter (· ≠ toLower name) }

/-- The loop over the dependents: parser.cpp 738-751. `findRules` is `findRulesByTargetName`. -/
def preselectDeps (recur : Str → Tab → Option Tab) (findRules : Str → List Rule) : List Str → Tab → Option Tab
  | [], t => some t
  | d :: ds, t =>
    match t.table.key d with
    | some key => (recur key t).bind (preselectDeps recur findRules ds)
    | none =>
      let file := removeDoubleQuotes d
      let rules := findRules file
      preselectDeps recur findRules ds (if rules = [] then t else createTarget t file rules)

/-- `preselectInferenceRules`: parser.cpp 727-754. The fuel bounds the recursion depth (`none`: not enough; proved
unreachable). -/
def preselect (findRules : Str → List Rule) : Nat → Str → Tab → Option Tab
  | 0, _, _ => none
  | n + 1, key, t =>
    if key ∈ t.done then some t
    else
      match find t.table.targets key with
      | none => some t
      | some b =>
        let rules := findRules b.name
        let t := if b.cmds = [] ∧ rules ≠ [] then { t with rules := put t.rules key rules } else t
        (preselectDeps (preselect findRules n) findRules b.deps t).map fun t => { t with done := key :: t.done }

/-- Why nothing is built: a requested target does not exist (parser.cpp 114-117, targetexecutor.cpp 97-100), there is a
cycle (parser.cpp 664-667), a null pointer is used (not reachable), or the model ran out of fuel (not
reachable). -/
inductive Err where
  | noTarget (name : Str)
  | cycle (name : Str)
  | null
  | fuel
deriving DecidableEq, Repr

/-- The loop parser.cpp 147-151. `marks` are the marks of the cycle check. -/
def activate (findRules : Str → List Rule) : List Str → List Nat × List Nat → Tab → Except Err Tab
  | [], _, t => .ok t
  | a :: as, marks, t =>
    let m := t.table.makefile []
    match Graph.checkForCycles m.cycleLook (t.table.targets.length + 1) (m.target a) marks with
    | .error (.cycle x) => .error (.cycle ((t.table.targets[x]?.map (·.2.name)).getD []))
    | .error .fuel => .error .fuel
    | .ok marks =>
      match t.table.key a with
      | none => .error .null
      | some key =>
        match preselect findRules (t.table.targets.length + 2) key t with
        | none => .error .fuel
        | some t => activate findRules as marks t

/-- The end of `Parser::apply`: parser.cpp 108-158. `order` are the entries of `m_syncPoints` and `keys` the keys of
`m_ruleIdxByToExtension` in the (arbitrary) order of iteration. -/
def prepare (rules : List Rule) (suffixes : List Str) (order : List (Str × List Str)) (keys : List Str) (active : List Str)
    (mk : Mk) : Except Err Tab :=
  if mk.targets = [] then .ok { table := mk }
  else
    match active.find? fun a => (mk.key a).isNone with
    | some a => .error (.noTarget a)
    | none =>
      -- 121-123
      let active := if active = [] then ((mk.first.bind (find mk.targets)).map (·.name)).toList else active
      let rules := calculatePriorities suffixes rules
      activate (findRules rules keys) active ([], []) { table := applySync mk order }

/-- `TargetExecutor::apply`: targetexecutor.cpp 87-106, the targets to build in their order. The empty list is the case
`finishBuild(0)` (90). -/
def requested (t : Tab) (targets : List Str) : Except Err (List Nat) :=
  let m := t.table.makefile []
  match targets with
  | [] =>
    if t.table.targets = [] then .ok []
    else
      match t.table.first.bind (Graph.hashValue m.hash) with
      | none => .error .null
      | some k => .ok [k]
  | a :: as =>
    match m.target a with
    | none => .error (.noTarget a)
    | some k =>
      -- 101-103: a null pointer would be dereferenced when its turn comes
      if as.any fun a => (m.target a).isNone then .error .null else .ok (k :: as.filterMap m.target)

/-- What happens before the first command is started: `Parser::apply` from `MakefileFactory::apply` (makefilefactory.cpp 167), then
`TargetExecutor::apply` with the same list of targets (main.cpp 216). -/
def setup (rules : List Rule) (suffixes : List Str) (order : List (Str × List Str)) (keys : List Str) (active : List Str)
    (mk : Mk) : Except Err (Tab × List Nat) :=
  match prepare rules suffixes order keys active mk with
  | .error e => .error e
  | .ok t =>
    match requested t active with
    | .error e => .error e
    | .ok ids => .ok (t, ids)

/-- A target without a record. -/
def noInfo : UpToDate.TInfo :=
  { name := [], fileExists := false, time := 0, deps := [], hasCmds := false, rules := [] }

/-- The records of the targets when the build starts, cf. `Model/UpToDate.lean`. -/
def info (t : Tab) (k : Nat) : UpToDate.TInfo :=
  match t.table.targets[k]? with
  | none => noInfo
  | some (key, b) =>
    { name := b.name, fileExists := false, time := 0, deps := b.deps, hasCmds := decide (b.cmds ≠ [])
      rules := ((find t.rules key).getD []).map fun r => inferredDependent r b.name }

/-- The lookups during the build, cf. `Model/Make.lean`. A name without separator comes from a rule with the search
path `.` (makefile.cpp 498-514, 396-406). -/
def env (t : Tab) (dir : Str) (abs : Str → Str) : Make.Env :=
  let m := t.table.makefile dir
  { lookup := m.target
    key := fun r => Graph.hashValue m.hash (if r.any fun c => c == '/' || c == '\\' then r else ['.', '\\'] ++ r)
    dir := dir
    abs := abs }

end Jom.Prepare
