/-
Model of the expansion of file name macros: `DescriptionBlock::expandFileNameMacros`, `getFileNameMacroValues`,
`expandFileNameMacrosForDependents` (src/jomlib/makefile.cpp 129-362).

Simplifications:
* `FastFileInfo(name).lastModified()` is a function `time` that does not change during one call (0 = no such file, see
  `Model/FileInfo.lean`).
* `QFileInfo::fileName` is the text behind the last separator, `QFileInfo::baseName` the part of it before the first dot
  (names with a drive but without directory, `c:x`, are not modelled).
* `QString::at` behind the end of the text is the outcome `ub`.
-/
import Verif.Model.MacroTable
import Verif.Model.Helpers
import Verif.Model.Inference
import Verif.Model.CommandExec

namespace Jom.FileMacro

open Inference (Command InlineFile)

/-- What is used of the target: its name, its dependents, and the times of files. -/
structure Tgt where
  name : Str
  deps : List Str
  time : Str → Nat

/-- Why an expansion does not end normally: `forbidden` and `badSubst` are exceptions, `ub` is undefined behaviour, `fuel`: more
rounds of the loop than allowed. -/
inductive FErr where
  | forbidden
  | badSubst
  | ub
  | fuel
deriving DecidableEq, Repr

/-- The dependents a macro may refer to (makefile.cpp 309-317). -/
def candidates (t : Tgt) (dep : Option Nat) (forbidden : Bool) : List Str :=
  if forbidden then [] else
    match dep with
    | none => t.deps
    | some i => (t.deps[i]?).toList

/-- The name up to the last dot (makefile.cpp 333-336). -/
def stem (name : Str) : Str :=
  match lastIndexOf? '.' name with
  | some i => name.take i
  | none => name

/-- `getFileNameMacroValues` (makefile.cpp 304-362): the values and `replacementLength` (which stays 0 if nothing matches). -/
def macroValues (t : Tgt) (dep : Option Nat) (forbidden : Bool) (s : Str) : Except FErr (List Str × Nat) :=
  match s with
  | [] => .error .ub
  | c :: r =>
    if c = '@' then .ok ([t.name], 1)
    else if c = '*' then
      if r.head? = some '*' then
        (if forbidden then .error .forbidden else .ok (candidates t dep forbidden, 2))
      else .ok ([stem t.name], 1)
    else if c = '?' then
      (if forbidden then .error .forbidden
       else .ok ((candidates t dep forbidden).filter (fun d => decide (t.time t.name ≤ t.time d)), 1))
    else .ok ([], 0)

/-- `quoteStringIfNeeded` and `joinFileNameMacroValues` (makefile.cpp 171-190). -/
def join : List Str → Str
  | [] => []
  | [v] => Exec.quoteName v
  | v :: vs => Exec.quoteName v ++ ' ' :: join vs

/-- Modifier `D` (makefile.cpp 240-248). -/
def modD (v : Str) : Str :=
  match lastIndexOf? '\\' v with
  | none => ['.']
  | some k => v.take k

/-- `QFileInfo::baseName` (makefile.cpp 250-255). -/
def modB (v : Str) : Str := (fileNameFromFilePath v).takeWhile (· != '.')

/-- `QFileInfo::fileName` (makefile.cpp 256-261). -/
def modF (v : Str) : Str := fileNameFromFilePath v

/-- Modifier `R` (makefile.cpp 262-269). -/
def modR (v : Str) : Str := stem v

/-- The effect of a modifier, `none` if the character is none. -/
def modifier (c : Char) : Option (Str → Str) :=
  if c = 'D' then some modD
  else if c = 'B' then some modB
  else if c = 'F' then some modF
  else if c = 'R' then some modR
  else none

/-- One replacement: `p` is the position of the escape character in `str` (`idx - 1`). `none`: the text is left as it is
(`continue` in the `default` case, makefile.cpp 278-280). Lines 222-298. -/
def replaceAt (t : Tgt) (dep : Option Nat) (forbidden : Bool) (str : Str) (p : Nat) : Except FErr (Option Str) :=
  match str.drop (p + 1) with
  | [] => .error .ub
  | c :: rest =>
    if c = '(' then do
      let (vals, len) ← macroValues t dep forbidden rest
      if vals.isEmpty then .ok (some (str.take p ++ str.drop (p + len + 3)))
      else
        match rest.drop len with
        | [] => .error .ub
        | m :: rest =>
          match modifier m with
          | some f =>
            match rest with
            | [] => .error .ub
            | ':' :: rest =>
              match parseSubst rest with
              | .error _ => .error .badSubst
              | .ok (sub, after) => .ok (some (str.take p ++ join ((vals.map f).map (applySubst sub)) ++ after))
            | _ => .ok (some (str.take p ++ join (vals.map f) ++ str.drop (p + len + 4)))
          | none =>
            if m = ':' then
              match parseSubst rest with
              | .error _ => .error .badSubst
              | .ok (sub, after) => .ok (some (str.take p ++ join (vals.map (applySubst sub)) ++ after))
            else if m = ')' then .ok (some (str.take p ++ join vals ++ str.drop (p + len + 4)))
            else .ok none
    else do
      let (vals, len) ← macroValues t dep forbidden (c :: rest)
      if vals.isEmpty then .ok (some (str.take p ++ str.drop (p + len + 1)))
      else .ok (some (str.take p ++ join vals ++ str.drop (p + len + 1)))

/-- The loop of `expandFileNameMacros(str, depIdx, dependentsForbidden)` (makefile.cpp 203-302), from position `idx` on. The test
`++idx >= str.count() + 1` never succeeds for a found position. `lastEscapedIdx` never equals `idx - 1`: a search starts behind the
last escaped position. -/
def loop (t : Tgt) (dep : Option Nat) (forbidden : Bool) : Nat → Str → Nat → Except FErr Str
  | 0, _, _ => .error .fuel
  | n + 1, str, idx =>
    match indexOfFrom? [magicEscape] str idx with
    | none => .ok str
    | some p =>
      if 0 < p ∧ str[p - 1]? = some '^' then loop t dep forbidden n str (p + 1)
      else do
        match ← replaceAt t dep forbidden str p with
        | none => loop t dep forbidden n str (p + 1)
        | some str => loop t dep forbidden n str (p + 1)

/-- `expandFileNameMacros` for a text. -/
def expandText (t : Tgt) (dep : Option Nat) (forbidden : Bool) (fuel : Nat) (str : Str) : Except FErr Str :=
  loop t dep forbidden fuel str 0

/-- `expandFileNameMacros(Command&, int)`: the inline files (makefile.cpp 165-168). -/
def expandFiles (t : Tgt) (dep : Option Nat) (fuel : Nat) : List InlineFile → Except FErr (List InlineFile)
  | [] => .ok []
  | f :: fs => do
    let name ← expandText t dep false fuel f.filename
    let content ← expandText t dep false fuel f.content
    let fs ← expandFiles t dep fuel fs
    .ok ({ f with filename := name, content := content } :: fs)

/-- `expandFileNameMacros(Command&, int)` (makefile.cpp 162-169). -/
def expandCommand (t : Tgt) (dep : Option Nat) (fuel : Nat) (c : Command) : Except FErr Command := do
  let line ← expandText t dep false fuel c.cmd.line
  let files ← expandFiles t dep fuel c.files
  .ok { cmd := { c.cmd with line := line }, files := files }

/-- The loop over the dependents for a command with `!` (makefile.cpp 148-154), from the `i`-th dependent on. -/
def expandEach (t : Tgt) (fuel : Nat) (c : Command) : Nat → Nat → Except FErr (List Command)
  | 0, _ => .ok []
  | n + 1, i => do
    let c' ← expandCommand t (some i) fuel { c with cmd := { c.cmd with singleExecution := false } }
    let cs ← expandEach t fuel c n (i + 1)
    .ok (c' :: cs)

/-- `expandFileNameMacros()` (makefile.cpp 141-160). -/
def expandCommands (t : Tgt) (fuel : Nat) : List Command → Except FErr (List Command)
  | [] => .ok []
  | c :: cs => do
    let a ← (if c.cmd.singleExecution then expandEach t fuel c t.deps.length 0
      else (do let c' ← expandCommand t none fuel c; .ok [c']))
    let b ← expandCommands t fuel cs
    .ok (a ++ b)

/-- `expandFileNameMacrosForDependents` (makefile.cpp 132-139). The dependents are changed in place, but no macro that is allowed
here refers to them. -/
def expandDependents (t : Tgt) (fuel : Nat) : List Str → Except FErr (List Str)
  | [] => .ok []
  | d :: ds => do
    let d ← expandText t none true fuel d
    let ds ← expandDependents t fuel ds
    .ok (d :: ds)

end Jom.FileMacro
