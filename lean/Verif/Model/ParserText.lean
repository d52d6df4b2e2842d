import Verif.Model.Helpers
import Verif.Model.MacroTable

/-! Model of the text-level functions of `src/jomlib/parser.cpp`, of
`Preprocessor::removeInlineComments` and of `Command::evaluateModifiers`. -/

namespace Jom

/-! ### Inline comments -/

/-- The loop of `Preprocessor::removeInlineComments` (preprocessor.cpp 502-510).  `start` is `idx + 1`;
the result is the edited line and `idx` (`none` for -1).  Fuel `length + 1` suffices: every round
removes a character. -/
def ricLoop : Nat → Str → Nat → Str × Option Nat
  | 0, line, _ => (line, none)
  | f + 1, line, start =>
    match indexOfFrom? ['#'] line start with
    | none => (line, none)
    | some idx =>
      if 0 < idx ∧ line[idx - 1]? = some '^' then ricLoop f (line.eraseIdx (idx - 1)) (idx + 1)
      else (line, some idx)

/-- `Preprocessor::removeInlineComments` (preprocessor.cpp 500-515). -/
def removeInlineComments (line : Str) : Str :=
  match ricLoop (line.length + 1) line 0 with
  | (line, none) => line
  | (line, some idx) => trimmed (line.take idx)

/-! ### Description block lines -/

/-- `quotedVector` (parser.cpp 182-189): entry `i` tells whether the number of `"` up to and including
position `i` is odd. -/
def quotedVector : Bool → Str → List Bool
  | _, [] => []
  | q, c :: s =>
    let q' := if c == '"' then !q else q
    q' :: quotedVector q' s

/-- The comment search loop (parser.cpp 191-201).  Result: `commentIdx` and `toRemove`, last one first. -/
def commentLoop (line : Str) (qv : List Bool) : Nat → Nat → List Nat → Option Nat × List Nat
  | 0, _, rm => (none, rm)
  | f + 1, start, rm =>
    match indexOfFrom? ['#'] line start with
    | none => (none, rm)
    | some idx =>
      if 0 < idx ∧ line[idx - 1]? = some '^' then commentLoop line qv f (idx + 1) ((idx - 1) :: rm)
      else if qv[idx]? = some true then commentLoop line qv f (idx + 1) rm
      else (some idx, rm)

/-- The command separator search loop (parser.cpp 203-206). -/
def sepLoop (line : Str) (qv : List Bool) : Nat → Nat → Option Nat
  | 0, _ => none
  | f + 1, start =>
    match indexOfFrom? [';'] line start with
    | none => none
    | some idx => if qv[idx]? = some true then sepLoop line qv f (idx + 1) else some idx

/-- `removeCommentsAndFindCommandSeparator` (parser.cpp 177-221): the edited line and the index of the
command separator. -/
def removeCommentsAndFindCommandSeparator (line : Str) : Str × Option Nat :=
  if line.isEmpty then (line, none)
  else
    let qv := quotedVector false line
    let (commentIdx, toRemove) := commentLoop line qv (line.length + 1) 0 []
    let cmdSepIdx := sepLoop line qv (line.length + 1) 0
    match commentIdx, cmdSepIdx with
    | none, none => (line, none)
    | some c, none => (toRemove.foldl (fun l i => l.eraseIdx i) (line.take c), none)
    | none, some s => (line, some s)
    | some c, some s =>
      if c < s then (toRemove.foldl (fun l i => l.eraseIdx i) (line.take c), none) else (line, some s)

/-- The separator search of `Parser::isDescriptionBlock` (parser.cpp 242-265).  `p1`, `p2` are the
characters one and two positions before the current one. -/
def dbSeparator (first : Char) : Str → Nat → Int → Option Char → Option Char → Option Nat
  | [], _, _, _, _ => none
  | ch :: s, i, level, p1, p2 =>
    if ch == '(' then dbSeparator first s (i + 1) (level + 1) (some ch) p1
    else if ch == ')' then dbSeparator first s (i + 1) (level - 1) (some ch) p1
    else if level == 0 && ch == ':' then
      if i == 1 && isLetter first then dbSeparator first s (i + 1) level (some ch) p1
      else if decide (1 < i) && (p1.map isLetter).getD false &&
          (p2.map fun c => isSpace c || c == '"').getD false then
        dbSeparator first s (i + 1) level (some ch) p1
      else some i
    else dbSeparator first s (i + 1) level (some ch) p1

/-- `Parser::isDescriptionBlock` (parser.cpp 230-277) on the line with comments removed:
separator position and length. -/
def descriptionBlockSeparator (line : Str) : Option (Nat × Nat) :=
  match line with
  | [] => none
  | first :: _ =>
    if isSpaceOrTab first then none
    else match dbSeparator first line 0 0 none none with
      | none => none
      | some pos => some (pos, if line[pos + 1]? = some ':' then 2 else 1)

/-! ### Target names -/

/-- `split_append_helper` (parser.cpp 297-305). -/
def splitAppendHelper (lst : List Str) (entry : Str) : List Str :=
  let e := removeDoubleQuotes (trimmed entry)
  if e.isEmpty then lst else lst ++ [e]

/-- The loop of `splitTargetNames` (parser.cpp 312-323); arguments: remaining text, `i`,
`inDoubleQuotes`, `from`, `to`, `lst`.  Result: `from` and `lst`. -/
def splitTargetNamesGo (str : Str) : Str → Nat → Bool → Nat → Nat → List Str → Nat × List Str
  | [], _, _, frm, _, lst => (frm, lst)
  | ch :: s, i, inq, frm, to, lst =>
    let (inq, to) := if ch == '"' then (!inq, to)
      else if !inq && (ch == ' ' || ch == '\t') then (inq, i) else (inq, to)
    if frm < to then
      splitTargetNamesGo str s (i + 1) inq (to + 1) (to + 1)
        (splitAppendHelper lst ((str.drop frm).take (to - frm)))
    else splitTargetNamesGo str s (i + 1) inq frm to lst

/-- `splitTargetNames` (parser.cpp 307-329). -/
def splitTargetNames (str : Str) : List Str :=
  let (frm, lst) := splitTargetNamesGo str str 0 false 0 0 []
  if frm < str.length then splitAppendHelper lst (str.drop frm) else lst

/-! ### Wildcards -/

/-- States of `containsWildcard` (parser.cpp 334-339). -/
inductive WcState where
  | initial | afterDollar | afterDollarParen
deriving DecidableEq, Repr

/-- The loop of `containsWildcard` (parser.cpp 340-355). -/
def containsWildcardGo : WcState → Str → Bool
  | _, [] => false
  | st, ch :: s =>
    if ch == magicEscape then containsWildcardGo .afterDollar s
    else match st with
      | .afterDollar => containsWildcardGo (if ch == '(' then .afterDollarParen else .initial) s
      | .afterDollarParen => containsWildcardGo .initial s
      | .initial => if ch == '*' || ch == '?' then true else containsWildcardGo .initial s

/-- `containsWildcard` (parser.cpp 331-357). -/
def containsWildcard (s : Str) : Bool := containsWildcardGo .initial s

/-- `expandWildcards` (parser.cpp 359-390).  The directory search (path computation, `QDirIterator`,
conversion of the found paths) is the parameter `glob`. -/
def expandWildcards (glob : Str → List Str) : List Str → List Str
  | [] => []
  | s :: lst => (if containsWildcard s then glob s else [s]) ++ expandWildcards glob lst

/-! ### Command modifiers -/

/-- The members of `Command` (makefile.h 50-64) used here. -/
structure Cmd where
  line : Str
  maxExitCode : Nat := 0
  silent : Bool := false
  singleExecution : Bool := false
deriving DecidableEq, Repr

/-- `std::numeric_limits<unsigned int>::max()`. -/
def uintMax : Nat := 4294967295

/-- Value of a digit. -/
def digitVal (c : Char) : Nat := c.toNat - 48

/-- Decimal value of a list of digits. -/
def decValue (s : Str) : Nat := s.foldl (fun n c => 10 * n + digitVal c) 0

/-- `QString::toUInt()` of a text of digits: 0 on overflow. -/
def toUInt (s : Str) : Nat := if decValue s ≤ uintMax then decValue s else 0

/-- `Command::evaluateModifiers` (makefile.cpp 79-112).  Fuel `length + 1` suffices: every round removes
a character. -/
def evalModF : Nat → Cmd → Cmd
  | 0, c => c
  | f + 1, c =>
    match c.line with
    | [] => c
    | '-' :: s =>
      let s := s.dropWhile (· == '-')
      let digits := s.takeWhile isDigit
      if digits.length > 0 then
        evalModF f { c with line := s.drop digits.length, maxExitCode := toUInt digits }
      else evalModF f { c with line := s, maxExitCode := uintMax }
    | '@' :: s => evalModF f { c with line := s, silent := true }
    | '!' :: s => evalModF f { c with line := s, singleExecution := true }
    | _ :: _ => c

/-- `Command::evaluateModifiers` (makefile.cpp 79-112). -/
def evaluateModifiers (c : Cmd) : Cmd := evalModF (c.line.length + 1) c

/-- `static_cast<unsigned int>(exitCode)`. -/
def toUnsigned (exitCode : Int) : Nat := (exitCode % 4294967296).toNat

/-- The failure test of `CommandExecutor::onProcessFinished` (commandexecutor.cpp 106). -/
def Cmd.failsWith (c : Cmd) (exitCode : Int) : Bool := decide (c.maxExitCode < toUnsigned exitCode)

end Jom
