/-
Model of `Preprocessor` (src/jomlib/preprocessor.{h,cpp}).

* The expression parser is a parameter (`World.eval`), see `Model/Expr*.lean`.
* The file system is a parameter: `find` = `QFileInfo(p).exists()` and `absoluteFilePath()`, `content` = the text of a
  file that can be opened, `dir` = `absolutePath()`.  It does not change while a makefile is read.
* A reader is the unread text of its file; in normal mode it delivers the lines of `Model/LineReader.lean` (the two
  implementations agree, theorem `C11_readers_agree`).
* Exceptions carry no file name and line number.
* `isPreprocessingDirective` re-expands the variable `value` of its caller also if the line is no directive; in
  `skipUntilNextMatchingConditional` that is the argument of the directive skipped before.  The model drops this
  (the result is never used; it could only throw).
-/
import Verif.Model.LineReader
import Verif.Model.MacroTable
import Verif.Model.ParserText

namespace Jom.PP

/-- The exceptions of preprocessor.cpp; `fuel` is no outcome of the program (see C19). -/
inductive Err where
  | macro (e : MacroErr)
  | missingEndif
  | unexpectedElse
  | unexpectedEndif
  | userError (text : Str)
  | unknownDirective (d : Str)
  | includeCycle
  | fileNotFound
  | cannotOpen
  | expression
  | fuel
deriving DecidableEq, Repr

structure World where
  find : Str → Option Str
  content : Str → Option Str
  dir : Str → Str
  eval : MacroTable → Str → Option Int

/-- `TextFile` (preprocessor.h 85-106). -/
structure TextFile where
  name : Str
  dir : Str
  rest : Str
deriving DecidableEq, Repr

/-- State of a `Preprocessor` (preprocessor.h 101-107). The heads of `files` and `conds` are the tops of the stacks;
`messages` is the text printed by `!MESSAGE`. -/
structure St where
  table : MacroTable := {}
  putBack : List Str := []
  files : List TextFile := []
  conds : List Bool := []
  inline : Bool := false
  messages : List Str := []
deriving DecidableEq, Repr

/-! ### Reading lines -/

/-- `MakefileLineReader::readLine`: makefilelinereader.cpp 91-99. -/
def readerLine (inline : Bool) (rest : Str) : MLine × Str :=
  if inline then
    match rest with
    | [] => ({}, [])
    | _ :: _ => ({ content := some (devReadLine rest.length rest).1 }, (devReadLine rest.length rest).2)
  else readLineU rest

/-- The loop of `basicReadLine`: preprocessor.cpp 147-154. -/
def readFiles (inline : Bool) : List TextFile → MLine × List TextFile
  | [] => ({}, [])
  | f :: fs =>
    let r := readerLine inline f.rest
    if r.1.content.isNone then readFiles inline fs else (r.1, { f with rest := r.2 } :: fs)

/-- `basicReadLine`: preprocessor.cpp 139-156. -/
def basicReadLine (s : St) : MLine × St :=
  match s.putBack with
  | l :: ls => ({ content := some l }, { s with putBack := ls })
  | [] => ((readFiles s.inline s.files).1, { s with files := (readFiles s.inline s.files).2 })

/-- Characters and lines that are still to be read; bounds the loops that only read. -/
def size (s : St) : Nat := s.putBack.length + (s.files.map fun f => f.rest.length + 1).sum

/-- `isComplete` (makefilelinereader.h 47-50). -/
def isComplete (l : MLine) : Bool := decide (l.cont = .none)

/-- `joinLines`: preprocessor.cpp 167-175, `leftTrimmed`: 158-165. -/
def joinLines (line next : MLine) : MLine :=
  { content := some (line.content.getD [] ++
      (match line.cont with | .backslash => [' '] | .caret => ['\n'] | .none => []) ++ trimLeft (next.content.getD []))
    cont := next.cont }

/-- `joinPreprocessingDirectiveLines`: preprocessor.cpp 177-183. -/
def joinDirective (line next : MLine) : MLine :=
  { content := some (line.content.getD [] ++ (if line.cont = .caret then ['^'] else []) ++ next.content.getD [])
    cont := next.cont }

/-- `completePreprocessingDirectiveLine`: preprocessor.cpp 185-195, 202-205. -/
def completeF : Nat → MLine → St → MLine × St
  | 0, line, s => (line, s)
  | f + 1, line, s =>
    if isComplete line then (line, s)
    else
      let r := basicReadLine s
      if r.1.content.isNone then ({ line with cont := .none }, r.2)
      else completeF f (joinDirective line r.1) r.2

def complete (line : MLine) (s : St) : MLine × St := completeF (size s + 1) line s

/-! ### Macro definitions -/

/-- First character allowed by the expression in `parseMacro` (preprocessor.cpp 212-215); its second group is optional. -/
def startsMacro (c : Char) : Bool := c == '_' || isLetter c && decide (c.toNat < 128) || isDigit c || c == '$'

/-- The loop of `parseMacro`: preprocessor.cpp 217-236, from index `i` on. -/
def findEquals : Str → Nat → Int → Option Nat
  | [], _, _ => none
  | c :: s, i, depth =>
    if c == '(' then findEquals s (i + 1) (depth + 1)
    else if c == ')' then findEquals s (i + 1) (depth - 1)
    else if depth = 0 then
      if c == '=' then some i else if c == ':' then none else findEquals s (i + 1) depth
    else findEquals s (i + 1) depth

/-- Name and value of a macro definition: preprocessor.cpp 207-243. -/
def macroDefinition (line : Str) : Option (Str × Str) :=
  match line with
  | [] => none
  | c :: s =>
    if startsMacro c then
      match findEquals s 1 0 with
      | some i => some (trimmed (line.take i), removeInlineComments (trimmed (line.drop (i + 1))))
      | none => none
    else none

/-- `parseMacro`: preprocessor.cpp 207-246; `none` = false. -/
def parseMacro (t : MacroTable) (line : Str) : Except MacroErr (Option MacroTable) :=
  match macroDefinition line with
  | none => .ok none
  | some (name, value) =>
    match setMacroValue t name value with
    | .ok t => .ok (some t)
    | .error e => .error e

/-! ### Directives -/

/-- `m_rexPreprocessingDirective` = `^!\s*(\S+)(.*)`, exact match (preprocessor.cpp 43, 399-402). -/
def matchDirective (line : Str) : Option (Str × Str) :=
  match line with
  | '!' :: s =>
    let s := trimLeft s
    let word := s.takeWhile fun c => !isSpace c
    if word.isEmpty then none else some (toUpper word, trimmed (s.dropWhile fun c => !isSpace c))
  | _ => none

/-- One alternative of the expression preprocessor.cpp 406. -/
def elseKeyword (kw value : Str) : Option (Str × Str) :=
  if toLower (value.take kw.length) == kw then
    match value.drop kw.length with
    | c :: s => if isSpace c then some (toUpper kw, trimLeft (c :: s)) else none
    | [] => none
  else none

/-- `^(ifn?def|if)\s+(.*)$`, exact match, case insensitive: preprocessor.cpp 404-411. -/
def elseForm (value : Str) : Option (Str × Str) :=
  (elseKeyword ['i', 'f', 'n', 'd', 'e', 'f'] value).or
    ((elseKeyword ['i', 'f', 'd', 'e', 'f'] value).or (elseKeyword ['i', 'f'] value))

def wELSE : Str := ['E', 'L', 'S', 'E']
def wINCLUDE : Str := ['I', 'N', 'C', 'L', 'U', 'D', 'E']

/-- `isPreprocessingDirective` without the expansion of the value: preprocessor.cpp 374-415. -/
def rawDirective (line : Str) : Option (Str × Str) :=
  match line with
  | [] => none
  | c :: _ =>
    if isSpaceOrTab c then none
    else if c ≠ '!' ∧ 8 < line.length then
      if (line[7]?.map isSpaceOrTab).getD false = true ∧ toLower (line.take 7) = ['i', 'n', 'c', 'l', 'u', 'd', 'e'] then
        some (wINCLUDE, line.drop 8)
      else none
    else
      match matchDirective line with
      | none => none
      | some (d, v) =>
        if d = wELSE then
          match elseForm v with
          | some (kw, v) => some (d ++ kw, v)
          | none => some (d, v)
        else some (d, v)

/-- `isPreprocessingDirective`: preprocessor.cpp 374-420. -/
def isDirective (m : Macros) (line : Str) : Except MacroErr (Option (Str × Str)) :=
  match rawDirective line with
  | none => .ok none
  | some (d, v) =>
    match expandMacros m v with
    | .ok v => .ok (some (d, removeInlineComments v))
    | .error e => .error e

/-- The directive words of `parsePreprocessingDirective` (preprocessor.cpp 255-318). -/
inductive Dir where
  | cmdswitches | error | message | include | if | ifdef | ifndef | else | elseif | elseifdef | elseifndef | endif | undef
  | unknown
deriving DecidableEq, Repr

def wIF : Str := ['I', 'F']
def wIFDEF : Str := ['I', 'F', 'D', 'E', 'F']
def wIFNDEF : Str := ['I', 'F', 'N', 'D', 'E', 'F']
def wENDIF : Str := ['E', 'N', 'D', 'I', 'F']

/-- The comparisons of `parsePreprocessingDirective`. -/
def dirOf (d : Str) : Dir :=
  if d = ['C', 'M', 'D', 'S', 'W', 'I', 'T', 'C', 'H', 'E', 'S'] then .cmdswitches
  else if d = ['E', 'R', 'R', 'O', 'R'] then .error
  else if d = ['M', 'E', 'S', 'S', 'A', 'G', 'E'] then .message
  else if d = wINCLUDE then .include
  else if d = wIF then .if
  else if d = wIFDEF then .ifdef
  else if d = wIFNDEF then .ifndef
  else if d = wELSE then .else
  else if d = wELSE ++ wIF then .elseif
  else if d = wELSE ++ wIFDEF then .elseifdef
  else if d = wELSE ++ wIFNDEF then .elseifndef
  else if d = wENDIF then .endif
  else if d = ['U', 'N', 'D', 'E', 'F'] then .undef
  else .unknown

/-- `DirectiveToken` (preprocessor.cpp 428). -/
inductive Tok where
  | if | endif | else | uninteresting
deriving DecidableEq, Repr

/-- preprocessor.cpp 442-449. -/
def tokOf (d : Str) : Tok :=
  if d = wENDIF then .endif
  else if startsWith d wIF then .if
  else if startsWith d wELSE then .else
  else .uninteresting

/-- `exitConditional`: preprocessor.cpp 474-479. -/
def exitConditional (s : St) : Except Err St :=
  match s.conds with
  | [] => .error .unexpectedEndif
  | _ :: cs => .ok { s with conds := cs }

/-- A line that starts with `!` is completed: preprocessor.cpp 435-436 (and 99-100). -/
def completeDirective (line : MLine) (s : St) : MLine × St :=
  if startsWith (line.content.getD []) ['!'] then complete line s else (line, s)

/-- Expanded line and token of a line that is skipped: preprocessor.cpp 438-449. -/
def skippedTok (m : Macros) (line : Str) : Except MacroErr (Tok × Str) :=
  match expandMacros m line with
  | .error e => .error e
  | .ok expanded =>
    match isDirective m expanded with
    | .error e => .error e
    | .ok none => .ok (.uninteresting, expanded)
    | .ok (some (d, _)) => .ok (tokOf d, expanded)

/-- `skipUntilNextMatchingConditional`: preprocessor.cpp 422-467. -/
def skipF : Nat → Nat → St → Except Err St
  | 0, _, _ => .error .fuel
  | f + 1, depth, s =>
    let r := basicReadLine s
    if r.1.content.isNone then .ok r.2
    else
      let r := completeDirective r.1 r.2
      match skippedTok r.2.table.macros (r.1.content.getD []) with
      | .error e => .error (.macro e)
      | .ok (.uninteresting, _) => skipF f depth r.2
      | .ok (.if, _) => skipF f (depth + 1) r.2
      | .ok (.else, expanded) =>
        if depth = 0 then .ok { r.2 with putBack := r.2.putBack ++ [expanded] } else skipF f depth r.2
      | .ok (.endif, _) => if depth = 0 then exitConditional r.2 else skipF f (depth - 1) r.2

def skip (s : St) : Except Err St := skipF (size s + 1) 0 s

/-- `evaluateExpression`: preprocessor.cpp 476-493. -/
def evaluateExpression (w : World) (t : MacroTable) (expr : Str) : Except Err Int :=
  match expandMacros t.macros expr with
  | .error e => .error (.macro e)
  | .ok e => match w.eval t e with
    | some v => .ok v
    | none => .error .expression

/-- Does the condition hold? preprocessor.cpp 263, 269, 275, 289, 300, 311. -/
def condition (w : World) (t : MacroTable) (d : Dir) (value : Str) : Except Err Bool :=
  match d with
  | .ifdef | .elseifdef => .ok (isMacroDefined t value)
  | .ifndef | .elseifndef => .ok (!isMacroDefined t value)
  | _ => match evaluateExpression w t value with
    | .ok v => .ok (decide (v ≠ 0))
    | .error e => .error e

/-- `QString::split(sep, SkipEmptyParts)`. -/
def splitChar (sep : Char) : Str → Str → List Str
  | [], cur => if cur.isEmpty then [] else [cur]
  | c :: s, cur =>
    if c == sep then (if cur.isEmpty then splitChar sep s [] else cur :: splitChar sep s []) else splitChar sep s (cur ++ [c])

/-- `findIncludeFile`: preprocessor.cpp 332-372. -/
def findIncludeFile (w : World) (s : St) (value : Str) : Except Err Str :=
  let angle := startsWith value ['<'] && endsWith value ['>']
  let path := removeDoubleQuotes (if angle then (value.dropLast).drop 1 else value)
  let inParents := (path :: s.files.map fun f => f.dir ++ ['/'] ++ path).findSome? w.find
  let inMacro :=
    if angle then
      (splitChar ';' ((macroValue s.table.macros wINCLUDE).map fun c => if c == '\t' then ' ' else c) []).findSome?
        fun d => w.find (d ++ ['/'] ++ path)
    else none
  match inParents.or inMacro with
  | some p => .ok p
  | none => .error .fileNotFound

/-- `internalOpenFile`: preprocessor.cpp 67-95. -/
def openFile (w : World) (name : Str) (s : St) : Except Err St :=
  match w.find name with
  | none => .error .fileNotFound
  | some abs =>
    if abs ∈ s.files.map (·.name) then .error .includeCycle
    else match w.content abs with
      | none => .error .cannotOpen
      | some text => .ok { s with files := { name := abs, dir := w.dir abs, rest := text } :: s.files }

/-- `IF`, `IFDEF`, `IFNDEF`: preprocessor.cpp 262-279. -/
def onIf (w : World) (d : Dir) (value : Str) (s : St) : Except Err St :=
  match condition w s.table d value with
  | .error e => .error e
  | .ok b =>
    let s := { s with conds := (!b) :: s.conds }
    if b then .ok s else skip s

/-- `ELSE`: preprocessor.cpp 280-285. -/
def onElse (s : St) : Except Err St :=
  match s.conds with
  | [] => .error .unexpectedElse
  | follow :: _ => if follow then .ok s else skip s

/-- `ELSEIF`, `ELSEIFDEF`, `ELSEIFNDEF`: preprocessor.cpp 286-318. -/
def onElseIf (w : World) (d : Dir) (value : Str) (s : St) : Except Err St :=
  match s.conds with
  | [] => .error .unexpectedElse
  | false :: _ => skip s
  | true :: cs =>
    match condition w s.table d value with
    | .error e => .error e
    | .ok b => if b then .ok { s with conds := false :: cs } else skip s

/-- The dispatch of `parsePreprocessingDirective`: preprocessor.cpp 255-327. -/
def onDirective (w : World) (directive value : Str) (s : St) : Except Err St :=
  match dirOf directive with
  | .cmdswitches => .ok s
  | .error => .error (.userError value)
  | .message => .ok { s with messages := s.messages ++ [value] }
  | .include =>
    match findIncludeFile w s value with
    | .error e => .error e
    | .ok path => openFile w path s
  | .if => onIf w .if value s
  | .ifdef => onIf w .ifdef value s
  | .ifndef => onIf w .ifndef value s
  | .else => onElse s
  | .elseif => onElseIf w .elseif value s
  | .elseifdef => onElseIf w .elseifdef value s
  | .elseifndef => onElseIf w .elseifndef value s
  | .endif => exitConditional s
  | .undef => .ok { s with table := undefineMacro s.table value }
  | .unknown => .error (.unknownDirective directive)

/-- Directive and value of a line that is processed: preprocessor.cpp 250-253. -/
def directiveOf (m : Macros) (line : Str) : Except MacroErr (Option (Str × Str)) :=
  match expandMacros m line with
  | .error e => .error e
  | .ok expanded => isDirective m expanded

/-- `parsePreprocessingDirective`: preprocessor.cpp 248-330; `none` = false. -/
def parseDirective (w : World) (line : Str) (s : St) : Except Err (Option St) :=
  match directiveOf s.table.macros line with
  | .error e => .error (.macro e)
  | .ok none => .ok none
  | .ok (some (d, v)) =>
    match onDirective w d v s with
    | .ok s => .ok (some s)
    | .error e => .error e

/-! ### The main loop -/

/-- One round of the loop in `readLine` (preprocessor.cpp 96-116) with the line built so far: either the loop goes
on (`inl`) or it ends with this line. -/
def round (w : World) (line : MLine) (s : St) : Except Err ((MLine × St) ⊕ (Option Str × St)) :=
  let r := basicReadLine s
  if startsWith (r.1.content.getD []) ['!'] then
    let r := complete r.1 r.2
    match parseDirective w (r.1.content.getD []) r.2 with
    | .error e => .error e
    | .ok none => .ok (.inl (line, r.2))
    | .ok (some s) => .ok (.inl (line, s))
  else
    let line := if isComplete line then r.1 else joinLines line r.1
    if !isComplete line then .ok (.inl (line, r.2))
    else
      match (if r.2.inline then .ok none else parseMacro r.2.table (line.content.getD [])) with
      | .error e => .error (.macro e)
      | .ok (some t) => .ok (.inl (line, { r.2 with table := t }))
      | .ok none =>
        match parseDirective w (line.content.getD []) r.2 with
        | .error e => .error e
        | .ok (some s) => .ok (.inl (line, s))
        | .ok none => .ok (.inr (line.content, r.2))

/-- `readLine`: preprocessor.cpp 97-123. `none` is the null string at the end. -/
def readLineF (w : World) : Nat → MLine → St → Except Err (Option Str × St)
  | 0, _, _ => .error .fuel
  | f + 1, line, s =>
    match round w line s with
    | .error e => .error e
    | .ok (.inl (line, s)) => readLineF w f line s
    | .ok (.inr (text, s)) =>
      if text.isNone ∧ s.conds ≠ [] then .error .missingEndif else .ok (text, s)

def readLine (w : World) (fuel : Nat) (s : St) : Except Err (Option Str × St) := readLineF w fuel {} s

/-- All lines that `readLine` returns until the null string. -/
def readAllF (w : World) : Nat → Nat → St → Except Err (List Str × St)
  | _, 0, _ => .error .fuel
  | fuel, n + 1, s =>
    match readLine w fuel s with
    | .error e => .error e
    | .ok (none, s) => .ok ([], s)
    | .ok (some l, s) =>
      match readAllF w fuel n s with
      | .ok (ls, s) => .ok (l :: ls, s)
      | .error e => .error e

end Jom.PP
