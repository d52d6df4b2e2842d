/-
Model of `Parser` (src/jomlib/parser.cpp): the main loop of `apply`, dot directives, inference rules, description blocks,
commands and inline files. The functions on single lines are in `Model/ParserText.lean`, the table of targets in `Model/Blocks.lean`.

Simplifications:
* The preprocessor is a parameter (`Source`); `Model/Preprocessor.lean` gives one (`ppSource`).
* File names and line numbers in exceptions and warnings are not modelled.
* Loops that read lines take a bound.
* If the braces of an inference rule can be matched in several ways, the longest first group counts.
-/
import Verif.Model.Preprocessor
import Verif.Model.Blocks

namespace Jom.Parse

open Inference (Command InlineFile Rule)
open Blocks (Mk Block BErr addBlock)

/-- Why parsing stops. -/
inductive PErr where
  | macro (e : MacroErr)
  | pp (e : PP.Err)
  | block (e : BErr)
  | syntax
  | fuel
deriving DecidableEq, Repr

/-- The preprocessor as the parser sees it: `next inline` is `readLine()` (`none` is the null string) with inline file mode on or off;
`macros` is the macro table. -/
structure Source (σ : Type) where
  next : Bool → σ → Except PErr (Option Str × σ)
  macros : σ → Macros

/-- The preprocessor of `Model/Preprocessor.lean`. -/
def ppSource (w : PP.World) (fuel : Nat) : Source PP.St where
  next inl s := match PP.readLine w fuel { s with inline := inl } with
    | .ok r => .ok r
    | .error e => .error (.pp e)
  macros s := s.table.macros

/-- State of the parser: `line` = `m_line`, `ignore` = `m_ignoreExitCodes`, `silent` = `m_silentCommands`. -/
structure PSt (σ : Type) where
  src : σ
  line : Option Str := none
  table : Mk := {}
  rules : List Rule := []
  suffixes : List Str := []
  precious : List Str := []
  ignore : Bool := false
  silent : Bool := false

variable {σ : Type}

/-- `Parser::readLine` (parser.cpp 164-167). -/
def readLine (S : Source σ) (p : PSt σ) : Except PErr (PSt σ) :=
  match S.next false p.src with
  | .error e => .error e
  | .ok (l, s) => .ok { p with line := l, src := s }

/-- `expandMacros` with the table of the moment. -/
def expand (S : Source σ) (p : PSt σ) (dep : Bool) (s : Str) : Except PErr Str :=
  match expandMacros (S.macros p.src) s dep with
  | .error e => .error (.macro e)
  | .ok t => .ok t

/-- `split` at blanks without the empty parts. -/
def words : Str → Str → List Str
  | [], cur => if cur.isEmpty then [] else [cur]
  | c :: s, cur =>
    if isSpace c then (if cur.isEmpty then words s [] else cur :: words s []) else words s (cur ++ [c])

/-! ### Dot directives -/

/-- The directives in `m_rexDotDirective` (parser.cpp 43). -/
inductive Dot where
  | ignore | precious | silent | suffixes
deriving DecidableEq, Repr

/-- The rest of a dot directive: `\s*:(.*)`. -/
def afterColon (s : Str) : Option Str :=
  match trimLeft s with
  | ':' :: v => some v
  | _ => none

/-- `isDotDirective` (parser.cpp 284-287, pattern 43): the directive and its value. -/
def dotDirective (line : Str) : Option (Dot × Str) :=
  if startsWith line c!".IGNORE" then (afterColon (line.drop 7)).map fun v => (.ignore, v)
  else if startsWith line c!".PRECIOUS" then (afterColon (line.drop 9)).map fun v => (.precious, v)
  else if startsWith line c!".SILENT" then (afterColon (line.drop 7)).map fun v => (.silent, v)
  else if startsWith line c!".SUFFIXES" then (afterColon (line.drop 9)).map fun v => (.suffixes, v)
  else none

/-- `parseDotDirective` (parser.cpp 615-641) before reading the next line. The value is that of the match, which was done before the comment
was removed (parser.cpp 89-92, 617-618). -/
def onDot (d : Dot) (v : Str) (p : PSt σ) : PSt σ :=
  match d with
  | .suffixes => { p with suffixes := if (words v []).isEmpty then [] else p.suffixes ++ words v [] }
  | .ignore => { p with ignore := true }
  | .precious => { p with precious := (words v []).foldl (fun l s => if s ∈ l then l else l ++ [s]) p.precious }
  | .silent => { p with silent := true }

/-! ### Inference rules -/

/-- `\w`. -/
def isWord (c : Char) : Bool := isLetterOrNumber c || c == '_'

/-- The word at the end of a text with the dot in front of it, and what is in front: `(.*)(\.\w+)`. -/
def extAtEnd (s : Str) : Option (Str × Str) :=
  let w := (s.reverse.takeWhile isWord).reverse
  match s.reverse.dropWhile isWord with
  | '.' :: r => if w.isEmpty then none else some (r.reverse, '.' :: w)
  | _ => none

/-- `(\{.*\})?(\.\w+)`. -/
def pathExt (s : Str) : Option (Str × Str) :=
  match extAtEnd s with
  | none => none
  | some (g, e) => if g.isEmpty || (startsWith g ['{'] && endsWith g ['}'] && decide (2 ≤ g.length)) then some (g, e) else none

/-- `(\{.*\})?(\.\w+)(\{.*\})` if the text ends with `}`: the longest first part of at most `n` characters. -/
def twoPaths (s : Str) : Nat → Option (Str × Str × Str)
  | 0 => none
  | n + 1 =>
    if s[n]? = some '{' then
      match pathExt (s.take n) with
      | some (g, e) => some (g, e, s.drop n)
      | none => twoPaths s n
    else twoPaths s n

/-- `isInferenceRule` (parser.cpp 279-282, pattern 44): the groups 1 to 4 and whether there are two colons. -/
def inferenceRule (line : Str) : Option ((Str × Str × Str × Str) × Bool) :=
  let colons := (line.reverse.takeWhile (· == ':')).length
  if colons = 1 ∨ colons = 2 then
    match extAtEnd (line.take (line.length - colons)) with
    | none => none
    | some (r, toExt) =>
      if endsWith r ['}'] then
        (twoPaths r r.length).map fun (g, e, t) => ((g, e, t, toExt), decide (colons = 2))
      else (pathExt r).map fun (g, e) => ((g, e, [], toExt), decide (colons = 2))
  else none

/-- The search path of a group (parser.cpp 586-599). -/
def rulePath (g : Str) : Str :=
  let p := if 2 ≤ g.length then (g.drop 1).take (g.length - 2) else g
  removeDirSeparatorAtEnd (if p.isEmpty then ['.'] else p)

/-! ### Commands -/

/-- The names of inline files (parser.cpp 514-542): the command line without the names, the files. Every round finds another `<<`. -/
def inlineNames : Nat → Str → Nat → List InlineFile → Str × List InlineFile
  | 0, line, _, files => (line, files)
  | n + 1, line, start, files =>
    match indexOfFrom? c!"<<" line start with
    | none => (line, files)
    | some i =>
      let pos := i + 2
      match line.drop pos with
      | [] => inlineNames n line pos (files ++ [{}])
      | c :: rest =>
        if isSpace c then inlineNames n line pos (files ++ [{}])
        else if c = '"' then
          match indexOf? ['"'] rest with
          | none => inlineNames n line pos (files ++ [{}])
          | some k => inlineNames n (line.take pos ++ rest.drop (k + 1)) pos (files ++ [{ filename := rest.take k }])
        else
          inlineNames n (line.take pos ++ (c :: rest).dropWhile fun c => !isSpace c) pos
            (files ++ [{ filename := (c :: rest).takeWhile fun c => !isSpace c }])

/-- The end of a content line (parser.cpp 564-569). -/
def withCrLf (s : Str) : Str :=
  if endsWith s ['\r', '\n'] then s
  else if endsWith s ['\n'] then s.dropLast ++ ['\r', '\n']
  else s ++ ['\r', '\n']

/-- The content of one inline file (parser.cpp 547-574). -/
def readContent (S : Source σ) (inferenceRule : Bool) : Nat → InlineFile → PSt σ → Except PErr (InlineFile × PSt σ)
  | 0, _, _ => .error .fuel
  | n + 1, f, p =>
    match S.next true p.src with
    | .error e => .error e
    | .ok (none, s) => .ok (f, { p with line := none, src := s })
    | .ok (some l, s) =>
      let p := { p with line := some l, src := s }
      if startsWith l c!"<<" then
        let options := words (l.drop 2) []
        .ok ({ f with keep := f.keep || decide (c!"KEEP" ∈ options), unicode := f.unicode || decide (c!"UNICODE" ∈ options) }, p)
      else do
        let t ← (if inferenceRule then .ok l else expand S p false l)
        readContent S inferenceRule n { f with content := f.content ++ withCrLf t } p

/-- The contents of all inline files of a command. -/
def readContents (S : Source σ) (inferenceRule : Bool) (n : Nat) : List InlineFile → PSt σ → Except PErr (List InlineFile × PSt σ)
  | [], p => .ok ([], p)
  | f :: fs, p => do
    let (f, p) ← readContent S inferenceRule n f p
    let (fs, p) ← readContents S inferenceRule n fs p
    .ok (f :: fs, p)

/-- `parseCommandLine`, `parseInlineFiles` (parser.cpp 495-576). -/
def parseCommandLine (S : Source σ) (n : Nat) (inferenceRule : Bool) (cmdLine : Str) (p : PSt σ) : Except PErr (Command × PSt σ) := do
  let c : Cmd := { line := trimmed cmdLine, maxExitCode := if p.ignore then uintMax else 0, silent := p.silent }
  let c ← (if inferenceRule then .ok c
    else (do
      let l ← expand S p false c.line
      .ok (evaluateModifiers { c with line := l })))
  let (line, files) := inlineNames (c.line.length + 1) c.line 0 []
  let (files, p) ← readContents S inferenceRule n files p
  .ok ({ cmd := { c with line := line }, files := files }, p)

/-- The loop over empty lines in `parseCommand` (parser.cpp 480-485). -/
def skipEmpty (S : Source σ) : Nat → PSt σ → Except PErr (PSt σ)
  | 0, _ => .error .fuel
  | n + 1, p =>
    if (trimmed (p.line.getD [])).isEmpty then do
      let p ← readLine S p
      if p.line.isNone then .ok p else skipEmpty S n p
    else .ok p

/-- `parseCommand` (parser.cpp 478-493); `none`: no command. -/
def parseCommand (S : Source σ) (n : Nat) (inferenceRule : Bool) (p : PSt σ) : Except PErr (Option Command × PSt σ) := do
  let p ← skipEmpty S n p
  match p.line with
  | none => .ok (none, p)
  | some l =>
    if !startsWithSpaceOrTab l then .ok (none, p)
    else do
      let (c, p) ← parseCommandLine S n inferenceRule l p
      .ok (some c, p)

/-- `while (parseCommand(commands, …)) readLine();`. -/
def parseCommands (S : Source σ) (n : Nat) (inferenceRule : Bool) : Nat → List Command → PSt σ → Except PErr (List Command × PSt σ)
  | 0, _, _ => .error .fuel
  | k + 1, cmds, p => do
    let (c, p) ← parseCommand S n inferenceRule p
    match c with
    | none => .ok (cmds, p)
    | some c => do
      let p ← readLine S p
      parseCommands S n inferenceRule k (cmds ++ [c]) p

/-- `parseInferenceRule` (parser.cpp 578-613). -/
def parseInferenceRule (S : Source σ) (n : Nat) (r : (Str × Str × Str × Str) × Bool) (p : PSt σ) : Except PErr (PSt σ) := do
  let p ← readLine S p
  let (cmds, p) ← parseCommands S n true n [] p
  .ok { p with rules := p.rules ++ [{ batch := r.2, fromPath := rulePath r.1.1, fromExt := r.1.2.1, toPath := rulePath r.1.2.2.1, toExt := r.1.2.2.2, commands := cmds }] }

/-- `QDir::toNativeSeparators` on Windows. -/
def toNative (s : Str) : Str := s.map fun c => if c = '/' then '\\' else c

/-- The commands of a description block (parser.cpp 403-419): the one behind `;` and the following lines. -/
def blockCommands (S : Source σ) (n : Nat) (inPlace : Option Str) (p : PSt σ) : Except PErr (List Command × PSt σ) := do
  let (cmds, p) ← (match inPlace with
    | none => .ok ([], p)
    | some s => (do
      let (c, p) ← parseCommandLine S n false (trimmed s) p
      .ok ([c], p)))
  let p ← readLine S p
  if (trimmed (p.line.getD [])).isEmpty then (do
    let p ← readLine S p
    .ok (cmds, p))
  else parseCommands S n false n cmds p

/-- The line up to the `;` (parser.cpp 396-397). -/
def untilSeparator (line : Str) : Option Nat → Str
  | none => line
  | some i => line.take i

/-- `parseDescriptionBlock` (parser.cpp 392-476); `line` is the line without comments, `pos`, `len` the separator, `sep` the position of the
`;`. `glob` lists the files that match a pattern. -/
def parseDescriptionBlock (S : Source σ) (glob : Str → List Str) (n : Nat) (line : Str) (pos len : Nat) (sep : Option Nat) (p : PSt σ) :
    Except PErr (PSt σ) := do
  let target ← expand S p false (trimmed (line.take pos))
  let value ← expand S p true (trimmed ((untilSeparator line sep).drop (pos + len)))
  let (cmds, p) ← blockCommands S n (sep.map fun i => line.drop (i + 1)) p
  let b : Block := {
    targets := splitTargetNames (toNative target)
    deps := expandWildcards glob (splitTargetNames (toNative value))
    double := decide (1 < len)
    cmds := cmds }
  match addBlock n p.table b with
  | .error e => .error (.block e)
  | .ok mk => .ok { p with table := mk }

/-- One round of the main loop (parser.cpp 86-101); `l` is the current line. -/
def parseItem (S : Source σ) (glob : Str → List Str) (n : Nat) (l : Str) (p : PSt σ) : Except PErr (PSt σ) := do
  let expanded ← expand S p false l
  if (trimmed expanded).isEmpty then readLine S p
  else
    match dotDirective expanded with
    | some (d, v) => readLine S (onDot d v p)
    | none =>
      match inferenceRule expanded with
      | some r => parseInferenceRule S n r p
      | none =>
        let r := removeCommentsAndFindCommandSeparator l
        match descriptionBlockSeparator r.1 with
        | none => .error .syntax
        | some (pos, len) => parseDescriptionBlock S glob n r.1 pos len r.2 p

/-- The main loop (parser.cpp 85-102). -/
def parseItems (S : Source σ) (glob : Str → List Str) (n : Nat) : Nat → PSt σ → Except PErr (PSt σ)
  | 0, _ => .error .fuel
  | k + 1, p =>
    match p.line with
    | none => .ok p
    | some l => do
      let p ← parseItem S glob n l p
      parseItems S glob n k p

/-- The suffixes at the beginning (parser.cpp 67-78). -/
def builtinSuffixes : List Str :=
  [c!".exe", c!".obj", c!".asm", c!".c", c!".cpp", c!".cxx", c!".bas", c!".cbl", c!".for", c!".pas", c!".res", c!".rc"]

/-- `apply` (parser.cpp 56-102) up to the end of the file. `silent` is `suppressOutputMessages` (`/C`), `stop` = `stopOnErrors`. -/
def parse (S : Source σ) (glob : Str → List Str) (n : Nat) (silent stop : Bool) (s : σ) : Except PErr (PSt σ) := do
  let p ← readLine S { src := s, suffixes := builtinSuffixes, ignore := !stop, silent := silent }
  parseItems S glob n n p

end Jom.Parse
