/-
Where the exceptions of `Parser` are thrown (src/jomlib/parser.cpp): the functions of `Model/Parser.lean` once more, with exceptions that carry
the state of the preprocessor at the time they are thrown. `Parser::error` (756-759) and the `catch` block of `apply` (105-108) ask the
preprocessor for file name and line number in this state. `Proofs/ParserPos.lean` shows that, without that state, they are the functions of
`Model/Parser.lean`.
-/
import Verif.Model.Parser

namespace Jom.Parse.Pos

open Inference (Command InlineFile Rule)
open Blocks (Block addBlock)

variable {σ : Type}

/-- An exception and the state of the preprocessor when it is thrown. -/
abbrev Thrown (σ : Type) := PErr × σ

/-- An exception thrown while the state of the preprocessor is `s`. -/
def inState {α : Type} (s : σ) : Except PErr α → Except (Thrown σ) α
  | .ok a => .ok a
  | .error e => .error (e, s)

/-- `Parser::readLine` (parser.cpp 164-167). An exception of the preprocessor already has its position; the state is that before the call. -/
def readLine (S : Source σ) (p : PSt σ) : Except (Thrown σ) (PSt σ) := inState p.src (Parse.readLine S p)

/-- `expandMacros` with the table of the moment. -/
def expand (S : Source σ) (p : PSt σ) (dep : Bool) (s : Str) : Except (Thrown σ) Str := inState p.src (Parse.expand S p dep s)

/-- The content of one inline file (parser.cpp 547-574). -/
def readContent (S : Source σ) (inferenceRule : Bool) : Nat → InlineFile → PSt σ → Except (Thrown σ) (InlineFile × PSt σ)
  | 0, _, p => .error (.fuel, p.src)
  | n + 1, f, p =>
    match S.next true p.src with
    | .error e => .error (e, p.src)
    | .ok (none, s) => .ok (f, { p with line := none, src := s })
    | .ok (some l, s) =>
      let p := { p with line := some l, src := s }
      if startsWith l c!"<<" then
        let options := words (l.drop 2) []
        .ok ({ f with keep := f.keep || decide (c!"KEEP" ∈ options), unicode := f.unicode || decide (c!"UNICODE" ∈ options) }, p)
      else do
        let t ← (if inferenceRule then .ok l else expand S p false l)
        readContent S inferenceRule n { f with content := f.content ++ withCrLf t } p

/-- The contents of all inline files of a command. -/
def readContents (S : Source σ) (inferenceRule : Bool) (n : Nat) : List InlineFile → PSt σ → Except (Thrown σ) (List InlineFile × PSt σ)
  | [], p => .ok ([], p)
  | f :: fs, p => do
    let (f, p) ← readContent S inferenceRule n f p
    let (fs, p) ← readContents S inferenceRule n fs p
    .ok (f :: fs, p)

/-- `parseCommandLine`, `parseInlineFiles` (parser.cpp 495-576). -/
def parseCommandLine (S : Source σ) (n : Nat) (inferenceRule : Bool) (cmdLine : Str) (p : PSt σ) : Except (Thrown σ) (Command × PSt σ) := do
  let c : Cmd := { line := trimmed cmdLine, maxExitCode := if p.ignore then uintMax else 0, silent := p.silent }
  let c ← (if inferenceRule then .ok c
    else (do
      let l ← expand S p false c.line
      .ok (evaluateModifiers { c with line := l })))
  let (line, files) := inlineNames (c.line.length + 1) c.line 0 []
  let (files, p) ← readContents S inferenceRule n files p
  .ok ({ cmd := { c with line := line }, files := files }, p)

/-- The loop over empty lines in `parseCommand` (parser.cpp 480-485). -/
def skipEmpty (S : Source σ) : Nat → PSt σ → Except (Thrown σ) (PSt σ)
  | 0, p => .error (.fuel, p.src)
  | n + 1, p =>
    if (trimmed (p.line.getD [])).isEmpty then do
      let p ← readLine S p
      if p.line.isNone then .ok p else skipEmpty S n p
    else .ok p

/-- `parseCommand` (parser.cpp 478-493); `none`: no command. -/
def parseCommand (S : Source σ) (n : Nat) (inferenceRule : Bool) (p : PSt σ) : Except (Thrown σ) (Option Command × PSt σ) := do
  let p ← skipEmpty S n p
  match p.line with
  | none => .ok (none, p)
  | some l =>
    if !startsWithSpaceOrTab l then .ok (none, p)
    else do
      let (c, p) ← parseCommandLine S n inferenceRule l p
      .ok (some c, p)

/-- `while (parseCommand(commands, …)) readLine();`. -/
def parseCommands (S : Source σ) (n : Nat) (inferenceRule : Bool) : Nat → List Command → PSt σ → Except (Thrown σ) (List Command × PSt σ)
  | 0, _, p => .error (.fuel, p.src)
  | k + 1, cmds, p => do
    let (c, p) ← parseCommand S n inferenceRule p
    match c with
    | none => .ok (cmds, p)
    | some c => do
      let p ← readLine S p
      parseCommands S n inferenceRule k (cmds ++ [c]) p

/-- `parseInferenceRule` (parser.cpp 578-613). -/
def parseInferenceRule (S : Source σ) (n : Nat) (r : (Str × Str × Str × Str) × Bool) (p : PSt σ) : Except (Thrown σ) (PSt σ) := do
  let p ← readLine S p
  let (cmds, p) ← parseCommands S n true n [] p
  .ok { p with rules := p.rules ++ [{ batch := r.2, fromPath := rulePath r.1.1, fromExt := r.1.2.1, toPath := rulePath r.1.2.2.1, toExt := r.1.2.2.2, commands := cmds }] }

/-- The commands of a description block (parser.cpp 403-419): the one behind `;` and the following lines. -/
def blockCommands (S : Source σ) (n : Nat) (inPlace : Option Str) (p : PSt σ) : Except (Thrown σ) (List Command × PSt σ) := do
  let (cmds, p) ← (match inPlace with
    | none => .ok ([], p)
    | some s => (do
      let (c, p) ← parseCommandLine S n false (trimmed s) p
      .ok ([c], p)))
  let p ← readLine S p
  if (trimmed (p.line.getD [])).isEmpty then (do
    let p ← readLine S p
    .ok (cmds, p))
  else parseCommands S n false n cmds p

/-- `parseDescriptionBlock` (parser.cpp 392-476). The error for mixed separators (455) is thrown after the commands and the line behind them have
been read. -/
def parseDescriptionBlock (S : Source σ) (glob : Str → List Str) (n : Nat) (line : Str) (pos len : Nat) (sep : Option Nat) (p : PSt σ) :
    Except (Thrown σ) (PSt σ) := do
  let target ← expand S p false (trimmed (line.take pos))
  let value ← expand S p true (trimmed ((untilSeparator line sep).drop (pos + len)))
  let (cmds, p) ← blockCommands S n (sep.map fun i => line.drop (i + 1)) p
  let b : Block := {
    targets := splitTargetNames (toNative target)
    deps := expandWildcards glob (splitTargetNames (toNative value))
    double := decide (1 < len)
    cmds := cmds }
  match addBlock n p.table b with
  | .error e => .error (.block e, p.src)
  | .ok mk => .ok { p with table := mk }

/-- One round of the main loop (parser.cpp 86-101); `l` is the current line. -/
def parseItem (S : Source σ) (glob : Str → List Str) (n : Nat) (l : Str) (p : PSt σ) : Except (Thrown σ) (PSt σ) := do
  let expanded ← expand S p false l
  if (trimmed expanded).isEmpty then readLine S p
  else
    match dotDirective expanded with
    | some (d, v) => readLine S (onDot d v p)
    | none =>
      match inferenceRule expanded with
      | some r => parseInferenceRule S n r p
      | none =>
        let r := removeCommentsAndFindCommandSeparator l
        match descriptionBlockSeparator r.1 with
        | none => .error (.syntax, p.src)
        | some (pos, len) => parseDescriptionBlock S glob n r.1 pos len r.2 p

/-- The main loop (parser.cpp 85-102). -/
def parseItems (S : Source σ) (glob : Str → List Str) (n : Nat) : Nat → PSt σ → Except (Thrown σ) (PSt σ)
  | 0, p => .error (.fuel, p.src)
  | k + 1, p =>
    match p.line with
    | none => .ok p
    | some l => do
      let p ← parseItem S glob n l p
      parseItems S glob n k p

/-- `apply` (parser.cpp 56-102) up to the end of the file. -/
def parse (S : Source σ) (glob : Str → List Str) (n : Nat) (silent stop : Bool) (s : σ) : Except (Thrown σ) (PSt σ) := do
  let p ← readLine S { src := s, suffixes := builtinSuffixes, ignore := !stop, silent := silent }
  parseItems S glob n n p

end Jom.Parse.Pos
