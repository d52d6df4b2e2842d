/-
Where the exceptions of `Preprocessor` are thrown (src/jomlib/preprocessor.cpp): the functions of `Model/Preprocessor.lean` that can throw once
more, with exceptions that carry the state at the time they are thrown. `Preprocessor::error` (495-498) asks for file name and line number in this
state; exceptions of the macro table get them in the `catch` block of `Parser::apply` (parser.cpp 105-108), which is the same state since nothing is
read in between. `Proofs/PPPos.lean` shows that, without that state, they are the functions of `Model/Preprocessor.lean`.
-/
import Verif.Model.Preprocessor

namespace Jom.PP.Pos

/-- An exception and the state when it is thrown. -/
abbrev Thrown := Err × St

/-- An exception thrown in the state `s`. -/
def inState {α : Type} (s : St) : Except Err α → Except Thrown α
  | .ok a => .ok a
  | .error e => .error (e, s)

/-- `skipUntilNextMatchingConditional`: preprocessor.cpp 422-467. -/
def skipF : Nat → Nat → St → Except Thrown St
  | 0, _, s => .error (.fuel, s)
  | f + 1, depth, s =>
    let r := basicReadLine s
    if r.1.content.isNone then .ok r.2
    else
      let r := completeDirective r.1 r.2
      match skippedTok r.2.table.macros (r.1.content.getD []) with
      | .error e => .error (.macro e, r.2)
      | .ok (.uninteresting, _) => skipF f depth r.2
      | .ok (.if, _) => skipF f (depth + 1) r.2
      | .ok (.else, expanded) =>
        if depth = 0 then .ok { r.2 with putBack := r.2.putBack ++ [expanded] } else skipF f depth r.2
      | .ok (.endif, _) => if depth = 0 then inState r.2 (exitConditional r.2) else skipF f (depth - 1) r.2

def skip (s : St) : Except Thrown St := skipF (size s + 1) 0 s

/-- `IF`, `IFDEF`, `IFNDEF`: preprocessor.cpp 262-279. -/
def onIf (w : World) (d : Dir) (value : Str) (s : St) : Except Thrown St :=
  match condition w s.table d value with
  | .error e => .error (e, s)
  | .ok b =>
    let s := { s with conds := (!b) :: s.conds }
    if b then .ok s else skip s

/-- `ELSE`: preprocessor.cpp 280-285. -/
def onElse (s : St) : Except Thrown St :=
  match s.conds with
  | [] => .error (.unexpectedElse, s)
  | follow :: _ => if follow then .ok s else skip s

/-- `ELSEIF`, `ELSEIFDEF`, `ELSEIFNDEF`: preprocessor.cpp 286-318. -/
def onElseIf (w : World) (d : Dir) (value : Str) (s : St) : Except Thrown St :=
  match s.conds with
  | [] => .error (.unexpectedElse, s)
  | false :: _ => skip s
  | true :: cs =>
    match condition w s.table d value with
    | .error e => .error (e, s)
    | .ok b => if b then .ok { s with conds := false :: cs } else skip s

/-- The dispatch of `parsePreprocessingDirective`: preprocessor.cpp 255-327. A file that cannot be included is reported before it is pushed
(67-95). -/
def onDirective (w : World) (directive value : Str) (s : St) : Except Thrown St :=
  match dirOf directive with
  | .cmdswitches => .ok s
  | .error => .error (.userError value, s)
  | .message => .ok { s with messages := s.messages ++ [value] }
  | .include =>
    match findIncludeFile w s value with
    | .error e => .error (e, s)
    | .ok path => inState s (openFile w path s)
  | .if => onIf w .if value s
  | .ifdef => onIf w .ifdef value s
  | .ifndef => onIf w .ifndef value s
  | .else => onElse s
  | .elseif => onElseIf w .elseif value s
  | .elseifdef => onElseIf w .elseifdef value s
  | .elseifndef => onElseIf w .elseifndef value s
  | .endif => inState s (exitConditional s)
  | .undef => .ok { s with table := undefineMacro s.table value }
  | .unknown => .error (.unknownDirective directive, s)

/-- `parsePreprocessingDirective`: preprocessor.cpp 248-330; `none` = false. -/
def parseDirective (w : World) (line : Str) (s : St) : Except Thrown (Option St) :=
  match directiveOf s.table.macros line with
  | .error e => .error (.macro e, s)
  | .ok none => .ok none
  | .ok (some (d, v)) =>
    match onDirective w d v s with
    | .ok s => .ok (some s)
    | .error e => .error e

/-- One round of the loop in `readLine` (preprocessor.cpp 96-116). -/
def round (w : World) (line : MLine) (s : St) : Except Thrown ((MLine × St) ⊕ (Option Str × St)) :=
  let r := basicReadLine s
  if startsWith (r.1.content.getD []) ['!'] then
    let r := complete r.1 r.2
    match parseDirective w (r.1.content.getD []) r.2 with
    | .error e => .error e
    | .ok none => .ok (.inl (line, r.2))
    | .ok (some s) => .ok (.inl (line, s))
  else
    let line := if isComplete line then r.1 else joinLines line r.1
    if !isComplete line then .ok (.inl (line, r.2))
    else
      match (if r.2.inline then .ok none else parseMacro r.2.table (line.content.getD [])) with
      | .error e => .error (.macro e, r.2)
      | .ok (some t) => .ok (.inl (line, { r.2 with table := t }))
      | .ok none =>
        match parseDirective w (line.content.getD []) r.2 with
        | .error e => .error e
        | .ok (some s) => .ok (.inl (line, s))
        | .ok none => .ok (.inr (line.content, r.2))

/-- `readLine`: preprocessor.cpp 97-123. -/
def readLineF (w : World) : Nat → MLine → St → Except Thrown (Option Str × St)
  | 0, _, s => .error (.fuel, s)
  | f + 1, line, s =>
    match round w line s with
    | .error e => .error e
    | .ok (.inl (line, s)) => readLineF w f line s
    | .ok (.inr (text, s)) =>
      if text.isNone ∧ s.conds ≠ [] then .error (.missingEndif, s) else .ok (text, s)

def readLine (w : World) (fuel : Nat) (s : St) : Except Thrown (Option Str × St) := readLineF w fuel {} s

end Jom.PP.Pos
