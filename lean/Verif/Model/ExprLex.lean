/-
Model of the scanner for preprocessor expressions (src/jomlib/ppexpr.l, compiled by flex to ppexpr-lex.inc) and of
`Preprocessor::evaluateExpression`.

* Flex takes the longest match and among equally long ones the first rule. Each function below is one start condition.
* `[:blank:]` outside of a bracket expression is the set of the characters `:`, `a`, `b`, `k`, `l`, `n`.
* Text that no rule matches is dropped character by character (`ECHO` is defined to be empty).
* The text is a list of characters; `toLocal8Bit`/`fromLatin1` and embedded zeros are not modelled.
* Files and commands are parameters that answer the same question always in the same way.
-/
import Verif.Model.Expr
import Verif.Model.MacroTable

namespace Jom.Expr

/-- Start conditions: ppexpr.l 49-52. -/
inductive Start where
  | initial | string | defined | exist | shell
deriving DecidableEq, Repr

/-- What expressions can ask for. -/
structure Oracle where
  isDefined : Str → Bool
  fileExists : Str → Bool
  system : Str → Int

/-- State of the scanner. The start condition and `yylval` survive the end of the text. -/
structure LexSt where
  start : Start := .initial
  yylval : Value := .num 0
  text : Str
deriving DecidableEq, Repr

/-- Outcome of one match. -/
inductive Scan where
  | again (s : LexSt)
  | token (id : Nat) (s : LexSt)
  | fault
deriving DecidableEq, Repr

/-- `[:blank:]`. -/
def isBlankClass (c : Char) : Bool := c == ':' || c == 'b' || c == 'l' || c == 'a' || c == 'n' || c == 'k'

/-- Text before the last `)` of the line and text after it. -/
def lastParen : Str → Option (Str × Str)
  | [] => none
  | c :: s =>
    if c = '\n' then none
    else match lastParen s with
      | some (a, b) => some (c :: a, b)
      | none => if c = ')' then some ([], s) else none

/-- The argument of `DEFINED` and `EXIST`: ppexpr.l 102-110, 121-129, 136-144; `arg` is the text between the parentheses. -/
def argument (arg : Str) : Str :=
  let name := trimmed arg
  let name := if name.head? = some '"' then name.drop 1 else name
  if name.getLast? = some '"' then name.dropLast else name

/-- `atoi` for digits. -/
def atoi (digits : Str) : Nat := digits.foldl (fun n c => 10 * n + (c.toNat - 48)) 0

def boolNum (b : Bool) : Value := .num (if b then 1 else 0)

/-- Ignoring case. -/
def startsWithI (s pat : Str) : Bool := (toUpper (s.take pat.length)) == pat

/-- Rules 3-24 and 41 (ppexpr.l 62-85): operators, with the length of the match. -/
def operator : Str → Option (Nat × Nat)
  | '\r' :: '\n' :: _ => some (24, 2)
  | '\n' :: _ => some (24, 1)
  | '&' :: '&' :: _ => some (3, 2)
  | '|' :: '|' :: _ => some (4, 2)
  | '&' :: _ => some (5, 1)
  | '|' :: _ => some (6, 1)
  | '!' :: '=' :: _ => some (8, 2)
  | '=' :: '=' :: _ => some (7, 2)
  | '<' :: '=' :: _ => some (11, 2)
  | '>' :: '=' :: _ => some (12, 2)
  | '<' :: '<' :: _ => some (13, 2)
  | '>' :: '>' :: _ => some (14, 2)
  | '<' :: _ => some (9, 1)
  | '>' :: _ => some (10, 1)
  | '+' :: _ => some (15, 1)
  | '-' :: _ => some (16, 1)
  | '*' :: _ => some (17, 1)
  | '/' :: _ => some (18, 1)
  | '%' :: _ => some (19, 1)
  | '~' :: _ => some (20, 1)
  | '!' :: _ => some (21, 1)
  | '(' :: _ => some (22, 1)
  | ')' :: _ => some (23, 1)
  | _ => none

/-- `EXIST(...)` without anything but `[:blank:]` before the parenthesis: ppexpr.l 135. -/
def existCall (s : Str) : Option (Str × Str) :=
  if s.take 5 = c!"EXIST" then
    match (s.drop 5).dropWhile isBlankClass with
    | '(' :: r => lastParen r
    | _ => none
  else none

/-- Start condition `INITIAL`: ppexpr.l 57-96, 135-147. -/
def scanInitial (w : Oracle) (s : LexSt) : Scan :=
  match s.text with
  | [] => .fault
  | c :: r =>
    if c = ' ' ∨ c = '\t' then .again { s with text := (c :: r).dropWhile fun c => c == ' ' || c == '\t' }
    else if isDigit c then
      let n := atoi ((c :: r).takeWhile isDigit)
      if n ≤ 2147483647 then .token 1 { s with yylval := .num n, text := (c :: r).dropWhile isDigit } else .fault
    else match operator (c :: r) with
      | some (id, n) => .token id { s with text := (c :: r).drop n }
      | none =>
        if c = '"' then .again { s with start := .string, yylval := .str [], text := r }
        else if c = '[' then .again { s with start := .shell, yylval := .str [], text := r }
        else if startsWithI (c :: r) c!"DEFINED" then .again { s with start := .defined, text := (c :: r).drop 7 }
        else match existCall (c :: r) with
          | some (arg, rest) => .token 1 { s with yylval := boolNum (w.fileExists (argument arg)), text := rest }
          | none =>
            if startsWithI (c :: r) c!"EXIST" then .again { s with start := .exist, text := (c :: r).drop 5 }
            else .again { s with text := r }

/-- Start condition `STATE_DEFINED`: ppexpr.l 98-114. -/
def scanDefined (w : Oracle) (s : LexSt) : Scan :=
  match s.text with
  | [] => .fault
  | c :: r =>
    if isBlankClass c then .again { s with text := (c :: r).dropWhile isBlankClass }
    else if c = '(' then
      match r.takeWhile (· ≠ ')'), r.dropWhile (· ≠ ')') with
      | a :: arg, ')' :: rest =>
        .token 1 { s with start := .initial, yylval := boolNum (w.isDefined (argument (a :: arg))), text := rest }
      | _, _ => .again { s with text := r }
    else .again { s with text := r }

/-- Start condition `STATE_EXIST`: ppexpr.l 116-133. -/
def scanExist (w : Oracle) (s : LexSt) : Scan :=
  match s.text with
  | [] => .fault
  | c :: r =>
    if isBlankClass c then .again { s with text := (c :: r).dropWhile isBlankClass }
    else if c = '(' then
      match lastParen r with
      | some (a :: arg, rest) =>
        .token 1 { s with start := .initial, yylval := boolNum (w.fileExists (argument (a :: arg))), text := rest }
      | _ => .again { s with text := r }
    else .again { s with text := r }

/-- Start condition `STATE_STRING`: ppexpr.l 149-156. -/
def scanString (s : LexSt) : Scan :=
  match s.yylval, s.text with
  | .num _, _ => .fault
  | _, [] => .fault
  | .str v, c :: r =>
    if c = '"' then
      match r with
      | '"' :: r' => .again { s with yylval := .str (v ++ ['"']), text := r' }
      | _ => .token 2 { s with start := .initial, text := r }
    else if c = '\n' then .again { s with text := r }
    else .again { s with yylval := .str (v ++ (c :: r).takeWhile fun c => c != '"' && c != '\n'),
                         text := (c :: r).dropWhile fun c => c != '"' && c != '\n' }

/-- `[^\n\x5b\x5d\x5e]`. -/
def isCommandChar (c : Char) : Bool := c != '\n' && c != '[' && c != ']' && c != '^'

/-- Start condition `STATE_SHELLCOMMAND`: ppexpr.l 158-169. -/
def scanShell (w : Oracle) (s : LexSt) : Scan :=
  match s.yylval, s.text with
  | .num _, _ => .fault
  | _, [] => .fault
  | .str v, c :: r =>
    if c = ']' then .token 1 { s with start := .initial, yylval := .num (w.system v), text := r }
    else if isCommandChar c then
      .again { s with yylval := .str (v ++ (c :: r).takeWhile isCommandChar), text := (c :: r).dropWhile isCommandChar }
    else match c, r with
      | '^', '[' :: r' => .again { s with yylval := .str (v ++ ['[']), text := r' }
      | '^', ']' :: r' => .again { s with yylval := .str (v ++ [']']), text := r' }
      | _, _ => .again { s with text := r }

def scan (w : Oracle) (s : LexSt) : Scan :=
  match s.start with
  | .initial => scanInitial w s
  | .defined => scanDefined w s
  | .exist => scanExist w s
  | .string => scanString s
  | .shell => scanShell w s

/-- The calls of `yylex` until the end of the text: each with the state after it, and the state after the last call, which
returns 0. The end of the text does not change the start condition (ppexpr-lex.inc 1058-1063). -/
def lexF (w : Oracle) : Nat → LexSt → List (Item × LexSt) × LexSt
  | 0, s => ([], s)
  | f + 1, s =>
    if s.text = [] then ([], s)
    else match scan w s with
      | .again s => lexF w f s
      | .token id s =>
        let (l, e) := lexF w f s
        ((.tok id s.yylval, s) :: l, e)
      | .fault => ([(.fault, s)], s)

def lexAll (w : Oracle) (s : LexSt) : List (Item × LexSt) × LexSt := lexF w (s.text.length + 1) s

/-- The state in which the loop of `parse` ends. -/
def runSt : Nat → St → St
  | 0, s => s
  | f + 1, s =>
    match step s with
    | .ok (.inl s) => runSt f s
    | _ => match lex s with
      | .ok s => s
      | .error _ => s

/-- `PPExprParser::parse` on a text, with the start condition and `yylval` before and after. -/
def parseText (w : Oracle) (start : Start) (yylval : Value) (text : Str) : Except Err Int × Start × Value :=
  let (items, last) := lexAll w { start, yylval, text }
  let input := items.map Prod.fst
  let s := runSt (40 * input.length + 100) { stack := [(0, .num 0)], yylval := .num 0, input := input }
  let after : LexSt :=
    if s.yytoken = 0 then last
    else match items.take (items.length - s.input.length) with
      | [] => { start, yylval, text }
      | a :: l => ((a :: l).getLast (by simp)).2
  (parse input, after.start, after.yylval)

end Jom.Expr
