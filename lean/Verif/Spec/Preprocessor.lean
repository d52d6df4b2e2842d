import Verif.Model.Preprocessor
import Verif.Proofs.PPRead
import Verif.Props.Comments
import Verif.Props.Macro
import Verif.Spec.Line

/-! What conditionals and includes mean (C17, C19): a makefile is a tree of plain lines, conditionals and includes; a
conditional stands for the contents of its first branch whose condition holds, an include for the contents of the file.

What a single line says is described by `SaysWord` and `LineDefines`, without the functions of the model. From the model are taken the types, the
division into physical lines (`readLineU`, `linesOf`: C11, C88), the table of macros (`setMacroValue`, `undefineMacro`: C05-C10) and the functions
on strings of `QtStr.lean`. -/

namespace Jom.Spec
open Jom.PP

/-- The line starts with `!`. -/
def IsBang (x : MLine) : Prop := (x.content.getD []).head? = some '!'

/-- A directive and its continuation: a backslash leaves nothing behind, a caret stays. -/
def proceed (x y : MLine) : MLine :=
  { content := some (x.content.getD [] ++ (if x.cont = .caret then ['^'] else []) ++ y.content.getD []), cont := y.cont }

/-- A directive that may be spread over several lines, and its text. -/
inductive Joined : List MLine → Str → Prop
  | last (x : MLine) : x.cont = .none → Joined [x] (x.content.getD [])
  | more (x y : MLine) (ys : List MLine) (t : Str) : x.cont ≠ .none → Joined (proceed x y :: ys) t →
    Joined (x :: y :: ys) t

/-- The lines of a directive that starts with `!`, and its text. -/
def DirectiveLines (u : List MLine) (t : Str) : Prop := Joined u t ∧ ∃ x xs, u = x :: xs ∧ IsBang x

/-! ### Single directives -/

def Spaces (b : Str) : Prop := ∀ c ∈ b, isSpace c = true

/-- The names of the directives. -/
def keyword : Dir → Option Str
  | .cmdswitches => some c!"CMDSWITCHES" | .error => some c!"ERROR" | .message => some c!"MESSAGE"
  | .include => some c!"INCLUDE" | .if => some c!"IF" | .ifdef => some c!"IFDEF" | .ifndef => some c!"IFNDEF"
  | .else => some c!"ELSE" | .elseif => some c!"ELSEIF" | .elseifdef => some c!"ELSEIFDEF"
  | .elseifndef => some c!"ELSEIFNDEF" | .endif => some c!"ENDIF" | .undef => some c!"UNDEF" | .unknown => none

/-- The second word of a split alternative. -/
def elseWord : Dir → Option Str
  | .elseif => some c!"IF" | .elseifdef => some c!"IFDEF" | .elseifndef => some c!"IFNDEF" | _ => none

/-- Empty or not starting or ending with a blank. -/
def NoOuter (v : Str) : Prop := (∀ c r, v = c :: r → isSpace c = false) ∧ (∀ c r, v = r ++ [c] → isSpace c = false)

/-- `SaysWord line k v`: after macro expansion the line is a directive with the word `k` (in capital letters) and the argument `v`. Letter case
and blanks do not matter; `!ELSE IF` may be written in two words; `include` needs no exclamation mark. -/
inductive SaysWord : Str → Str → Str → Prop
  | word (b w b' v b'' : Str) : Spaces b → w ≠ [] → (∀ c ∈ w, isSpace c = false) → toUpper w ≠ c!"ELSE" → Spaces b' → Spaces b'' →
    NoOuter v → (v ≠ [] → b' ≠ []) → SaysWord ('!' :: (b ++ w ++ b' ++ v ++ b'')) (toUpper w) v
  | else (b w b' v b'' : Str) : Spaces b → toUpper w = c!"ELSE" → Spaces b' → Spaces b'' →
    NoOuter v → (v ≠ [] → b' ≠ []) →
    (∀ d w' c r, elseWord d = some (toUpper w') → isSpace c = true → v ≠ w' ++ c :: r) →
    SaysWord ('!' :: (b ++ w ++ b' ++ v ++ b'')) c!"ELSE" v
  | elseIf (b w b1 w' b2 v b3 : Str) (d : Dir) : Spaces b → toUpper w = c!"ELSE" → Spaces b1 → b1 ≠ [] →
    elseWord d = some (toUpper w') → Spaces b2 → b2 ≠ [] → NoOuter v → v ≠ [] → Spaces b3 →
    SaysWord ('!' :: (b ++ w ++ b1 ++ w' ++ b2 ++ v ++ b3)) (c!"ELSE" ++ toUpper w') v
  | oldStyle (w : Str) (c : Char) (v : Str) : toUpper w = c!"INCLUDE" → isSpaceOrTab c = true → v ≠ [] →
    SaysWord (w ++ c :: v) c!"INCLUDE" v

/-- `Says line d v`: after macro expansion the line is the directive `d` with the argument `v`. -/
def Says (line : Str) (d : Dir) (v : Str) : Prop := ∃ k, keyword d = some k ∧ SaysWord line k v

/-- `t` is `s` without the blanks at both ends. -/
def Trimmed (s t : Str) : Prop := ∃ b b', s = b ++ t ++ b' ∧ Spaces b ∧ Spaces b' ∧ NoOuter t

/-- `t` is `s` without comment. -/
inductive Uncommented : Str → Str → Prop
  | none (s : Str) : NoComment s → Uncommented s (unescHash s)
  | comment (a b t : Str) : StartsComment a → NoComment a → Trimmed (unescHash a) t → Uncommented (a ++ '#' :: b) t

/-- The text `s` with its macros expanded is `t` (C01-C04). -/
def Expanded (m : Macros) (s t : Str) : Prop := Expands (macroValue m) substEffect false s t

/-- The directive, as word and argument, that a line is. Macros in the argument are expanded once more, and a comment behind it does not count. -/
inductive Directive (m : Macros) (t : Str) : Option (Str × Str) → Prop
  | none (e : Str) : Expanded m t e → (∀ k v, ¬ SaysWord e k v) → Directive m t none
  | some (e k v0 v1 v : Str) : Expanded m t e → SaysWord e k v0 → Expanded m v0 v1 → Uncommented v1 v → Directive m t (some (k, v))

/-- Names of macros begin with an ASCII letter, a digit, `_` or `$`. -/
def BeginsName (c : Char) : Prop :=
  'a' ≤ c ∧ c ≤ 'z' ∨ 'A' ≤ c ∧ c ≤ 'Z' ∨ '0' ≤ c ∧ c ≤ '9' ∨ c = '_' ∨ c = '$'

/-- As many parentheses are opened as are closed. -/
def Level (a : Str) : Prop := a.count '(' = a.count ')'

/-- The line defines the macro `n` to be `v`: it has an equals sign, outside parentheses, without a colon or another equals sign outside
parentheses before it. -/
def LineDefines (line n v : Str) : Prop :=
  ∃ c a b u, line = c :: (a ++ '=' :: b) ∧ BeginsName c ∧ Level a ∧
    (∀ p x q, a = p ++ x :: q → x = '=' ∨ x = ':' → ¬ Level p) ∧
    Trimmed (c :: a) n ∧ Trimmed b u ∧ Uncommented u v

/-- The line is no definition. -/
def NoDefinition (line : Str) : Prop := ∀ n v, ¬ LineDefines line n v

/-- The role of a directive with the word `k` that is passed over: every word that begins with `IF` opens a conditional, every word
that begins with `ELSE` is an alternative. -/
inductive RoleOf : Str → Tok → Prop
  | endif : RoleOf c!"ENDIF" .endif
  | if (r : Str) : RoleOf (c!"IF" ++ r) .if
  | else (r : Str) : RoleOf (c!"ELSE" ++ r) .else
  | other (k : Str) : k ≠ c!"ENDIF" → (∀ r, k ≠ c!"IF" ++ r) → (∀ r, k ≠ c!"ELSE" ++ r) → RoleOf k .uninteresting

/-- The role of a line that is passed over. -/
def Role (m : Macros) (t : Str) (tok : Tok) : Prop :=
  Directive m t none ∧ tok = .uninteresting ∨ ∃ k v, Directive m t (some (k, v)) ∧ RoleOf k tok

/-- Does the condition of the directive hold? -/
inductive Holds (w : World) (t : MacroTable) : Dir → Str → Bool → Prop
  | defined (d : Dir) (v : Str) (m : MacroData) : d = .ifdef ∨ d = .elseifdef → (v, m) ∈ t.macros → Holds w t d v true
  | missing (d : Dir) (v : Str) : d = .ifdef ∨ d = .elseifdef → (∀ m, (v, m) ∉ t.macros) → Holds w t d v false
  | undefined (d : Dir) (v : Str) : d = .ifndef ∨ d = .elseifndef → (∀ m, (v, m) ∉ t.macros) → Holds w t d v true
  | present (d : Dir) (v : Str) (m : MacroData) : d = .ifndef ∨ d = .elseifndef → (v, m) ∈ t.macros → Holds w t d v false
  | nonzero (d : Dir) (v e : Str) (n : Int) : d = .if ∨ d = .elseif → Expanded t.macros v e → w.eval t e = some n →
    n ≠ 0 → Holds w t d v true
  | zero (d : Dir) (v e : Str) : d = .if ∨ d = .elseif → Expanded t.macros v e → w.eval t e = some 0 →
    Holds w t d v false

/-! ### Looking for included files -/

/-- A name without its quotes; a lone quote counts as an empty name. -/
inductive Unquoted : Str → Str → Prop
  | quoted (p : Str) : Unquoted ('"' :: (p ++ ['"'])) p
  | lone : Unquoted ['"'] []
  | plain (p : Str) : p ≠ ['"'] → (∀ q, p ≠ '"' :: (q ++ ['"'])) → Unquoted p p

/-- File name and whether it is written in angle brackets. -/
inductive Named : Str → Str → Bool → Prop
  | angle (v p : Str) : Unquoted v p → Named ('<' :: (v ++ ['>'])) p true
  | plain (v p : Str) : (∀ q, v ≠ '<' :: (q ++ ['>'])) → Unquoted v p → Named v p false

/-- The entries of a list separated by semicolons; empty ones do not count. -/
inductive Entries : Str → List Str → Prop
  | nil : Entries [] []
  | skip (s : Str) (l : List Str) : Entries s l → Entries (';' :: s) l
  | last (e : Str) : e ≠ [] → ';' ∉ e → Entries e [e]
  | more (e s : Str) (l : List Str) : e ≠ [] → ';' ∉ e → Entries s l → Entries (e ++ ';' :: s) (e :: l)

/-- Where a file is looked for: as it is named; in the directories of the files being read, innermost first; if the name is in
angle brackets, in the directories listed in the macro `INCLUDE`. -/
def places (stk : List TextFile) (p : Str) (angle : Bool) (dirs : List Str) : List Str :=
  p :: (stk.map (fun f => f.dir ++ '/' :: p) ++ if angle then dirs.map (fun d => d ++ '/' :: p) else [])

/-- `!INCLUDE v` refers to the file `p`, found at the first place where there is a file. -/
def Included (w : World) (stk : List TextFile) (t : MacroTable) (v p : Str) : Prop :=
  ∃ name angle dirs before q after, Named v name angle ∧
    Entries ((macroValue t.macros c!"INCLUDE").map fun c => if c = '\t' then ' ' else c) dirs ∧
    places stk name angle dirs = before ++ q :: after ∧ (∀ x ∈ before, w.find x = none) ∧ w.find q = some p

/-! ### The structure of a makefile -/

inductive Kind where
  | block | alts

/-- A line of the file, or a line of the file that is taken as it is (content of an inline file, with its newline). -/
abbrev TLine := MLine ⊕ Str

/-- Ordinary lines. -/
def ordinary (u : List MLine) : List TLine := u.map .inl

/-- `t` is the first line of the text `t ++ r`. -/
def FirstLine (t r : Str) : Prop := ∃ b, '\n' ∉ b ∧ (t = b ++ ['\n'] ∨ t = b ∧ b ≠ [] ∧ r = [])

/-- The text consists of these lines; where lines are not taken as they are, comment lines do not count. -/
def Consists : List TLine → Str → Prop
  | [], r => linesOf r = []
  | .inl l :: ls, r => ∃ r', readLineU r = (l, r') ∧ l.content.isNone = false ∧ Consists ls r'
  | .inr t :: ls, r => ∃ r', r = t ++ r' ∧ FirstLine t r' ∧ Consists ls r'

/-- The structure of a makefile: `Tree .block` is a sequence of lines, includes and conditionals; `Tree .alts` is the
part of a conditional behind its first branch, up to the `!ENDIF`.  `u` are the lines of a directive or a single
line of other text with the inline files that follow it. -/
inductive Tree : Kind → Type
  | nil : Tree .block
  | leaf (u : List TLine) (rest : Tree .block) : Tree .block
  | incl (u : List MLine) (rest : Tree .block) : Tree .block
  | cond (u : List MLine) (body : Tree .block) (alts : Tree .alts) (rest : Tree .block) : Tree .block
  | endif (u : List MLine) : Tree .alts
  | alt (u : List MLine) (body : Tree .block) (alts : Tree .alts) : Tree .alts

/-- All lines, in order. -/
def Tree.lines : {k : Kind} → Tree k → List TLine
  | _, .nil => []
  | _, .leaf u r => u ++ r.lines
  | _, .incl u r => ordinary u ++ r.lines
  | _, .cond u b a r => ordinary u ++ (b.lines ++ (a.lines ++ r.lines))
  | _, .endif u => ordinary u
  | _, .alt u b a => ordinary u ++ (b.lines ++ a.lines)

/-- What has been built up: the unfinished logical line, the macros, the printed messages. -/
structure Cfg where
  part : MLine := {}
  table : MacroTable := {}
  messages : List Str := []

/-- What stands between a line and its continuation. -/
def glue : Cont → Str
  | .backslash => [' '] | .caret => ['\n'] | .none => []

/-- A line and its continuation: blanks at the beginning of the continuation do not count. -/
def follow (p x : MLine) : MLine :=
  { content := some (p.content.getD [] ++ glue p.cont ++ trimLeft (x.content.getD [])), cont := x.cont }

/-- The logical line after a further line. -/
def extend (part x : MLine) : MLine := if part.cont = .none then x else follow part x

/-- The directives that are neither conditionals nor includes nor errors. -/
inductive Simple : Dir → Str → Cfg → Cfg → Prop
  | cmdswitches (v : Str) (c : Cfg) : Simple .cmdswitches v c c
  | message (v : Str) (c : Cfg) : Simple .message v c { c with messages := c.messages ++ [v] }
  | undef (v : Str) (c : Cfg) : Simple .undef v c { c with table := undefineMacro c.table v }

/-- Effect of a line that is no conditional and no include, together with the lines of inline files that follow: `o` is handed to the
parser. -/
inductive Leaf : Cfg → List TLine → List Makefile.Line → Cfg → Prop
  | directive (c c' : Cfg) (u : List MLine) (t k v : Str) (d : Dir) : DirectiveLines u t →
    Directive c.table.macros t (some (k, v)) → keyword d = some k → Simple d v c c' → Leaf c (ordinary u) [] c'
  | lone (c : Cfg) (u : List MLine) (t : Str) : DirectiveLines u t → Directive c.table.macros t none →
    Leaf c (ordinary u) [] c
  | continued (c : Cfg) (x : MLine) : ¬ IsBang x → (extend c.part x).cont ≠ .none →
    Leaf c [.inl x] [] { c with part := extend c.part x }
  | definition (c : Cfg) (x : MLine) (n v : Str) (t : MacroTable) : ¬ IsBang x → (extend c.part x).cont = .none →
    LineDefines ((extend c.part x).content.getD []) n v → setMacroValue c.table n v = .ok t →
    Leaf c [.inl x] [] { c with part := {}, table := t }
  | oldStyle (c c' : Cfg) (x : MLine) (k v : Str) (d : Dir) : ¬ IsBang x → (extend c.part x).cont = .none →
    NoDefinition ((extend c.part x).content.getD []) →
    Directive c.table.macros ((extend c.part x).content.getD []) (some (k, v)) → keyword d = some k →
    Simple d v { c with part := {} } c' → Leaf c [.inl x] [] c'
  | text (c : Cfg) (x : MLine) (ts : List Str) : ¬ IsBang x → (extend c.part x).cont = .none →
    NoDefinition ((extend c.part x).content.getD []) →
    Directive c.table.macros ((extend c.part x).content.getD []) none →
    (∀ t ∈ ts, t.head? ≠ some '!' ∧ Directive c.table.macros t none) →
    Leaf c (.inl x :: ts.map .inr)
      ({ text := (extend c.part x).content.getD [], macros := c.table.macros } ::
        ts.map fun t => { inl := true, text := t, macros := c.table.macros }) { c with part := {} }

/-- The lines are this directive with this argument. -/
def Reads (m : Macros) (u : List MLine) (d : Dir) (v : Str) : Prop :=
  ∃ t k, DirectiveLines u t ∧ Directive m t (some (k, v)) ∧ keyword d = some k

/-- Expanding the macros in the directive once more does not change its meaning. -/
def Stable (m : Macros) (u : List MLine) : Prop :=
  ∀ t e r, DirectiveLines u t → Expanded m t e → Directive m t r → Directive m e r

def isIf (d : Dir) : Prop := d = .if ∨ d = .ifdef ∨ d = .ifndef

def isElseIf (d : Dir) : Prop := d = .elseif ∨ d = .elseifdef ∨ d = .elseifndef

/-- How lines look that are skipped: a single line or a directive with this role. -/
def Looks (m : Macros) (u : List MLine) (tok : Tok) : Prop :=
  (∃ x, u = [x] ∧ ¬ IsBang x ∧ Role m (x.content.getD []) tok) ∨ (∃ t, DirectiveLines u t ∧ Role m t tok)

/-- A part of the makefile that can be skipped: its lines play their roles in the tree. -/
def Skips (m : Macros) : {k : Kind} → Tree k → Prop
  | _, .nil => True
  | _, .leaf u r => (∃ x, u = ordinary x ∧ Looks m x .uninteresting) ∧ Skips m r
  | _, .incl u r => Looks m u .uninteresting ∧ Skips m r
  | _, .cond u b a r => Looks m u .if ∧ Skips m b ∧ Skips m a ∧ Skips m r
  | _, .endif u => Looks m u .endif
  | _, .alt u b a => Looks m u .else ∧ Skips m b ∧ Skips m a

/-- The remaining alternatives of a conditional whose branch has been taken. -/
def Passed (m : Macros) : {k : Kind} → Tree k → Prop
  | _, .endif u => ∃ v, Reads m u .endif v
  | _, .alt u b a => (∃ d v, Reads m u d v ∧ (d = .else ∨ isElseIf d)) ∧ Stable m u ∧ Skips m b ∧ Passed m a
  | .block, _ => False

/-- `Exec w stk c t o c'`: starting with `c` in the files `stk` (innermost first), the part `t` of the makefile hands
the lines `o` to the parser and leads to `c'`.  For `t : Tree .alts` no branch of the conditional has been taken
so far. -/
inductive Exec (w : World) : {k : Kind} → List TextFile → Cfg → Tree k → List Makefile.Line → Cfg → Prop
  | nil (stk : List TextFile) (c : Cfg) : Exec w stk c .nil [] c
  | leaf (stk : List TextFile) (c c1 c2 : Cfg) (u : List TLine) (r : Tree .block) (o o' : List Makefile.Line) :
    Leaf c u o c1 → Exec w stk c1 r o' c2 → Exec w stk c (.leaf u r) (o ++ o') c2
  | incl (stk : List TextFile) (c c1 c2 : Cfg) (u : List MLine) (r b : Tree .block) (o o' : List Makefile.Line)
      (v path abs text : Str) :
    Reads c.table.macros u .include v → Included w stk c.table v path →
    w.find path = some abs → abs ∉ stk.map (·.name) → w.content abs = some text → Consists b.lines text →
    Exec w ({ name := abs, dir := w.dir abs, rest := [] } :: stk) c b o c1 → Exec w stk c1 r o' c2 →
    Exec w stk c (.incl u r) (o ++ o') c2
  | condTrue (stk : List TextFile) (c c1 c2 : Cfg) (u : List MLine) (b r : Tree .block) (a : Tree .alts)
      (o o' : List Makefile.Line) (d : Dir) (v : Str) :
    Reads c.table.macros u d v → isIf d → Holds w c.table d v true → Exec w stk c b o c1 →
    Passed c1.table.macros a → Exec w stk c1 r o' c2 → Exec w stk c (.cond u b a r) (o ++ o') c2
  | condFalse (stk : List TextFile) (c c1 c2 : Cfg) (u : List MLine) (b r : Tree .block) (a : Tree .alts)
      (o o' : List Makefile.Line) (d : Dir) (v : Str) :
    Reads c.table.macros u d v → isIf d → Holds w c.table d v false → Skips c.table.macros b →
    Exec w stk c a o c1 → Exec w stk c1 r o' c2 → Exec w stk c (.cond u b a r) (o ++ o') c2
  | endif (stk : List TextFile) (c : Cfg) (u : List MLine) (v : Str) :
    Reads c.table.macros u .endif v → Exec w stk c (.endif u) [] c
  | else (stk : List TextFile) (c c1 : Cfg) (u u' : List MLine) (b : Tree .block) (o : List Makefile.Line) (v v' : Str) :
    Reads c.table.macros u .else v → Stable c.table.macros u → Exec w stk c b o c1 →
    Reads c1.table.macros u' .endif v' → Exec w stk c (.alt u b (.endif u')) o c1
  | elseTrue (stk : List TextFile) (c c1 : Cfg) (u : List MLine) (b : Tree .block) (a : Tree .alts) (o : List Makefile.Line)
      (d : Dir) (v : Str) :
    Reads c.table.macros u d v → isElseIf d → Stable c.table.macros u → Holds w c.table d v true →
    Exec w stk c b o c1 → Passed c1.table.macros a → Exec w stk c (.alt u b a) o c1
  | elseFalse (stk : List TextFile) (c c1 : Cfg) (u : List MLine) (b : Tree .block) (a : Tree .alts) (o : List Makefile.Line)
      (d : Dir) (v : Str) :
    Reads c.table.macros u d v → isElseIf d → Stable c.table.macros u → Holds w c.table d v false →
    Skips c.table.macros b → Exec w stk c a o c1 → Exec w stk c (.alt u b a) o c1

/-! ### Balanced makefiles (C18) -/

/-- Text of the directive that starts with line `x`, followed by `ls`, and the remaining lines.  A directive still
open at the end of the input ends there. -/
def joinUnit : MLine → List MLine → Str × List MLine
  | x, [] => (x.content.getD [], [])
  | x, y :: ls => if x.cont = .none then (x.content.getD [], y :: ls) else joinUnit (proceed x y) ls

/-- Effect of a processed line on macros, depth of conditionals and following lines. `r` is the directive. -/
inductive Act (w : World) : MacroTable → MacroTable → Nat → Nat → List MLine → Option (Str × Str) → Prop
  | none (T : MacroTable) (d : Nat) : Act w T T d d [] none
  | if (T : MacroTable) (d : Nat) (k v : Str) (x : Dir) : keyword x = some k → isIf x → Act w T T d (d + 1) [] (some (k, v))
  | else (T : MacroTable) (d : Nat) (k v : Str) (x : Dir) : keyword x = some k → x = .else ∨ isElseIf x →
    Act w T T (d + 1) (d + 1) [] (some (k, v))
  | endif (T : MacroTable) (d : Nat) (v : Str) : Act w T T (d + 1) d [] (some (c!"ENDIF", v))
  | include (T : MacroTable) (d : Nat) (v abs text : Str) : w.content abs = some text →
    Act w T T d d (linesOf text) (some (c!"INCLUDE", v))
  | undef (T : MacroTable) (d : Nat) (v : Str) : Act w T (undefineMacro T v) d d [] (some (c!"UNDEF", v))
  | message (T : MacroTable) (d : Nat) (v : Str) : Act w T T d d [] (some (c!"MESSAGE", v))
  | cmdswitches (T : MacroTable) (d : Nat) (v : Str) : Act w T T d d [] (some (c!"CMDSWITCHES", v))

/-- Effect of a skipped line on the depth. -/
inductive SkipAct : Nat → Nat → Tok → Prop
  | uninteresting (d : Nat) : SkipAct d d .uninteresting
  | if (d : Nat) : SkipAct d (d + 1) .if
  | else (d : Nat) : SkipAct d d .else
  | endif (d : Nat) : SkipAct (d + 1) d .endif

/-- A logical line is complete: its text and the remaining lines. -/
inductive Logical : MLine → List MLine → Str → List MLine → Prop
  | next (p x : MLine) (ls : List MLine) : ¬ IsBang x → (extend p x).cont = .none →
    Logical p (x :: ls) ((extend p x).content.getD []) ls
  | last (p : MLine) : p.cont ≠ .none → Logical p [] ((follow p {}).content.getD []) []

/-- `Bal w T d p ls`: with the macros `T`, inside `d` conditionals and behind the unfinished line `p`, the lines `ls`
close all conditionals, and every `!ELSE` and `!ENDIF` belongs to one.  Included lines count where they are included.
Lines inside a conditional may also be passed over unprocessed; they count as well. -/
inductive Bal (w : World) : MacroTable → Nat → MLine → List MLine → Prop
  | done (T : MacroTable) (p : MLine) : p.cont = .none → Bal w T 0 p []
  | directive (T T' : MacroTable) (d d' : Nat) (p x : MLine) (ls rest ins : List MLine) (t : Str) (r : Option (Str × Str)) :
    IsBang x → joinUnit x ls = (t, rest) → Directive T.macros t r → Act w T T' d d' ins r →
    Bal w T' d' p (ins ++ rest) → Bal w T d p (x :: ls)
  | continued (T : MacroTable) (d : Nat) (p x : MLine) (ls : List MLine) : ¬ IsBang x → (extend p x).cont ≠ .none →
    Bal w T d (extend p x) ls → Bal w T d p (x :: ls)
  | definition (T T' : MacroTable) (d : Nat) (p : MLine) (ls rest : List MLine) (t n v : Str) : Logical p ls t rest →
    LineDefines t n v → setMacroValue T n v = .ok T' → Bal w T' d {} rest → Bal w T d p ls
  | line (T T' : MacroTable) (d d' : Nat) (p : MLine) (ls rest ins : List MLine) (t : Str) (r : Option (Str × Str)) :
    Logical p ls t rest → NoDefinition t → Directive T.macros t r → Act w T T' d d' ins r →
    Bal w T' d' {} (ins ++ rest) → Bal w T d p ls
  | skipped (T : MacroTable) (d d' : Nat) (p x : MLine) (ls rest : List MLine) (t : Str) (tok : Tok) : 0 < d →
    (IsBang x → joinUnit x ls = (t, rest)) → (¬ IsBang x → t = x.content.getD [] ∧ rest = ls) →
    Role T.macros t tok → SkipAct d d' tok → Bal w T d' p rest → Bal w T d p (x :: ls)
  /-- The exception (`C18_refuted`): when the input ends inside a part that is passed over, and a line continued before
  that part is still unfinished, further open conditionals are forgotten. -/
  | forgotten (T : MacroTable) (d k : Nat) (p : MLine) : p.cont ≠ .none → 0 < d → Bal w T d p [] → Bal w T (d + k) p []

/-- Role of a line that is free of macros. -/
def PlainRole (line : Str) (tok : Tok) : Prop :=
  (∀ k v, ¬ SaysWord line k v) ∧ tok = .uninteresting ∨ ∃ k v, SaysWord line k v ∧ RoleOf k tok

/-- The roles of a list of lines that are free of macros. -/
inductive Roles : List Str → List Tok → Prop
  | nil : Roles [] []
  | cons {line : Str} {tok : Tok} {lines : List Str} {toks : List Tok} :
    PlainRole line tok → Roles lines toks → Roles (line :: lines) (tok :: toks)

/-- The roles nest: every `if` has its `endif`, no `else` or `endif` outside. -/
def Nested : Nat → List Tok → Prop
  | d, [] => d = 0
  | d, .if :: l => Nested (d + 1) l
  | d, .else :: l => 0 < d ∧ Nested d l
  | d, .endif :: l => ∃ d', d = d' + 1 ∧ Nested d' l
  | d, .uninteresting :: l => Nested d l

/-! ### C19 -/

/-- The text before the first macro shows that a line with this beginning is no old-style include: it starts with a
blank, or with something else than `include`, or no blank follows. -/
def NotInclude (t : Str) : Prop :=
  let q := t.takeWhile (· ≠ '$')
  q.head? ≠ some '!' ∧ ((q.head?.map isSpaceOrTab).getD false = true ∨ ¬ (toLower (q.take 7) <+: c!"include") ∨
    (q[7]?.map fun c => !isSpaceOrTab c).getD false = true)

instance (t : Str) : Decidable (NotInclude t) := by unfold NotInclude; infer_instance

instance (x : MLine) : Decidable (IsBang x) := inferInstanceAs (Decidable (_ = _))

/-- Where a file is being read: at the start of a line, inside a continued directive, inside a continued line that
may turn out to be an include. -/
inductive Place where
  | start | directive | include

/-- The end of the file does not cut off a directive or what may be an old-style include; no directive interrupts
what may be an old-style include. -/
def Closed : Place → List MLine → Prop
  | .start, [] => True
  | .start, x :: ls =>
    if IsBang x then (if x.cont = .none then Closed .start ls else Closed .directive ls)
    else if x.cont = .none ∨ NotInclude (x.content.getD []) then Closed .start ls
    else Closed .include ls
  | .directive, [] => False
  | .directive, x :: ls => if x.cont = .none then Closed .start ls else Closed .directive ls
  | .include, [] => False
  | .include, x :: ls => ¬ IsBang x ∧ (if x.cont = .none then Closed .start ls else Closed .include ls)

instance closedDec : (p : Place) → (ls : List MLine) → Decidable (Closed p ls)
  | .start, [] => .isTrue trivial
  | .directive, [] => .isFalse id
  | .include, [] => .isFalse id
  | .start, x :: ls => by
    have := closedDec .start ls
    have := closedDec .directive ls
    have := closedDec .include ls
    unfold Closed; infer_instance
  | .directive, x :: ls => by
    have := closedDec .start ls
    have := closedDec .directive ls
    unfold Closed; infer_instance
  | .include, x :: ls => by
    have := closedDec .start ls
    have := closedDec .include ls
    unfold Closed; infer_instance

end Jom.Spec
