/-
Specification of the makefile grammar: how directives, inference rules, description blocks, commands and inline files are written.
There is no notion of a current line: the relations say which lines make up an item.
-/
import Verif.Props.Names
import Verif.Props.Macro
import Verif.Model.Blocks
import Verif.Spec.Line

namespace Jom.Spec.Makefile

open Inference (Command InlineFile)

/-- The expansion of a text. -/
def Means (m : Macros) (dep : Bool) (s t : Str) : Prop := Expands (macroValue m) substEffect dep s t

/-- Nothing but blanks. -/
def Blank (s : Str) : Prop := ∀ c ∈ s, isSpace c = true

/-- Indented lines. -/
def Indented (s : Str) : Prop := ∃ c r, s = c :: r ∧ IsBlank c

/-- Words separated by blanks. -/
inductive Words : List Str → Str → Prop
  | nil {b} : Blank b → Words [] b
  | cons {b w ws rest} : Blank b → w ≠ [] → (∀ c ∈ w, isSpace c = false) → Words ws rest →
      (rest = [] ∨ ∃ c r, rest = c :: r ∧ isSpace c = true) → Words (w :: ws) (b ++ w ++ rest)

/-! ### Dot directives -/

inductive Directive where
  | ignore | precious | silent | suffixes
deriving DecidableEq, Repr

def Directive.name : Directive → Str
  | .ignore => c!".IGNORE"
  | .precious => c!".PRECIOUS"
  | .silent => c!".SILENT"
  | .suffixes => c!".SUFFIXES"

/-- The line `s` is the directive `d` with the value `v`. -/
def DotText (d : Directive) (v s : Str) : Prop := ∃ b, Blank b ∧ s = d.name ++ b ++ ':' :: v

/-- Modes of the parser changed by directives. -/
structure Flags where
  ignore : Bool := false
  silent : Bool := false

def Flags.after (fl : Flags) : Directive → Flags
  | .ignore => { fl with ignore := true }
  | .silent => { fl with silent := true }
  | _ => fl

/-! ### Heads of inference rules -/

/-- `{fromPath}.fromExt{toPath}.toExt:`; the paths are optional, two colons mean batch mode. -/
structure RuleHead where
  fromPath : Option Str := none
  fromExt : Str
  toPath : Option Str := none
  toExt : Str
  batch : Bool := false

def braces : Option Str → Str
  | none => []
  | some p => '{' :: (p ++ ['}'])

def RuleHead.render (h : RuleHead) : Str :=
  braces h.fromPath ++ '.' :: (h.fromExt ++ (braces h.toPath ++ '.' :: (h.toExt ++ if h.batch then [':', ':'] else [':'])))

/-- Extensions: letters, digits and underscores. -/
def Ext (e : Str) : Prop := e ≠ [] ∧ ∀ c ∈ e, isLetterOrNumber c = true ∨ c = '_'

/-- Some rule head is written like this. -/
def IsRule (s : Str) : Prop := ∃ h : RuleHead, Ext h.fromExt ∧ Ext h.toExt ∧ h.render = s

/-- The head meant by the text `s`. If the braces can be matched in several ways the first path is the longest. -/
structure RuleHead.Chosen (h : RuleHead) (s : Str) : Prop where
  from_ext : Ext h.fromExt
  to_ext : Ext h.toExt
  text : h.render = s
  longest : ∀ h' : RuleHead, Ext h'.fromExt → Ext h'.toExt → h'.render = s → (braces h'.fromPath).length ≤ (braces h.fromPath).length

/-- Paths without braces. -/
def RuleHead.Clear (h : RuleHead) : Prop :=
  Ext h.fromExt ∧ Ext h.toExt ∧ ∀ p, h.fromPath = some p ∨ h.toPath = some p → '{' ∉ p ∧ '}' ∉ p

/-- The directory meant by a path: no path is the current directory, one separator at the end is dropped. -/
def directory : Option Str → Str
  | none => ['.']
  | some [] => ['.']
  | some (c :: p) => if (c :: p).getLast? = some '/' ∨ (c :: p).getLast? = some '\\' then (c :: p).dropLast else c :: p

/-! ### Heads of description blocks -/

/-- `Uncommented text line cmd`: without comment and command the line `text` is `line`; `cmd` is the command behind `;`. -/
inductive Uncommented : Str → Str → Option Str → Prop
  | neither {s} : NoBlockComment s → NoSeparator s → Uncommented s s none
  | comment {a b} : BlockComment a → NoBlockComment a → NoSeparator a → Uncommented (a ++ '#' :: b) (unescHash a) none
  | command {a b} : ¬ InQuotes a → NoSeparator a → NoBlockComment a → Uncommented (a ++ ';' :: b) a (some b)

/-- Number of open parentheses. -/
def depth (a : Str) : Int := (a.count '(' : Int) - a.count ')'

/-- A colon behind `a` belongs to a drive: a single letter at the beginning of the line, behind a blank or behind a quote. -/
def Drive (a : Str) : Prop := ∃ b c, a = b ++ [c] ∧ isLetter c = true ∧ (b = [] ∨ ∃ b' d, b = b' ++ [d] ∧ (isSpace d = true ∨ d = '"'))

/-- A colon behind `a` separates targets and dependents. -/
def Separates (a : Str) : Prop := depth a = 0 ∧ ¬ Drive a

/-- `line` is `a`, the first separator `:` or `::`, `d`. -/
structure Separated (line a : Str) (double : Bool) (d : Str) : Prop where
  eq : line = a ++ (if double then [':', ':'] else [':']) ++ d
  single : double = false → ∀ r, d ≠ ':' :: r
  sep : Separates a
  first : ∀ x y, a = x ++ ':' :: y → ¬ Separates x

/-- Slashes are replaced in all names. -/
def native (s : Str) : Str := s.map fun c => if c = '/' then '\\' else c

/-- A dependent with a `*` or `?` that is not part of a file name macro stands for the files `glob` finds. -/
inductive Wild (glob : Str → List Str) : List Str → List Str → Prop
  | nil : Wild glob [] []
  | name {d ds fs} : (∀ x c y, d = x ++ c :: y → (c = '*' ∨ c = '?') → Props.InFileNameMacro x) → Wild glob ds fs → Wild glob (d :: ds) (d :: fs)
  | files {x c y ds fs} : (c = '*' ∨ c = '?') → ¬ Props.InFileNameMacro x → Wild glob ds fs →
      Wild glob ((x ++ c :: y) :: ds) (glob (x ++ c :: y) ++ fs)

/-- The line `s` is the head of a description block. If the separator comes behind the `;`, everything in front of it counts as targets, and the
command starts at the `;` all the same. -/
inductive Header (glob : Str → List Str) (m : Macros) (s : Str) (targets deps : List Str) (double : Bool) (cmd : Option Str) : Prop
  | mk {line a d tt dd ds} : Uncommented s line cmd → ¬ Indented line → Separated line a double d →
      Means m false (trimmed a) tt → NameList targets (native tt) →
      Means m true (trimmed d) dd → NameList ds (native dd) → Wild glob ds deps → Header glob m s targets deps double cmd
  | late {line b a d tt} : Uncommented s line (some b) → cmd = some b → ¬ Indented (line ++ ';' :: b) →
      Separated (line ++ ';' :: b) (line ++ ';' :: a) double d → Means m false (trimmed (line ++ ';' :: a)) tt → NameList targets (native tt) →
      deps = [] → Header glob m s targets deps double cmd

/-! ### Commands -/

/-- No `<<` in the text. -/
def NoAngles (s : Str) : Prop := ∀ x y, s ≠ x ++ '<' :: '<' :: y

/-- The end of the text or a blank. -/
def Ends (s : Str) : Prop := s = [] ∨ ∃ c r, s = c :: r ∧ isSpace c = true

/-- `Named text line names`: the command `text` has inline files with these names (empty: no name given), without which it is
`line`. -/
inductive Named : Str → Str → List Str → Prop
  | done {s} : NoAngles s → Named s s []
  | anonymous {a rest line ns} : NoAngles (a ++ ['<']) → Ends rest → Named rest line ns →
      Named (a ++ '<' :: '<' :: rest) (a ++ '<' :: '<' :: line) ([] :: ns)
  | plain {a n rest line ns} : NoAngles (a ++ ['<']) → n ≠ [] → (∀ c ∈ n, isSpace c = false) → n.head? ≠ some '"' → Ends rest →
      Named rest line ns → Named (a ++ '<' :: '<' :: (n ++ rest)) (a ++ '<' :: '<' :: line) (n :: ns)
  | quoted {a n rest line ns} : NoAngles (a ++ ['<']) → '"' ∉ n → Named rest line ns →
      Named (a ++ '<' :: '<' :: '"' :: (n ++ '"' :: rest)) (a ++ '<' :: '<' :: line) (n :: ns)
  | missing {a rest line ns} : NoAngles (a ++ ['<']) → '"' ∉ rest → Named ('"' :: rest) line ns →
      Named (a ++ '<' :: '<' :: '"' :: rest) (a ++ '<' :: '<' :: line) ([] :: ns)

/-- Lines of inline files end with carriage return and line feed. -/
inductive CrLf : Str → Str → Prop
  | both {a} : CrLf (a ++ ['\r', '\n']) (a ++ ['\r', '\n'])
  | lf {a} : ¬ EndsIn a '\r' → CrLf (a ++ ['\n']) (a ++ ['\r', '\n'])
  | none {a} : ¬ EndsIn a '\n' → CrLf a (a ++ ['\r', '\n'])

/-- `Content rule lines text`: the content of an inline file; in inference rules macros are not expanded here. -/
inductive Content (rule : Bool) : List Line → Str → Prop
  | nil : Content rule [] []
  | cons {l ls t u text} : l.inl = true → (∀ r, l.text ≠ '<' :: '<' :: r) →
      (rule = true → t = l.text) → (rule = false → Means l.macros false l.text t) → CrLf t u → Content rule ls text →
      Content rule (l :: ls) (u ++ text)

/-- One of the words of `s` is `w`. -/
def HasWord (w s : Str) : Prop := ∃ x y, s = x ++ w ++ y ∧ (x = [] ∨ ∃ r c, x = r ++ [c] ∧ isSpace c = true) ∧ Ends y

/-- The contents of inline files, each closed by a line with `<<` and options. `cut`: the makefile ends inside of a file; it gets everything
up to the end, and the files behind it are empty. -/
inductive Files (rule : Bool) : Bool → List Str → List Line → List InlineFile → Prop
  | nil : Files rule false [] [] []
  | cons {cut n ns ls text last opts keep unicode rest fs} : Content rule ls text → last.inl = true → last.text = '<' :: '<' :: opts →
      (keep = true ↔ HasWord c!"KEEP" opts) → (unicode = true ↔ HasWord c!"UNICODE" opts) → Files rule cut ns rest fs →
      Files rule cut (n :: ns) (ls ++ last :: rest) ({ filename := n, content := text, keep := keep, unicode := unicode } :: fs)
  | cut {n ns ls text} : Content rule ls text → Files rule true (n :: ns) ls ({ filename := n, content := text } :: ns.map fun n => { filename := n })

/-- The last `-` among the modifiers. -/
def lastDash : List Modifier → Option Str
  | [] => none
  | .dash ds :: ms => (lastDash ms).orElse fun _ => some ds
  | _ :: ms => lastDash ms

/-- The largest exit code that is no failure. -/
def limit (fl : Flags) (ms : List Modifier) : Nat :=
  match lastDash ms with
  | none => if fl.ignore then uintMax else 0
  | some [] => uintMax
  | some ds => toUInt ds

/-- `CommandAt rule fl m text cut lines c`: `text` with the inline files in `lines` is the command `c`. The macros and modifiers of a
command in an inference rule are evaluated when the rule is applied. -/
inductive CommandAt (rule : Bool) (fl : Flags) (m : Macros) (text : Str) (cut : Bool) (lines : List Line) : Command → Prop
  | now {e ms r line names files} : rule = false → Means m false (trimmed text) e → Modified ms e r → Named r line names →
      Files rule cut names lines files →
      CommandAt rule fl m text cut lines
        { cmd := { line := line, maxExitCode := limit fl ms, silent := fl.silent || hasSilent ms, singleExecution := hasSingle ms }
          files := files }
  | later {line names files} : rule = true → Named (trimmed text) line names → Files rule cut names lines files →
      CommandAt rule fl m text cut lines
        { cmd := { line := line, maxExitCode := limit fl [], silent := fl.silent, singleExecution := false }, files := files }

/-- Commands are indented; blank lines in between do not matter. -/
inductive Commands (rule : Bool) (fl : Flags) : Bool → List Line → List Command → Prop
  | nil : Commands rule fl false [] []
  | blank {cut l ls cs} : l.inl = false → Blank l.text → Commands rule fl cut ls cs → Commands rule fl cut (l :: ls) cs
  | cmd {cut l files c ls cs} : l.inl = false → Indented l.text → ¬ Blank l.text → CommandAt rule fl l.macros l.text false files c →
      Commands rule fl cut ls cs → Commands rule fl cut (l :: (files ++ ls)) (c :: cs)
  | cut {l files c} : l.inl = false → Indented l.text → ¬ Blank l.text → CommandAt rule fl l.macros l.text true files c →
      Commands rule fl true (l :: files) [c]

/-! ### Items -/

inductive Item where
  | dot (d : Directive) (values : List Str)
  | rule (h : RuleHead) (cmds : List Command)
  | block (b : Jom.Blocks.Block)

/-- What follows the commands: the end of the makefile or a line that is neither blank nor indented. -/
def Next (rest : List Line) : Prop := ∀ l ls, rest = l :: ls → ¬ Blank l.text ∧ ¬ Indented l.text

/-- The command behind `;`. -/
inductive InPlace (fl : Flags) (m : Macros) : Bool → Option Str → List Line → List Command → Prop
  | none : InPlace fl m false none [] []
  | some {cut s files c} : CommandAt false fl m s cut files c → InPlace fl m cut (some s) files [c]

/-- The commands below the head of a description block. There are none if a blank line follows the head. -/
inductive Body (fl : Flags) : Bool → List Line → List Command → List Line → Prop
  | commands {cut ls cs rest} : Commands false fl cut ls cs → (∀ l r, ls = l :: r → ¬ Blank l.text) → Next rest → Body fl cut ls cs rest
  | blank {l rest} : l.inl = false → Blank l.text → Body fl false [l] [] rest

/-- How a makefile consists of items. `cut`: it ends inside of an inline file. -/
inductive Reads (glob : Str → List Str) : Flags → Bool → List Line → List Item → Prop
  | nil {fl} : Reads glob fl false [] []
  | blank {fl cut l ls e is} : l.inl = false → Means l.macros false l.text e → Blank e → Reads glob fl cut ls is →
      Reads glob fl cut (l :: ls) is
  | dot {fl cut l ls e d v ws is} : l.inl = false → Means l.macros false l.text e → DotText d v e → Words ws v →
      Reads glob (fl.after d) cut ls is → Reads glob fl cut (l :: ls) (.dot d ws :: is)
  | rule {fl cut c1 c2 l body rest e h cs is} : l.inl = false → Means l.macros false l.text e → h.Chosen e →
      Commands true fl c1 body cs → Next rest → (c1 = true → rest = []) → Reads glob fl c2 rest is → cut = (c1 || c2) →
      Reads glob fl cut (l :: (body ++ rest)) (.rule h cs :: is)
  | block {fl cut c1 c2 c3 l files body rest e targets deps double cmd cs cs' is} : l.inl = false → Means l.macros false l.text e → ¬ Blank e →
      (∀ d v, ¬ DotText d v e) → ¬ IsRule e → Header glob l.macros l.text targets deps double cmd →
      InPlace fl l.macros c1 cmd files cs → (c1 = true → body = [] ∧ rest = []) → Body fl c2 body cs' rest → (c2 = true → rest = []) →
      Reads glob fl c3 rest is → cut = (c1 || c2 || c3) →
      Reads glob fl cut (l :: (files ++ (body ++ rest)))
        (.block { targets := targets, deps := deps, double := double, cmds := cs ++ cs' } :: is)

/-! ### What the items say -/

/-- The description blocks. -/
def blocks : List Item → List Jom.Blocks.Block
  | [] => []
  | .block b :: is => b :: blocks is
  | _ :: is => blocks is

/-- The inference rules. -/
def rules : List Item → List Inference.Rule
  | [] => []
  | .rule h cs :: is =>
    { batch := h.batch, fromPath := directory h.fromPath, fromExt := '.' :: h.fromExt, toPath := directory h.toPath
      toExt := '.' :: h.toExt, commands := cs } :: rules is
  | _ :: is => rules is

/-- The suffixes: those before, without the ones up to the last empty `.SUFFIXES`, and all that are listed. -/
def suffixes : List Str → List Item → List Str
  | l, [] => l
  | _, .dot .suffixes [] :: is => suffixes [] is
  | l, .dot .suffixes (w :: ws) :: is => suffixes (l ++ w :: ws) is
  | l, _ :: is => suffixes l is

/-- Some item is the directive. -/
def has (d : Directive) : List Item → Bool
  | [] => false
  | .dot d' _ :: is => decide (d' = d) || has d is
  | _ :: is => has d is

/-- All targets listed with `.PRECIOUS`. -/
def precious : List Item → List Str
  | [] => []
  | .dot .precious ws :: is => ws ++ precious is
  | _ :: is => precious is

end Jom.Spec.Makefile
