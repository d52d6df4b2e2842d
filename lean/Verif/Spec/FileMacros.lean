/-
Specification of file name macros, independent of the expansion algorithm: a text is a sequence of pieces, each of them has a
meaning.
-/
import Verif.QtStr

namespace Jom.Spec.FileMacro

/-- What a macro refers to: `$@`, `$*`, `$**`, `$?`. -/
inductive Kind where
  | target
  | stem
  | all
  | newer
deriving DecidableEq, Repr

/-- The parts of a name: `D`, `B`, `F`, `R`. -/
inductive Part where
  | dir
  | base
  | file
  | root
deriving DecidableEq, Repr

/-- A reference: `$k` (`bare`) or `$(k…)` with an optional part and an optional substitution `before=after`. -/
inductive Ref where
  | bare (k : Kind)
  | paren (k : Kind) (part : Option Part) (subst : Option (Str × Str))
deriving DecidableEq, Repr

/-- A piece of a text. -/
inductive Piece where
  | text (s : Str)
  | ref (r : Ref)
deriving DecidableEq, Repr

/-- How kinds are written. -/
def Kind.text : Kind → Str
  | .target => ['@']
  | .stem => ['*']
  | .all => ['*', '*']
  | .newer => ['?']

/-- How parts are written. -/
def Part.text : Part → Str
  | .dir => ['D']
  | .base => ['B']
  | .file => ['F']
  | .root => ['R']

/-- How substitutions are written. -/
def substText : Option (Str × Str) → Str
  | none => []
  | some (a, b) => ':' :: (a ++ '=' :: b)

/-- How parts and substitutions are written. -/
def optText (p : Option Part) (s : Option (Str × Str)) : Str := (p.map Part.text).getD [] ++ substText s

/-- The kind of a reference. -/
def Ref.kind : Ref → Kind
  | .bare k => k
  | .paren k _ _ => k

/-- How references are written, behind the `$`. -/
def Ref.text : Ref → Str
  | .bare k => k.text
  | .paren k p s => '(' :: (k.text ++ optText p s ++ [')'])

/-- A text; `mark` is the character in front of the references. -/
def render (mark : Char) : List Piece → Str
  | [] => []
  | .text s :: ps => s ++ render mark ps
  | .ref r :: ps => mark :: (r.text ++ render mark ps)

/-- The text before the last `c`, if there is one. -/
def beforeLast (c : Char) (s : Str) : Option Str :=
  if c ∈ s then some ((s.reverse.dropWhile (· ≠ c)).drop 1).reverse else none

/-- The text behind the last directory separator. -/
def fileOf (s : Str) : Str := (s.reverse.takeWhile fun c => c ≠ '/' && c ≠ '\\').reverse

/-- A part of a name. -/
def Part.of : Part → Str → Str
  | .dir, v => (beforeLast '\\' v).getD ['.']
  | .base, v => (fileOf v).takeWhile (· ≠ '.')
  | .file, v => fileOf v
  | .root, v => (beforeLast '.' v).getD v

/-- A target: name, dependents, and the times of files. -/
structure Target where
  name : Str
  deps : List Str
  time : Str → Nat

/-- The names a macro refers to; `dep` is the dependent a command with `!` is executed for. -/
def Kind.names (t : Target) (dep : Option Str) : Kind → List Str
  | .target => [t.name]
  | .stem => [(beforeLast '.' t.name).getD t.name]
  | .all => match dep with
    | none => t.deps
    | some d => [d]
  | .newer => (match dep with
    | none => t.deps
    | some d => [d]).filter fun d => t.time t.name ≤ t.time d

/-- An optional part of a name. -/
def partOf : Option Part → Str → Str
  | none, v => v
  | some p, v => p.of v

/-- An optional substitution. -/
def substituted : Option (Str × Str) → Str → Str
  | none, v => v
  | some (a, b), v => replaceAll a b v

/-- The values of a reference. -/
def Ref.values (t : Target) (dep : Option Str) : Ref → List Str
  | .bare k => k.names t dep
  | .paren k p s => (k.names t dep).map fun v => substituted s (partOf p v)

/-- Names with blanks are put in quotes. -/
def quoted (v : Str) : Str := if ' ' ∈ v ∨ '\t' ∈ v then '"' :: (v ++ ['"']) else v

/-- The text a reference stands for. -/
def Ref.meaning (t : Target) (dep : Option Str) (r : Ref) : Str := [' '].intercalate ((r.values t dep).map quoted)

/-- The text a sequence of pieces stands for. -/
def meaning (t : Target) (dep : Option Str) : List Piece → Str
  | [] => []
  | .text s :: ps => s ++ meaning t dep ps
  | .ref r :: ps => r.meaning t dep ++ meaning t dep ps

/-- The texts of a substitution contain none of `=`, `)` and `^`. -/
def Ref.Plain : Ref → Prop
  | .bare _ => True
  | .paren _ _ none => True
  | .paren _ _ (some (a, b)) => ∀ c ∈ a ++ b, c ≠ '=' ∧ c ≠ ')' ∧ c ≠ '^'

/-- Where jom expands references correctly. `out` is the expansion of what is in front; `m` is the escape character of jom that
does not occur otherwise. -/
def Fine (m : Char) (t : Target) (dep : Option Str) : Str → List Piece → Prop
  | _, [] => True
  | out, .text s :: ps => m ∉ s ∧ Fine m t dep (out ++ s) ps
  | out, .ref r :: ps =>
    -- a caret in front prevents the expansion
    out.getLast? ≠ some '^' ∧ r.Plain ∧ m ∉ r.meaning t dep ∧
    -- `$**` is read as one macro
    (r = .bare .stem → (render m ps).head? ≠ some '*') ∧
    -- with neither part nor substitution only at the end of the text
    (∀ k, r = .paren k none none → r.values t dep = [] ∨ render m ps = []) ∧
    -- parts and substitutions only if there are values
    (∀ k p s, r = .paren k p s → r.values t dep = [] → p = none ∧ s = none) ∧
    -- an empty expansion is not followed by another reference
    (r.meaning t dep = [] → (render m ps).head? ≠ some m) ∧
    Fine m t dep (out ++ r.meaning t dep) ps

end Jom.Spec.FileMacro
