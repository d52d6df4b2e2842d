/-
How expressions are written: numbers, operators, strings, shell commands, `DEFINED(...)` and `EXIST(...)`, perhaps
with blanks between them.
-/
import Verif.Spec.Expr
import Verif.Model.ExprLex
import Mathlib.Data.List.Forall2

namespace Jom.Spec
open Jom.Expr

/-- How the operators are written. -/
def opText : Nat → Str
  | 3 => c!"&&" | 4 => c!"||" | 5 => c!"&" | 6 => c!"|" | 7 => c!"==" | 8 => c!"!=" | 9 => c!"<" | 10 => c!">"
  | 11 => c!"<=" | 12 => c!">=" | 13 => c!"<<" | 14 => c!">>" | 15 => c!"+" | 16 => c!"-" | 17 => c!"*" | 18 => c!"/"
  | 19 => c!"%" | 20 => c!"~" | 21 => c!"!" | 22 => c!"(" | 23 => c!")" | _ => []

/-- The number written with these digits. -/
def decimal : Str → Nat
  | [] => 0
  | c :: s => (c.toNat - 48) * 10 ^ s.length + decimal s

/-- The text between the parentheses of a test: a name with blanks around it, perhaps in quotes. -/
structure Arg where
  before : Str
  quoted : Bool
  name : Str
  after : Str

def Arg.text (a : Arg) : Str := a.before ++ (if a.quoted then '"' :: (a.name ++ ['"']) else a.name) ++ a.after

def plain (c : Char) : Bool := !isSpace c && c != '"'

/-- Unquoted names neither begin nor end with a blank or a quote. -/
def Arg.Ok (a : Arg) : Prop :=
  (∀ c ∈ a.before, isSpace c = true) ∧ (∀ c ∈ a.after, isSpace c = true) ∧
  (a.quoted = false → a.name ≠ [] ∧ a.name.head?.all plain = true ∧ a.name.getLast?.all plain = true)

/-- A piece of an expression. `word` is the keyword as it is written. -/
inductive Piece where
  | number (digits : Str)
  | op (id : Nat)
  | string (s : Str)
  | shell (cmd : Str)
  | defined (word blanks : Str) (arg : Arg)
  | exist (word blanks : Str) (arg : Arg)

def Piece.text : Piece → Str
  | .number d => d
  | .op id => opText id
  | .string s => '"' :: (s.flatMap (fun c => if c = '"' then c!"\"\"" else [c]) ++ ['"'])
  | .shell cmd => '[' :: (cmd.flatMap (fun c => if c = '[' ∨ c = ']' then ['^', c] else [c]) ++ [']'])
  | .defined word blanks arg => word ++ blanks ++ '(' :: (arg.text ++ [')'])
  | .exist word blanks arg => word ++ blanks ++ '(' :: (arg.text ++ [')'])

def Blanks (s : Str) : Prop := ∀ c ∈ s, c = ' ' ∨ c = '\t'

/-- The pieces with the blanks after each of them. -/
def textOf : List (Piece × Str) → Str
  | [] => []
  | (p, b) :: l => p.text ++ b ++ textOf l

/-- What may be written, given the text that follows: the piece ends where it seems to end. -/
def Piece.Ok (p : Piece) (following : Str) : Prop :=
  match p with
  | .number d => d ≠ [] ∧ (∀ c ∈ d, isDigit c = true) ∧ decimal d ≤ 2147483647 ∧ ∀ c r, following = c :: r → isDigit c = false
  | .op id => 3 ≤ id ∧ id ≤ 23 ∧ ∀ c r, following = c :: r → ∀ id', opText id' ≠ opText id ++ [c]
  | .string s => '\n' ∉ s ∧ ∀ r, following ≠ '"' :: r
  | .shell cmd => '\n' ∉ cmd ∧ '^' ∉ cmd
  | .defined word blanks arg => toUpper word = c!"DEFINED" ∧ Blanks blanks ∧ arg.Ok ∧ ')' ∉ arg.text
  | .exist word blanks arg => toUpper word = c!"EXIST" ∧ Blanks blanks ∧ arg.Ok ∧ '\n' ∉ arg.text ∧ ')' ∉ following

def PiecesOk : List (Piece × Str) → Prop
  | [] => True
  | (p, b) :: l => p.Ok (b ++ textOf l) ∧ Blanks b ∧ PiecesOk l

/-- The token of a piece: each test asks for the name between its own parentheses. -/
def Means (w : Oracle) (p : Piece) (i : Item) : Prop :=
  match p with
  | .number d => i = .tok 1 (.num (decimal d))
  | .op id => ∃ v, i = .tok id v
  | .string s => i = .tok 2 (.str s)
  | .shell cmd => i = .tok 1 (.num (w.system cmd))
  | .defined _ _ arg => i = .tok 1 (.num (if w.isDefined arg.name then 1 else 0))
  | .exist _ _ arg => i = .tok 1 (.num (if w.fileExists arg.name then 1 else 0))

end Jom.Spec
