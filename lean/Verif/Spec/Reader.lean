import Verif.Model.LineReader
import Verif.Props.LineReader

/-! What reading a line of a text file means: the text before, the number of lines already read, the line, its number
and the text behind it. -/

namespace Jom.Spec.Rdr

open Jom Jom.Props

/-- `LineRead inline text n m n' text'`: with `n` lines gone, the line read from `text` is `m`, it is line `n'`, and
`text'` is what follows. In inline file mode a line is taken as it is, otherwise lines starting with `#` are passed over
and the end of the line is looked at (`LineMeaning`). -/
inductive LineRead : Bool → Str → Nat → MLine → Nat → Str → Prop
  | raw {l t n} : '\n' ∉ l → LineRead true (l ++ '\n' :: t) n { content := some (l ++ ['\n']) } (n + 1) t
  | rawLast {l n} : '\n' ∉ l → l ≠ [] → LineRead true l n { content := some l } (n + 1) []
  | comment {l t n m n' t'} : '\n' ∉ l → isCommentLine l = true → LineRead false t (n + 1) m n' t' →
      LineRead false (l ++ '\n' :: t) n m n' t'
  | line {l t n m} : '\n' ∉ l → isCommentLine l = false → LineMeaning l m →
      LineRead false (l ++ '\n' :: t) n m (n + 1) t
  | last {l n m} : '\n' ∉ l → l ≠ [] → isCommentLine l = false → LineMeaning l m → LineRead false l n m (n + 1) []

/-- No line is left. -/
inductive Exhausted : Bool → Str → Prop
  | nil {inline} : Exhausted inline []
  | comment {l t} : '\n' ∉ l → isCommentLine l = true → Exhausted false t → Exhausted false (l ++ '\n' :: t)
  | last {l} : '\n' ∉ l → isCommentLine l = true → Exhausted false l

/-- The lines that a sequence of reads gives, each with its number. -/
inductive AllRead : List Bool → Str → Nat → List (MLine × Nat) → Prop
  | nil {t n} : AllRead [] t n []
  | done {i is t n} : Exhausted i t → AllRead (i :: is) t n []
  | more {i is t n m n' t' ls} : LineRead i t n m n' t' → AllRead is t' n' ls → AllRead (i :: is) t n ((m, n') :: ls)

/-- Line `number` of `text` is `l`. -/
def LineOf (text : Str) (number : Nat) (l : Str) : Prop :=
  ∃ before after, text = before ++ l ++ after ∧ (before = [] ∨ before.getLast? = some '\n') ∧ '\n' ∉ l ∧
    (after = [] ∨ after.head? = some '\n') ∧ number = before.count '\n' + 1

end Jom.Spec.Rdr

namespace Jom.Spec.Rdr

/-- `m` is what the line `l` of a file means in this mode: the line itself (with its newline, if it has one), or
`LineMeaning` for a line that is no comment. -/
def Means (inline : Bool) (l : Str) (m : MLine) : Prop :=
  if inline then m.cont = .none ∧ (m.content = some l ∨ m.content = some (l ++ ['\n']))
  else isCommentLine l = false ∧ LineMeaning l m

end Jom.Spec.Rdr
