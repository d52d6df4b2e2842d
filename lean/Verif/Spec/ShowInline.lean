/-
C111: what the option /U shows of inline files.
-/
import Verif.QtStr

namespace Jom.Spec.ShowInline

/-- The line behind the content of a file. -/
def endMark : Str := c!"---end of inline file---\n"

/-- The name of a file, its content, and the end. -/
def display : List (Str × Str) → Str
  | [] => []
  | (name, content) :: files => c!"---" ++ name ++ c!"---\n" ++ content ++ endMark ++ display files

/-- A name on one line, and a content that does not contain the line that marks its end. -/
def Clean (file : Str × Str) : Prop := '\n' ∉ file.1 ∧ ¬ endMark <:+: file.2

/-- No null characters. -/
def NoNull (file : Str × Str) : Prop := Char.ofNat 0 ∉ file.1 ∧ Char.ofNat 0 ∉ file.2

end Jom.Spec.ShowInline
