import Verif.QtStr

/-!
Specification of macro invocations, independent of the expansion algorithm.

A text is a sequence of segments.  `Seg.render` says how a segment is written in a makefile, `Denotes`
is a big-step semantics: it relates a sequence of segments to its expansion by a finite derivation.
There is no notion of "used macros": a cyclic macro simply has no finite derivation.
-/

namespace Jom.Spec

/-- The character jom puts in front of a file name macro that is expanded later (U+FEFF). -/
def bom : Char := Char.ofNat 0xFEFF

/-- The pieces a makefile text consists of. -/
inductive Seg where
  /-- an ordinary character (a `$` only as the very last character of the text) -/
  | lit (c : Char)
  /-- `$$` -/
  | dollar
  /-- `$c` for a letter or digit `c` -/
  | char (c : Char)
  /-- `$(name)` -/
  | ref (name : Str)
  /-- `$(name:stmt)`, a substitution `stmt` = `before=after` -/
  | sub (name stmt : Str)
  /-- `$@`, `$*`, `$?`, `$<` -/
  | fileChar (c : Char)
  /-- `$(@…)`, `$(*…)`, `$(?…)`, `$(<…)` -/
  | fileParen (text : Str)
  /-- `$$@` (`false`) or `$$(@` (`true`), only special in a dependents line -/
  | depAt (paren : Bool)
deriving DecidableEq, Repr

/-- How a segment is written. -/
def Seg.render : Seg → Str
  | .lit c => [c]
  | .dollar => ['$', '$']
  | .char c => ['$', c]
  | .ref n => '$' :: '(' :: (n ++ [')'])
  | .sub n st => '$' :: '(' :: (n ++ ':' :: (st ++ [')']))
  | .fileChar c => ['$', c]
  | .fileParen t => '$' :: '(' :: (t ++ [')'])
  | .depAt false => ['$', '$', '@']
  | .depAt true => ['$', '$', '(', '@']

/-- The text of a sequence of segments. -/
def render (segs : List Seg) : Str := segs.flatMap Seg.render

/-- Characters that start a file name macro. -/
def fileStart : List Char := ['<', '*', '@', '?']

/-- A macro name as it can be written inside `$(…)`. -/
def NameOK (n : Str) : Prop :=
  (∃ c r, n = c :: r ∧ c ∉ fileStart) ∧ ':' ∉ n ∧ ')' ∉ n

/-- A substitution text in which every `)` is quoted by a directly preceding `^` and which does not
end with `^`.  `q` tells whether the preceding character is `^`. -/
def quotedOK : Bool → Str → Bool
  | q, [] => !q
  | q, ')' :: s => q && quotedOK false s
  | _, c :: s => quotedOK (c == '^') s

/-- Well-formedness of a single segment. -/
def Seg.WF (dep : Bool) : Seg → Prop
  | .lit c => c ≠ '$'
  | .dollar => True
  | .char c => isLetterOrNumber c = true
  | .ref n => NameOK n
  | .sub n st => NameOK n ∧ '=' ∈ st ∧ quotedOK false st = true
  | .fileChar c => c ∈ fileStart
  | .fileParen t => (∃ c r, t = c :: r ∧ c ∈ fileStart) ∧ ')' ∉ t
  | .depAt _ => dep = true

/-- In a dependents line `$$` in front of `@` or `(@` is not an escaped dollar. -/
def dollarOK (dep : Bool) (rest : Str) : Prop :=
  dep = true → (∀ r, rest ≠ '@' :: r) ∧ (∀ r, rest ≠ '(' :: '@' :: r)

/-- Well-formedness of a text. -/
def SegsWF (dep : Bool) : List Seg → Prop
  | [] => True
  | [.lit '$'] => True
  | .dollar :: rest => dollarOK dep (render rest) ∧ SegsWF dep rest
  | s :: rest => s.WF dep ∧ SegsWF dep rest

/-- Big-step semantics.  `val` gives the (unexpanded) value of a macro, empty for an undefined one;
`eff stmt v` is the effect of a substitution.  The number bounds the nesting depth. -/
inductive Denotes (val : Str → Str) (eff : Str → Str → Str) (dep : Bool) :
    Nat → List Seg → Str → Prop
  | nil {h} : Denotes val eff dep h [] []
  | lit {h c segs r} : Denotes val eff dep h segs r → Denotes val eff dep h (.lit c :: segs) (c :: r)
  | dollar {h segs r} : Denotes val eff dep h segs r → Denotes val eff dep h (.dollar :: segs) ('$' :: r)
  | char {h c segs r vsegs v} : SegsWF dep vsegs → render vsegs = val [c] →
      Denotes val eff dep h vsegs v → Denotes val eff dep (h + 1) segs r →
      Denotes val eff dep (h + 1) (.char c :: segs) (v ++ r)
  | ref {h n segs r vsegs v} : SegsWF dep vsegs → render vsegs = val n →
      Denotes val eff dep h vsegs v → Denotes val eff dep (h + 1) segs r →
      Denotes val eff dep (h + 1) (.ref n :: segs) (v ++ r)
  | sub {h n st segs r vsegs v} : SegsWF dep vsegs → render vsegs = val n →
      Denotes val eff dep h vsegs v → Denotes val eff dep (h + 1) segs r →
      Denotes val eff dep (h + 1) (.sub n st :: segs) (eff st v ++ r)
  | fileChar {h c segs r} : Denotes val eff dep h segs r →
      Denotes val eff dep h (.fileChar c :: segs) (bom :: c :: r)
  | fileParen {h t segs r} : Denotes val eff dep h segs r →
      Denotes val eff dep h (.fileParen t :: segs) (bom :: '(' :: (t ++ ')' :: r))
  | depAt {h p segs r} : Denotes val eff dep h segs r →
      Denotes val eff dep h (.depAt p :: segs)
        (bom :: ((if p then ['('] else []) ++ '@' :: r))

/-- The meaning of a text: some well-formed reading of it has a finite derivation. -/
def Expands (val : Str → Str) (eff : Str → Str → Str) (dep : Bool) (s r : Str) : Prop :=
  ∃ segs h, SegsWF dep segs ∧ render segs = s ∧ Denotes val eff dep h segs r

/-- The macro names a segment refers to. -/
def Seg.refs : Seg → List Str
  | .char c => [[c]]
  | .ref n => [n]
  | .sub n _ => [n]
  | _ => []

/-- `s` (well formed) refers directly to the macro `n`. -/
def RefersTo (dep : Bool) (s : Str) (n : Str) : Prop :=
  ∃ segs, SegsWF dep segs ∧ render segs = s ∧ ∃ g ∈ segs, n ∈ g.refs

/-- `s` refers, directly or through macro values, to `n`. -/
inductive MReaches (val : Str → Str) (dep : Bool) : Str → Str → Prop
  | direct {s n} : RefersTo dep s n → MReaches val dep s n
  | step {s k n} : RefersTo dep s k → MReaches val dep (val k) n → MReaches val dep s n

/-- The text can be read as a sequence of segments at all. -/
def WellFormed (dep : Bool) (s : Str) : Prop := ∃ segs, SegsWF dep segs ∧ render segs = s

/-- Non-overlapping, leftmost replacement, described declaratively: `Replaces b a s t` if `s` is cut
into pieces `x₀ b x₁ b … xₙ` such that no earlier occurrence of `b` exists in `xᵢ b`, and
`t = x₀ a x₁ a … xₙ`. -/
inductive Replaces (b a : Str) : Str → Str → Prop
  | none {s} : (∀ x y, s ≠ x ++ b ++ y) → Replaces b a s s
  | some {x s t} : (∀ x' y', x ++ b ++ s = x' ++ b ++ y' → x.length ≤ x'.length) →
      Replaces b a s t → Replaces b a (x ++ b ++ s) (x ++ a ++ t)

end Jom.Spec
