/-
Qt string operations used by jom, on `List Char`.

Trusted reading of Qt 5 (`QString`, `QChar`).  Simplification: character classes and case mapping are
exact on ASCII; a character above 127 is neither letter, digit nor blank and has no case.
UTF-16 surrogates are not modelled: one `Char` stands for one `QChar`.
-/

namespace Jom

instance instDecidableEqExcept {ε α : Type} [DecidableEq ε] [DecidableEq α] : DecidableEq (Except ε α)
  | .ok a, .ok b => if h : a = b then isTrue (by rw [h]) else isFalse (by intro e; cases e; exact h rfl)
  | .error a, .error b => if h : a = b then isTrue (by rw [h]) else isFalse (by intro e; cases e; exact h rfl)
  | .ok _, .error _ => isFalse (by intro e; cases e)
  | .error _, .ok _ => isFalse (by intro e; cases e)

/-- `QString` without the null/empty distinction (`Option Str` is used where jom tests `isNull()`). -/
abbrev Str := List Char

/-- `c!"abc"` is the explicit list `['a', 'b', 'c']`. -/
syntax:max "c!" str : term
macro_rules
  | `(c! $s:str) => do
    let cs := s.getString.toList.map fun c => Lean.Syntax.mkCharLit c
    let cs := cs.toArray
    `(([$cs,*] : List Char))

/-- `QChar::isSpace` on ASCII: tab, LF, VT, FF, CR, space. -/
def isSpace (c : Char) : Bool := c == ' ' || (9 ≤ c.toNat && c.toNat ≤ 13)

/-- `QChar::isDigit` on ASCII. -/
def isDigit (c : Char) : Bool := 48 ≤ c.toNat && c.toNat ≤ 57

/-- `QChar::isLetter` on ASCII. -/
def isLetter (c : Char) : Bool :=
  (65 ≤ c.toNat && c.toNat ≤ 90) || (97 ≤ c.toNat && c.toNat ≤ 122)

/-- `QChar::isLetterOrNumber` on ASCII. -/
def isLetterOrNumber (c : Char) : Bool := isLetter c || isDigit c

/-- `QChar::toLower` on ASCII. -/
def toLowerC (c : Char) : Char := if 65 ≤ c.toNat ∧ c.toNat ≤ 90 then Char.ofNat (c.toNat + 32) else c

/-- `QChar::toUpper` on ASCII. -/
def toUpperC (c : Char) : Char := if 97 ≤ c.toNat ∧ c.toNat ≤ 122 then Char.ofNat (c.toNat - 32) else c

/-- `QString::toLower`. -/
def toLower (s : Str) : Str := s.map toLowerC

/-- `QString::toUpper`. -/
def toUpper (s : Str) : Str := s.map toUpperC

/-- Remove leading blanks. -/
def trimLeft (s : Str) : Str := s.dropWhile isSpace

/-- Remove trailing blanks. -/
def trimRight (s : Str) : Str := (s.reverse.dropWhile isSpace).reverse

/-- `QString::trimmed`. -/
def trimmed (s : Str) : Str := trimRight (trimLeft s)

/-- Does `pat` occur at the beginning of `s`? (`QString::startsWith`, case sensitive) -/
def startsWith (s pat : Str) : Bool := pat.isPrefixOf s

/-- `QString::endsWith`, case sensitive. -/
def endsWith (s pat : Str) : Bool := pat.isSuffixOf s

/-- `QString::indexOf(pat)` from the beginning; `none` is `-1`. -/
def indexOf? (pat : Str) : Str → Option Nat
  | [] => if pat.isEmpty then some 0 else none
  | c :: s => if pat.isPrefixOf (c :: s) then some 0 else (indexOf? pat s).map (· + 1)

/-- `QString::indexOf(pat, from)` for a non-negative `from`. -/
def indexOfFrom? (pat s : Str) (start : Nat) : Option Nat :=
  if start ≤ s.length then (indexOf? pat (s.drop start)).map (· + start) else none

/-- `QString::replace(before, after)` for a non-empty `before`: leftmost non-overlapping occurrences.
`skip` counts the remaining characters of the occurrence being replaced. -/
def replaceGo (before after : Str) : Nat → Str → Str
  | _, [] => []
  | skip + 1, _ :: s => replaceGo before after skip s
  | 0, c :: s =>
    if before.isPrefixOf (c :: s) then after ++ replaceGo before after (before.length - 1) s
    else c :: replaceGo before after 0 s

/-- `QString::replace(before, after)`.  For an empty `before` Qt inserts `after` in front of every
character and at the end (the matcher finds the empty pattern at every index 0..size). -/
def replaceAll (before after s : Str) : Str :=
  if before.isEmpty then (s.flatMap fun c => after ++ [c]) ++ after
  else replaceGo before after 0 s

/-- `QString::remove(int pos, int len)` with `len = 1`: a negative position counts from the end, a
position outside the string removes nothing (qstring.cpp, Qt 5). -/
def removeAt1 (s : Str) (pos : Int) : Str :=
  let p := if pos < 0 then pos + s.length else pos
  if p < 0 ∨ (s.length : Int) ≤ p then s else s.eraseIdx p.toNat

end Jom
