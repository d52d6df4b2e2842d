import Verif.QtStr

/-! Model of `src/jomlib/helperfunctions.{h,cpp}`. -/

namespace Jom

/-- `isSpaceOrTab` (helperfunctions.h 42-45). -/
def isSpaceOrTab (c : Char) : Bool := c == ' ' || c == '\t'

/-- `startsWithSpaceOrTab` (helperfunctions.h 47-51). -/
def startsWithSpaceOrTab : Str → Bool
  | [] => false
  | c :: _ => isSpaceOrTab c

/-- `QString::lastIndexOf(QChar)`. -/
def lastIndexOf? (c : Char) : Str → Option Nat
  | [] => none
  | d :: s => match lastIndexOf? c s with
    | some i => some (i + 1)
    | none => if d == c then some 0 else none

/-- `fileNameFromFilePath` (helperfunctions.h 31-39): the text behind the last `/` or `\`. -/
def fileNameFromFilePath (s : Str) : Str :=
  let i := lastIndexOf? '/' s
  let j := lastIndexOf? '\\' s
  match i, j with
  | none, none => s
  | some a, none => s.drop (a + 1)
  | none, some b => s.drop (b + 1)
  | some a, some b => s.drop (max a b + 1)

/-- `removeDirSeparatorAtEnd` (helperfunctions.h 53-57). -/
def removeDirSeparatorAtEnd (s : Str) : Str :=
  match s.getLast? with
  | some c => if c == '/' || c == '\\' then s.dropLast else s
  | none => s

/-- `removeDoubleQuotes` (helperfunctions.h 59-66).  `chop(1)` and then `remove(0, 1)`: a single `"`
becomes the empty text. -/
def removeDoubleQuotes (s : Str) : Str :=
  if startsWith s ['"'] && endsWith s ['"'] then s.dropLast.drop 1 else s

/-- The loop of `splitCommandLine` (helperfunctions.cpp 39-61): `str`, `escapedQuote`, `insideQuotes`,
`arguments`. -/
def splitCommandLineGo : Str → Str → Bool → Bool → List Str → List Str
  | [], _, _, _, args => args
  | c :: s, str, esc, inside, args =>
    if isSpace c && !inside then
      let t := trimmed str
      if !t.isEmpty then splitCommandLineGo s [] false inside (args ++ [t])
      else splitCommandLineGo s t false inside args
    else if c == '"' then
      if esc then splitCommandLineGo s (str ++ ['"']) false (!inside) args
      else splitCommandLineGo s str true (!inside) args
    else splitCommandLineGo s (str ++ [c]) false inside args

/-- `splitCommandLine` (helperfunctions.cpp 32-63). -/
def splitCommandLine (s : Str) : List Str := splitCommandLineGo (s ++ [' ']) [] false false []

end Jom
