import Verif.Model.LineReader
import Verif.Model.Preprocessor

/-! The whole `MakefileLineReader` (`src/jomlib/makefilelinereader.{h,cpp}`): both encodings, both modes and line
numbers, and the positions that `Preprocessor` and `FileException` make of them.

Characters stand for bytes: the decoding of UTF-8 and UTF-16 and the conversion of `\r\n` are not modelled, and neither
is the detection of the encoding (makefilelinereader.cpp 52-65). -/

namespace Jom.Rdr

/-- `MakefileLineReader` (makefilelinereader.h 52-79). `unicode`: the choice made by `open`
(makefilelinereader.cpp 60-67); `buf`: what `m_textStream` has taken out of `m_file` and not delivered yet; `dev`: what
`m_file` still has. -/
structure Reader where
  name : Str
  unicode : Bool
  buf : Str
  dev : Str
  size : Nat
  line : Nat
deriving DecidableEq, Repr

/-- Constructor and `open`: makefilelinereader.cpp 32-38, 46-70. -/
def openReader (name : Str) (unicode : Bool) (text : Str) : Reader :=
  { name := name, unicode := unicode, buf := [], dev := text, size := initialBufferSize, line := 0 }

/-- The loop makefilelinereader.cpp 107-132 with `m_nLineNumber`. Fuel as in `nextPhysical`. -/
def nextPhysicalN : Nat → Rd → Nat → Except ReadFault (Option Str × Rd × Nat)
  | 0, st, n => .ok (none, st, n)
  | f + 1, st, n =>
    let r := devReadLine (st.size - 1 - 1) st.rest
    if st.size < r.1.length + 1 then .error .outOfBounds
    else if r.1.isEmpty then .ok (none, { st with rest := r.2 }, n + 1)
    else
      match fillLine (r.2.length + 1) st.size r.1 r.2 with
      | .error e => .error e
      | .ok (size, buf, rest) =>
        if buf[0]? == some '#' then nextPhysicalN f { rest := rest, size := size } (n + 1)
        else .ok (some buf, { rest := rest, size := size }, n + 1)

/-- `QTextStream::readLine`: the stream takes pieces out of the device until it has a newline or the device is at its
end. `k` is the size of a piece (16384 bytes in Qt, fewer characters when they take several bytes). Fuel: every round
takes a character. -/
def streamLine (k : Str → Nat) : Nat → Str → Str → Option Str × Str × Str
  | 0, buf, dev => (none, buf, dev)
  | f + 1, buf, dev =>
    if '\n' ∈ buf then ((tsReadLine buf).1, (tsReadLine buf).2, dev)
    else if dev.isEmpty then ((tsReadLine buf).1, (tsReadLine buf).2, dev)
    else streamLine k f (buf ++ dev.take (k dev)) (dev.drop (k dev))

/-- `readLine_impl_unicode` (makefilelinereader.cpp 163-189) with `m_nLineNumber`. Fuel: every round reads a line. -/
def unicodeLine (k : Str → Nat) : Nat → Str → Str → Nat → MLine × Str × Str × Nat
  | 0, buf, dev, n => ({}, buf, dev, n)
  | f + 1, buf, dev, n =>
    match streamLine k (dev.length + 1) buf dev with
    | (none, buf, dev) => ({}, buf, dev, n + 1)
    | (some str, buf, dev) =>
      if startsWith str ['#'] then unicodeLine k f buf dev (n + 1) else (decodeU str, buf, dev, n + 1)

/-- `MakefileLineReader::readLine` (makefilelinereader.cpp 91-99). In inline file mode the line comes from `m_file`,
whatever the encoding is. -/
def Reader.readLine (k : Str → Nat) (inline : Bool) (r : Reader) : Except ReadFault (MLine × Reader) :=
  if inline then
    .ok ({ content := if r.dev.isEmpty then none else some (devReadLine r.dev.length r.dev).1 },
      { r with dev := (devReadLine r.dev.length r.dev).2, line := r.line + 1 })
  else if r.unicode then
    let u := unicodeLine k (r.buf.length + r.dev.length + 1) r.buf r.dev r.line
    .ok (u.1, { r with buf := u.2.1, dev := u.2.2.1, line := u.2.2.2 })
  else
    match nextPhysicalN (r.dev.length + 1) { rest := r.dev, size := r.size } r.line with
    | .error e => .error e
    | .ok (none, st, n) => .ok ({}, { r with dev := st.rest, size := st.size, line := n })
    | .ok (some buf, st, n) =>
      if st.size ≤ buf.length then .error .outOfBounds
      else .ok (decode8 buf, { r with dev := st.rest, size := st.size, line := n })

/-- The lines that successive calls return, each with the line number the reader has then; the null line ends it, since
`basicReadLine` deletes the reader (preprocessor.cpp 147-150). -/
def Reader.reads (k : Str → Nat) : List Bool → Reader → Except ReadFault (List (MLine × Nat))
  | [], _ => .ok []
  | inline :: is, r =>
    match r.readLine k inline with
    | .error e => .error e
    | .ok (m, r) =>
      if m.content.isNone then .ok []
      else match reads k is r with
        | .error e => .error e
        | .ok ls => .ok ((m, r.line) :: ls)

/-! ### The stack of files -/

/-- `basicReadLine` without lines put back: preprocessor.cpp 144-155. -/
def readStack (k : Str → Nat) (inline : Bool) : List Reader → Except ReadFault (MLine × List Reader)
  | [] => .ok ({}, [])
  | r :: rs =>
    match r.readLine k inline with
    | .error e => .error e
    | .ok (m, r) => if m.content.isNone then readStack k inline rs else .ok (m, r :: rs)

/-- `lineNumber`: preprocessor.cpp 125-130. -/
def lineNumber : List Reader → Nat
  | [] => 0
  | r :: _ => r.line

/-- `currentFileName`: preprocessor.cpp 132-137. -/
def currentFileName : List Reader → Str
  | [] => []
  | r :: _ => r.name

/-- Decimal digits, as `QString::arg(int)` writes them. -/
def decimal (n : Nat) : Str := Nat.toDigits 10 n

/-- `FileException::toString`: exception.cpp 49-66. -/
def fileMessage (message fileName : Str) (line : Nat) : Str :=
  message ++
    (if fileName.isEmpty then [] else c!" in " ++ (fileName.map fun c => if c == '/' then '\\' else c) ++ c!" ") ++
    (if 0 < line then c!"line " ++ decimal line else [])

/-- What a call of `Preprocessor::error` or `Parser::error` shows: preprocessor.cpp 495-498, parser.cpp 756-759,
makefilefactory.cpp 168-170. -/
def errorText (message : Str) (stack : List Reader) : Str :=
  fileMessage message (currentFileName stack) (lineNumber stack)

end Jom.Rdr
