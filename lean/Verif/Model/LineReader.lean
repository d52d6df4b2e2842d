import Verif.QtStr

/-! Model of `src/jomlib/makefilelinereader.{h,cpp}`.

The file is a sequence of characters after the text-mode conversion of `\r\n` and after decoding; I/O
errors are not modelled.  Line numbers are not modelled. -/

namespace Jom

/-- `LineContinuationType` (makefilelinereader.h 34-39). -/
inductive Cont where
  | none | backslash | caret
deriving DecidableEq, Repr

/-- `MakefileLine` (makefilelinereader.h 41-45); content `none` is a null string. -/
structure MLine where
  content : Option Str := Option.none
  cont : Cont := .none
deriving DecidableEq, Repr

/-- An access outside the line buffer. -/
inductive ReadFault where
  | outOfBounds
deriving DecidableEq, Repr

/-- Reader state: unread text and `m_nLineBufferSize`. -/
structure Rd where
  rest : Str
  size : Nat
deriving DecidableEq, Repr

/-- `m_nInitialLineBufferSize` (makefilelinereader.h 74). -/
def initialBufferSize : Nat := 6144

/-- `m_nLineBufferGrowSize` (makefilelinereader.h 75). -/
def bufferGrowSize : Nat := 1024

/-- `QIODevice::readLine(data, n + 1)`: at most `n` characters, up to and including a newline. -/
def devReadLine : Nat → Str → Str × Str
  | 0, s => ([], s)
  | _ + 1, [] => ([], [])
  | n + 1, c :: s => if c == '\n' then ([c], s) else ((c :: (devReadLine n s).1), (devReadLine n s).2)

/-- The inner loop (makefilelinereader.cpp 114-130): `buf` holds the `bytesRead` characters read so far.
`QIODevice::readLine` writes a terminating NUL behind the data, which must fit as well.
Fuel: every round reads a character. -/
def fillLine : Nat → Nat → Str → Str → Except ReadFault (Nat × Str × Str)
  | 0, size, buf, rest => .ok (size, buf, rest)
  | f + 1, size, buf, rest =>
    if buf.getLast? == some '\n' then .ok (size, buf, rest)
    else if rest.isEmpty then
      let size := if buf.length ≥ size - 2 then size + 1 else size
      .ok (size, buf ++ ['\x00'], rest)
    else
      let size := size + bufferGrowSize
      let r := devReadLine (size - 1 - buf.length - 1) rest
      if size < buf.length + r.1.length + 1 then .error .outOfBounds
      else if r.1.isEmpty then .ok (size, buf, r.2)
      else fillLine f size (buf ++ r.1) r.2

/-- The do-while loop (makefilelinereader.cpp 107-132): the buffer content, `none` at the end of the
file.  Fuel: every round reads a character. -/
def nextPhysical : Nat → Rd → Except ReadFault (Option Str × Rd)
  | 0, st => .ok (none, st)
  | f + 1, st =>
    let r := devReadLine (st.size - 1 - 1) st.rest
    if st.size < r.1.length + 1 then .error .outOfBounds
    else if r.1.isEmpty then .ok (none, { st with rest := r.2 })
    else
      match fillLine (r.2.length + 1) st.size r.1 r.2 with
      | .error e => .error e
      | .ok (size, buf, rest) =>
        if buf[0]? == some '#' then nextPhysical f { rest := rest, size := size }
        else .ok (some buf, { rest := rest, size := size })

/-- Treatment of the line end (makefilelinereader.cpp 135-156) of a buffer whose last character is the
(real or imitated) newline. -/
def decode8 (buf : Str) : MLine :=
  let n := buf.length
  if 2 ≤ n ∧ buf[n - 2]? = some '\\' then
    if 3 ≤ n ∧ buf[n - 3]? = some '^' then { content := some ((buf.set (n - 3) '\\').take (n - 2)) }
    else if 3 ≤ n ∧ buf[n - 3]? = some '\\' then { content := some (buf.take (n - 1)) }
    else { content := some (buf.take (n - 2)), cont := .backslash }
  else if 2 ≤ n ∧ buf[n - 2]? = some '^' then { content := some (buf.take (n - 2)), cont := .caret }
  else { content := some (buf.take (n - 1)) }

/-- `MakefileLineReader::readLine_impl_local8bit` (makefilelinereader.cpp 104-157). -/
def readLine8 (st : Rd) : Except ReadFault (MLine × Rd) :=
  match nextPhysical (st.rest.length + 1) st with
  | .error e => .error e
  | .ok (none, st) => .ok ({}, st)
  | .ok (some buf, st) =>
    -- m_lineBuffer[bytesRead] = '\0'
    if st.size ≤ buf.length then .error .outOfBounds
    else .ok (decode8 buf, st)

/-- `QTextStream::readLine`: the text before the next newline; null at the end. -/
def tsReadLine : Str → Option Str × Str
  | [] => (none, [])
  | c :: s =>
    if c == '\n' then (some [], s)
    else (some (c :: ((tsReadLine s).1.getD [])), (tsReadLine s).2)

/-- Treatment of the line end in the Unicode reader (makefilelinereader.cpp 175-187). -/
def decodeU (str : Str) : MLine :=
  if endsWith str ['^', '\\'] then { content := some (str.eraseIdx (str.length - 2)) }
  else if endsWith str ['\\', '\\'] then { content := some str }
  else if endsWith str ['\\'] then { content := some str.dropLast, cont := .backslash }
  else if endsWith str ['^'] then { content := some str.dropLast, cont := .caret }
  else { content := some str }

/-- `MakefileLineReader::readLine_impl_unicode` (makefilelinereader.cpp 163-189).  Fuel: every round reads
a character. -/
def readLineUF : Nat → Str → MLine × Str
  | 0, rest => ({}, rest)
  | f + 1, rest =>
    match tsReadLine rest with
    | (none, rest) => ({}, rest)
    | (some str, rest) => if startsWith str ['#'] then readLineUF f rest else (decodeU str, rest)

def readLineU (rest : Str) : MLine × Str := readLineUF (rest.length + 1) rest

/-- Reading until the null line, as `Preprocessor::basicReadLine` (preprocessor.cpp 139-156) does. -/
def readAll8F : Nat → Rd → Except ReadFault (List MLine)
  | 0, _ => .ok []
  | f + 1, st =>
    match readLine8 st with
    | .error e => .error e
    | .ok (l, st) =>
      if l.content.isNone then .ok []
      else match readAll8F f st with
        | .error e => .error e
        | .ok ls => .ok (l :: ls)

/-- All lines the 8-bit reader delivers for a file. -/
def readAll8 (file : Str) : Except ReadFault (List MLine) :=
  readAll8F (file.length + 1) { rest := file, size := initialBufferSize }

def readAllUF : Nat → Str → List MLine
  | 0, _ => []
  | f + 1, rest =>
    if (readLineU rest).1.content.isNone then []
    else (readLineU rest).1 :: readAllUF f (readLineU rest).2

/-- All lines the Unicode reader delivers for a file. -/
def readAllU (file : Str) : List MLine := readAllUF (file.length + 1) file

end Jom
