import Verif.Model.Reader

/-! The bytes of a makefile: detection of the encoding, decoding and the conversion of line ends
(`MakefileLineReader::open`, makefilelinereader.cpp 46-70, and the 8-bit reader on a device in text mode).

What Qt does is taken from its sources and documentation and is part of the trusted base: in text mode
`QIODevice::readLine` replaces a `\r\n` at the end of what this call has read by `\n`; `QTextStream` on a device in text
mode drops every `\r`; the codecs skip the byte order mark.  Only lines outside inline files are read here. -/

namespace Jom.Enc

open Jom Jom.Rdr

/-- Bytes, numbers below 256. -/
abbrev Bytes := List Nat

/-- `FileEncoding`: makefilelinereader.cpp 52. -/
inductive Encoding where
  | latin1 | utf8 | utf16
deriving DecidableEq, Repr

/-- The look at the first three bytes: makefilelinereader.cpp 53-58. -/
def detect (b : Bytes) : Encoding :=
  if List.isPrefixOf [0xFF, 0xFE] (b.take 3) then .utf16
  else if List.isPrefixOf [0xEF, 0xBB, 0xBF] (b.take 3) then .utf8
  else .latin1

/-- `QString::fromLatin1` (makefilelinereader.cpp 155): a byte is the character with this number. -/
def fromLatin1 (b : Bytes) : Str := b.map Char.ofNat

/-- U+FFFD, the character for bytes that are no UTF-8 or UTF-16. -/
def replacement : Char := Char.ofNat 0xFFFD

/-- A continuation byte of UTF-8. -/
def isCont (x : Nat) : Bool := 0x80 ≤ x && x < 0xC0

/-- A number that is a character of three or four bytes. -/
def isScalar (n : Nat) : Bool := n < 0xD800 || (0xE000 ≤ n && n < 0x110000)

/-- One character of the codec "UTF-8" (makefilelinereader.cpp 64). -/
def utf8One (b : Nat) (bs : Bytes) : Char × Bytes :=
  if b < 0x80 then (Char.ofNat b, bs)
  else if b < 0xC2 then (replacement, bs)
  else if b < 0xE0 then
    match bs with
    | x :: r => if isCont x then (Char.ofNat ((b - 0xC0) * 64 + (x - 0x80)), r) else (replacement, bs)
    | _ => (replacement, bs)
  else if b < 0xF0 then
    match bs with
    | x :: y :: r =>
      let n := (b - 0xE0) * 4096 + (x - 0x80) * 64 + (y - 0x80)
      if isCont x && isCont y && 0x800 ≤ n && isScalar n then (Char.ofNat n, r) else (replacement, bs)
    | _ => (replacement, bs)
  else if b < 0xF5 then
    match bs with
    | x :: y :: z :: r =>
      let n := (b - 0xF0) * 262144 + (x - 0x80) * 4096 + (y - 0x80) * 64 + (z - 0x80)
      if isCont x && isCont y && isCont z && 0x10000 ≤ n && isScalar n then (Char.ofNat n, r) else (replacement, bs)
    | _ => (replacement, bs)
  else (replacement, bs)

/-- The codec "UTF-8".  Fuel: every round takes a byte. -/
def utf8Decode : Nat → Bytes → Str
  | 0, _ => []
  | _ + 1, [] => []
  | f + 1, b :: bs => (utf8One b bs).1 :: utf8Decode f (utf8One b bs).2

/-- The codec "UTF-16" (makefilelinereader.cpp 64) behind the byte order mark `FF FE`: pairs of bytes, the lower one
first.  Fuel: every round takes a byte. -/
def utf16Decode : Nat → Bytes → Str
  | 0, _ => []
  | f + 1, a :: b :: bs =>
    let u := a + b * 256
    if u < 0xD800 ∨ 0xE000 ≤ u then Char.ofNat u :: utf16Decode f bs
    else if 0xDC00 ≤ u then replacement :: utf16Decode f bs
    else
      match bs with
      | c :: d :: r =>
        let v := c + d * 256
        if 0xDC00 ≤ v ∧ v < 0xE000 then
          Char.ofNat (0x10000 + (u - 0xD800) * 1024 + (v - 0xDC00)) :: utf16Decode f r
        else replacement :: utf16Decode f bs
      | _ => replacement :: utf16Decode f bs
  | _ + 1, _ => []

/-- `QTextStream` on a device in text mode. -/
def dropCR (s : Str) : Str := s.filter (· != '\r')

/-- The end of what `QIODevice::readLine` has read, in text mode. -/
def convert (s : Str) : Str := if endsWith s ['\r', '\n'] then s.take (s.length - 2) ++ ['\n'] else s

/-- The inner loop (makefilelinereader.cpp 114-130) on a device in text mode; see `fillLine`. -/
def fillText : Nat → Nat → Str → Str → Except ReadFault (Nat × Str × Str)
  | 0, size, buf, rest => .ok (size, buf, rest)
  | f + 1, size, buf, rest =>
    if buf.getLast? == some '\n' then .ok (size, buf, rest)
    else if rest.isEmpty then
      let size := if buf.length ≥ size - 2 then size + 1 else size
      .ok (size, buf ++ ['\x00'], rest)
    else
      let size := size + bufferGrowSize
      let r := devReadLine (size - 1 - buf.length - 1) rest
      if size < buf.length + r.1.length + 1 then .error .outOfBounds
      else if r.1.isEmpty then .ok (size, buf, r.2)
      else fillText f size (buf ++ convert r.1) r.2

/-- The loop makefilelinereader.cpp 107-132 with `m_nLineNumber` on a device in text mode; see `nextPhysicalN`. -/
def nextText : Nat → Rd → Nat → Except ReadFault (Option Str × Rd × Nat)
  | 0, st, n => .ok (none, st, n)
  | f + 1, st, n =>
    let r := devReadLine (st.size - 1 - 1) st.rest
    if st.size < r.1.length + 1 then .error .outOfBounds
    else if r.1.isEmpty then .ok (none, { st with rest := r.2 }, n + 1)
    else
      match fillText (r.2.length + 1) st.size (convert r.1) r.2 with
      | .error e => .error e
      | .ok (size, buf, rest) =>
        if buf[0]? == some '#' then nextText f { rest := rest, size := size } (n + 1)
        else .ok (some buf, { rest := rest, size := size }, n + 1)

/-- At most `i` lines of an 8-bit file with their numbers, as in `Reader.reads`. -/
def readsText : Nat → Rd → Nat → Except ReadFault (List (MLine × Nat))
  | 0, _, _ => .ok []
  | i + 1, st, n =>
    match nextText (st.rest.length + 1) st n with
    | .error e => .error e
    | .ok (none, _, _) => .ok []
    | .ok (some buf, st, n) =>
      if st.size ≤ buf.length then .error .outOfBounds
      else match readsText i st n with
        | .error e => .error e
        | .ok ls => .ok ((decode8 buf, n) :: ls)

/-- At most `i` lines of a file with their numbers: makefilelinereader.cpp 46-70 and 91-189. -/
def readsBytes (k : Str → Nat) (i : Nat) (b : Bytes) : Except ReadFault (List (MLine × Nat)) :=
  match detect b with
  | .latin1 => readsText i { rest := fromLatin1 b, size := initialBufferSize } 0
  | .utf8 => (openReader [] true (dropCR (utf8Decode b.length (b.drop 3)))).reads k (List.replicate i false)
  | .utf16 => (openReader [] true (dropCR (utf16Decode b.length (b.drop 2)))).reads k (List.replicate i false)

end Jom.Enc
