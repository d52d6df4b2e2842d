import Verif.QtStr

/-! How a text can be saved: line ends and encodings. -/

namespace Jom.Spec.Enc

open Jom

/-- `d` is the text with each line ended by `\n` or by `\r\n`. -/
inductive Ended : Str → Str → Prop
  | nil : Ended [] []
  | char {c s d} : c ≠ '\n' → c ≠ '\r' → Ended s d → Ended (c :: s) (c :: d)
  | lf {s d} : Ended s d → Ended ('\n' :: s) ('\n' :: d)
  | crlf {s d} : Ended s d → Ended ('\n' :: s) ('\r' :: '\n' :: d)

/-- A character in UTF-8 (RFC 3629, section 3). -/
def utf8 (c : Char) : List Nat :=
  let n := c.toNat
  if n < 0x80 then [n]
  else if n < 0x800 then [0xC0 + n / 64, 0x80 + n % 64]
  else if n < 0x10000 then [0xE0 + n / 4096, 0x80 + n / 64 % 64, 0x80 + n % 64]
  else [0xF0 + n / 262144, 0x80 + n / 4096 % 64, 0x80 + n / 64 % 64, 0x80 + n % 64]

/-- A unit of UTF-16, the lower byte first. -/
def little (u : Nat) : List Nat := [u % 256, u / 256]

/-- A character in UTF-16 (RFC 2781, section 2.1). -/
def utf16 (c : Char) : List Nat :=
  let n := c.toNat
  if n < 0x10000 then little n
  else little (0xD800 + (n - 0x10000) / 1024) ++ little (0xDC00 + (n - 0x10000) % 1024)

/-- The bytes look like the beginning of a file with a byte order mark. -/
def Marked (b : List Nat) : Prop := [0xFF, 0xFE] <+: b ∨ [0xEF, 0xBB, 0xBF] <+: b

/-- The bytes of a text: Latin-1, or UTF-8 or UTF-16 (lower byte first) with byte order mark. -/
inductive Bytes : Str → List Nat → Prop
  | latin1 {d} : (∀ c ∈ d, c.toNat < 256) → ¬ Marked (d.map Char.toNat) → Bytes d (d.map Char.toNat)
  | utf8 {d} : Bytes d ([0xEF, 0xBB, 0xBF] ++ d.flatMap utf8)
  | utf16 {d} : Bytes d ([0xFF, 0xFE] ++ d.flatMap utf16)

/-- No `\r\n` is cut by the end of the line buffer, which holds 6142, 7166, 8190, ... characters of a line. -/
def Uncut (d : Str) : Prop :=
  ∀ a l b, d = a ++ l ++ '\r' :: '\n' :: b → (a = [] ∨ a.getLast? = some '\n') → '\n' ∉ l →
    ∀ j, l.length + 1 ≠ 6142 + 1024 * j

end Jom.Spec.Enc
