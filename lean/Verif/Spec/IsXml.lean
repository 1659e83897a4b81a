/-
What `isxml` is to decide, in terms of encoders only: no decoder occurs here.
-/
import Verif.Model.Chars

namespace Amara

/-- White space of XML. -/
def XmlSpace : Char → Prop := fun c => c ∈ [' ', '\t', '\n', '\r']

/-- The first character that is not white space is '<'. -/
def StartsWithTag (s : Str) : Prop :=
  ∃ ws rest, s = ws ++ '<' :: rest ∧ ∀ c ∈ ws, XmlSpace c

/-- UTF-8, from the core library's encoder of one character. -/
def utf8 (s : Str) : List UInt8 := s.flatMap String.utf8EncodeChar

/-- A 16-bit number as two bytes. -/
def bytes16 (le : Bool) (n : Nat) : List UInt8 :=
  if le then [UInt8.ofNat (n % 256), UInt8.ofNat (n / 256)]
  else [UInt8.ofNat (n / 256), UInt8.ofNat (n % 256)]

/-- UTF-16 of one character: one unit, or a surrogate pair. -/
def utf16Char (le : Bool) (c : Char) : List UInt8 :=
  if c.toNat < 0x10000 then bytes16 le c.toNat
  else bytes16 le (0xD800 + (c.toNat - 0x10000) / 1024)
    ++ bytes16 le (0xDC00 + (c.toNat - 0x10000) % 1024)

/-- UTF-16 in the given byte order, without byte order mark. -/
def utf16 (le : Bool) (s : Str) : List UInt8 := s.flatMap (utf16Char le)

/-- UTF-32 of one character. -/
def utf32Char (le : Bool) (c : Char) : List UInt8 :=
  let b := [UInt8.ofNat (c.toNat / 0x1000000), UInt8.ofNat (c.toNat / 0x10000 % 256),
    UInt8.ofNat (c.toNat / 256 % 256), UInt8.ofNat (c.toNat % 256)]
  if le then b.reverse else b

/-- UTF-32 in the given byte order, without byte order mark. -/
def utf32 (le : Bool) (s : Str) : List UInt8 := s.flatMap (utf32Char le)

/-- The byte string begins with '<?' in UTF-16, '<?xm' in ASCII or EBCDIC, or '<' in one of the
four byte orders of UCS-4. -/
def HasSignature (bs : List UInt8) : Prop :=
  ∃ sig ∈ ([[0x3C, 0x3F, 0x78, 0x6D],
            [0x00, 0x3C, 0x00, 0x3F], [0x3C, 0x00, 0x3F, 0x00],
            [0x4C, 0x6F, 0xA7, 0x94],
            [0x00, 0x00, 0x00, 0x3C], [0x3C, 0x00, 0x00, 0x00],
            [0x00, 0x00, 0x3C, 0x00], [0x00, 0x3C, 0x00, 0x00]] : List (List UInt8)), sig <+: bs

/-- `bs` is the text `s` in UTF-8 (with or without byte order mark), or in UTF-16 or UTF-32 with
the byte order mark that announces it. -/
inductive Encodes (s : Str) : List UInt8 → Prop
  | plain : Encodes s (utf8 s)
  | bom8 : Encodes s ([0xEF, 0xBB, 0xBF] ++ utf8 s)
  | bom16be : Encodes s ([0xFE, 0xFF] ++ utf16 false s)
  | bom16le : Encodes s ([0xFF, 0xFE] ++ utf16 true s)
  | bom32be : Encodes s ([0x00, 0x00, 0xFE, 0xFF] ++ utf32 false s)
  | bom32le : Encodes s ([0xFF, 0xFE, 0x00, 0x00] ++ utf32 true s)

end Amara
