/-
The byte-string test of clib/xmlstring.c: `isxml`.

Simplifications.  `PyArg_ParseTuple(args, "y#")` (line 55) is taken to deliver the bytes and their
number (up to CPython 3.9, since `PY_SSIZE_T_CLEAN` is not defined the format is refused by 3.10
and later); `PyUnicode_Decode` (line 107) is modelled by the three decoders below, written from the
strict UTF-8, UTF-16 and UTF-32 codecs of CPython on a little-endian machine.
-/
import Verif.Model.Chars

namespace Amara

abbrev Bytes := List UInt8

/-- CPython's "utf-8" codec, strict errors: the byte order mark is not removed.
(clib/xmlstring.c:107) -/
def decodeUtf8 (bs : Bytes) : Option Str := bs.toByteArray.utf8Decode?.map Array.toList

/-- One UTF-16 code unit from two bytes. (codec used at clib/xmlstring.c:107) -/
def unit16 (le : Bool) (a b : UInt8) : Nat :=
  if le then b.toNat * 256 + a.toNat else a.toNat * 256 + b.toNat

/-- UTF-16 without byte order mark: lone surrogates and a trailing odd byte are errors.
(codec used at clib/xmlstring.c:107) -/
def decodeUnits16 (le : Bool) : Bytes → Option Str
  | [] => some []
  | [_] => none
  | a :: b :: rest =>
    if unit16 le a b < 0xD800 ∨ 0xDFFF < unit16 le a b then
      (decodeUnits16 le rest).map (Char.ofNat (unit16 le a b) :: ·)
    else if 0xDC00 ≤ unit16 le a b then none
    else match rest with
      | c :: d :: rest' =>
        if 0xDC00 ≤ unit16 le c d ∧ unit16 le c d ≤ 0xDFFF then
          (decodeUnits16 le rest').map
            (Char.ofNat (0x10000 + (unit16 le a b - 0xD800) * 1024 + (unit16 le c d - 0xDC00)) :: ·)
        else none
      | _ => none

/-- CPython's "utf-16" codec: a byte order mark sets the byte order and is removed.
(codec used at clib/xmlstring.c:95, 107) -/
def decodeUtf16 : Bytes → Option Str
  | 0xFE :: 0xFF :: rest => decodeUnits16 false rest
  | 0xFF :: 0xFE :: rest => decodeUnits16 true rest
  | bs => decodeUnits16 true bs

/-- One UTF-32 code unit from four bytes. (codec used at clib/xmlstring.c:107) -/
def unit32 (le : Bool) (a b c d : UInt8) : Nat :=
  if le then d.toNat * 0x1000000 + c.toNat * 0x10000 + b.toNat * 256 + a.toNat
  else a.toNat * 0x1000000 + b.toNat * 0x10000 + c.toNat * 256 + d.toNat

/-- UTF-32 without byte order mark: surrogates, numbers past 10FFFF and a truncated unit are
errors. (codec used at clib/xmlstring.c:107) -/
def decodeUnits32 (le : Bool) : Bytes → Option Str
  | [] => some []
  | a :: b :: c :: d :: rest =>
    if unit32 le a b c d < 0xD800 ∨ (0xDFFF < unit32 le a b c d ∧ unit32 le a b c d < 0x110000) then
      (decodeUnits32 le rest).map (Char.ofNat (unit32 le a b c d) :: ·)
    else none
  | _ => none

/-- CPython's "utf-32" codec: a byte order mark sets the byte order and is removed.
(codec used at clib/xmlstring.c:82, 107) -/
def decodeUtf32 : Bytes → Option Str
  | 0x00 :: 0x00 :: 0xFE :: 0xFF :: rest => decodeUnits32 false rest
  | 0xFF :: 0xFE :: 0x00 :: 0x00 :: rest => decodeUnits32 true rest
  | bs => decodeUnits32 true bs

/-- The 32-bit number read from the first four bytes. (clib/xmlstring.c:60-63) -/
def headWord (a b c d : UInt8) : Nat :=
  a.toNat * 0x1000000 + b.toNat * 0x10000 + c.toNat * 256 + d.toNat

/-- The cases answered at once. (clib/xmlstring.c:65-72) -/
def signatureWords : List Nat :=
  [0x3C3F786D, 0x003C003F, 0x3C003F00, 0x4C6FA794, 0x0000003C, 0x3C000000, 0x00003C00, 0x003C0000]

/-- The UCS-4 byte order marks. (clib/xmlstring.c:74-77) -/
def bom32Words : List Nat := [0x0000FEFF, 0xFFFE0000, 0x0000FFFE, 0xFEFF0000]

/-- What the first bytes decide: the answer itself, or the characters to look at
(`some none`: decoding fails). (clib/xmlstring.c:59-107) -/
def isxmlChars (bs : Bytes) : Option (Option Str) :=
  match bs with
  | a :: b :: c :: d :: rest =>
    if headWord a b c d ∈ signatureWords then none
    else if headWord a b c d ∈ bom32Words then some (decodeUtf32 bs)
    else if headWord a b c d / 256 = 0xEFBBBF then some (decodeUtf8 (d :: rest))
    else if headWord a b c d / 65536 = 0xFEFF ∨ headWord a b c d / 65536 = 0xFFFE then
      some (decodeUtf16 bs)
    else some (decodeUtf8 bs)
  | _ => some (decodeUtf8 bs)

/-- `IS_XMLSPACE`. (clib/xmlstring.c:31-34) -/
def isXmlSpace (c : Char) : Bool :=
  c.toNat == 0x09 || c.toNat == 0x0A || c.toNat == 0x0D || c.toNat == 0x20

/-- `while (IS_XMLSPACE(*p)) p++; *p == '<'`; the buffer ends in a NUL, which is neither white
space nor '<'. (clib/xmlstring.c:116-121) -/
def firstIsTag : Str → Bool
  | [] => false
  | c :: cs => if isXmlSpace c then firstIsTag cs else c == '<'

/-- `isxml(S)`. (clib/xmlstring.c:44-127) -/
def isxml (bs : Bytes) : Bool :=
  match isxmlChars bs with
  | none => true
  | some none => false
  | some (some cs) => firstIsTag cs

end Amara
