/-
Character classes of `pylib/uxml/parser.py` (lines 32-73).

A Python `str` is modelled by `Str = List Char`.  Simplification: a Lean `Char`
is a Unicode scalar value, so strings with lone surrogates are not represented
(every class below excludes surrogates, so such a character behaves like any
other disallowed character).  The value of a numeric character reference is a
`Nat`, so references to surrogates and to values beyond U+10FFFF are modelled.
-/
namespace Amara

/-- A Python string (see the note above). -/
abbrev Str := List Char

/-- Membership in a regular-expression character class given as code point
ranges; models `PATTERN.match(c)` for the one-character classes of
`uxml/parser.py` 34-70. -/
def inRanges (rs : List (Nat × Nat)) (n : Nat) : Bool :=
  rs.any fun r => decide (r.1 ≤ n) && decide (n ≤ r.2)

/-- The ranges above U+00A0 shared by CHARACTER, DATACHAR and the two
ATTRIBVALCHAR classes (`uxml/parser.py` 34-37, 40-43, 54-57, 60-63). -/
def highRanges : List (Nat × Nat) :=
  [(0xA0, 0xD7FF), (0xE000, 0xFDCF), (0xFDF0, 0xFFFD),
   (0x10000, 0x1FFFD), (0x20000, 0x2FFFD), (0x30000, 0x3FFFD), (0x40000, 0x4FFFD),
   (0x50000, 0x5FFFD), (0x60000, 0x6FFFD), (0x70000, 0x7FFFD), (0x80000, 0x8FFFD),
   (0x90000, 0x9FFFD), (0xA0000, 0xAFFFD), (0xB0000, 0xBFFFD), (0xC0000, 0xCFFFD),
   (0xD0000, 0xDFFFD), (0xE0000, 0xEFFFD), (0xF0000, 0xFFFFD), (0x100000, 0x10FFFD)]

/-- CHARACTER, `uxml/parser.py` 34-37 (on code points). -/
def isCharacterN (n : Nat) : Bool :=
  inRanges ((0x9, 0x9) :: (0xA, 0xA) :: (0x20, 0x7E) :: highRanges) n

/-- CHARACTER, `uxml/parser.py` 34-37. -/
def isCharacter (c : Char) : Bool := isCharacterN c.toNat

/-- DATACHAR, `uxml/parser.py` 40-43. -/
def isDataChar (c : Char) : Bool :=
  inRanges ((0x9, 0x9) :: (0xA, 0xA) :: (0x20, 0x25) :: (0x27, 0x3B) :: (0x3D, 0x3D) ::
    (0x3F, 0x7E) :: highRanges) c.toNat

/-- NAMESTARTCHAR, `uxml/parser.py` 45-47. -/
def isNameStart (c : Char) : Bool :=
  inRanges [(0x41, 0x5A), (0x61, 0x7A), (0x5F, 0x5F), (0xC0, 0xD6), (0xD8, 0xF6), (0xF8, 0x2FF),
    (0x370, 0x37D), (0x37F, 0x1FFF), (0x200C, 0x200D), (0x2070, 0x218F), (0x2C00, 0x2FEF),
    (0x3001, 0xD7FF), (0xF900, 0xFDCF), (0xFDF0, 0xFFFD), (0x10000, 0xEFFFF)] c.toNat

/-- NAMECHAR, `uxml/parser.py` 49-51.  The source writes `·-À-Ö`
inside the brackets: Python's `re` reads this as the range B7-C0, a literal '-'
(2D) and the single character D6.  Full stop is not in the class. -/
def isNameChar (c : Char) : Bool :=
  inRanges [(0x30, 0x39), (0x41, 0x5A), (0x61, 0x7A), (0x5F, 0x5F), (0xB7, 0xC0), (0x2D, 0x2D),
    (0xD6, 0xD6), (0xD8, 0xF6), (0xF8, 0x37D), (0x37F, 0x1FFF), (0x200C, 0x200D), (0x203F, 0x2040),
    (0x2070, 0x218F), (0x2C00, 0x2FEF), (0x3001, 0xD7FF), (0xF900, 0xFDCF), (0xFDF0, 0xFFFD),
    (0x10000, 0xEFFFF)] c.toNat

/-- ATTRIBVALCHAR_SGL, `uxml/parser.py` 54-57. -/
def isAttrCharSgl (c : Char) : Bool :=
  inRanges ((0x20, 0x25) :: (0x28, 0x3B) :: (0x3D, 0x3D) :: (0x3F, 0x7E) :: highRanges) c.toNat

/-- ATTRIBVALCHAR_DBL, `uxml/parser.py` 60-63 (the `\\` before `#` escapes the '#'). -/
def isAttrCharDbl (c : Char) : Bool :=
  inRanges ((0x20, 0x21) :: (0x23, 0x25) :: (0x27, 0x3B) :: (0x3D, 0x3D) :: (0x3F, 0x7E) ::
    highRanges) c.toNat

/-- HEXCHARENTOK, `uxml/parser.py` 69. -/
def isHexDigit (c : Char) : Bool :=
  inRanges [(0x61, 0x66), (0x41, 0x46), (0x30, 0x39)] c.toNat

/-- NAMEDCHARENTOK, `uxml/parser.py` 70. -/
def isNamedRefChar (c : Char) : Bool :=
  inRanges [(0x61, 0x7A), (0x41, 0x5A), (0x30, 0x39)] c.toNat

/-- The characters of the literal `' \r\n\t'`, `uxml/parser.py` 168, 186, 215, 266, 317. -/
def isWs (c : Char) : Bool := c == ' ' || c == '\r' || c == '\n' || c == '\t'

/-- CHARNAMES with the lookup loop, `uxml/parser.py` 72 and 118-124. -/
def charName (s : Str) : Option Char :=
  if s = ['l', 't'] then some '<'
  else if s = ['g', 't'] then some '>'
  else if s = ['a', 'm', 'p'] then some '&'
  else if s = ['q', 'u', 'o', 't'] then some '"'
  else if s = ['a', 'p', 'o', 's'] then some '\''
  else none

/-- The value of one hexadecimal digit, part of `int(..., 16)`, `uxml/parser.py` 105. -/
def hexVal (c : Char) : Nat :=
  if c.toNat ≤ 0x39 then c.toNat - 0x30
  else if c.toNat ≤ 0x46 then c.toNat - 0x41 + 10
  else c.toNat - 0x61 + 10

/-- `int(digits, 16)` on a non-empty string of hexadecimal digits, `uxml/parser.py` 105. -/
def hexNum (s : Str) : Nat := s.foldl (fun n c => n * 16 + hexVal c) 0

end Amara
