import Verif.Model.IsXml
/-
`isxml` of clib/xmlstring.c as C: every read of memory is checked, and references are counted.

Simplifications: `PyArg_ParseTuple` and `PyUnicode_Decode` as in Model/IsXml; `PyUnicode_Decode` returns an object with
one reference or NULL; the buffer behind `PyUnicode_AS_UNICODE` has the characters and a NUL after them, one `Py_UNICODE`
each (`wchar_t` has 32 bits); `int` is long enough for the length.
-/
namespace Amara.C

/-- What must not happen. -/
inductive Fault where
  | outside   -- memory outside a buffer is read
  | freed     -- an object without references is used
  | endless   -- the loop takes more steps than the buffer has places

/-- The objects the function owns references to: the decoded characters and the references given to it, and the
references to `Py_True` or `Py_False` it has made. -/
structure Mem where
  chars : Str
  charRefs : Nat
  resultRefs : Nat

/-- `str[i]`. (clib/xmlstring.c:60-63) -/
def readByte (bs : Bytes) (i : Nat) : Except Fault UInt8 :=
  match bs[i]? with
  | some b => .ok b
  | none => .error .outside

/-- `*p`, with `p` at place `i` of the buffer of `characters`. (clib/xmlstring.c:116, 121) -/
def readChar (m : Mem) (i : Nat) : Except Fault Nat :=
  if m.charRefs = 0 then .error .freed
  else match m.chars[i]? with
    | some c => .ok c.toNat
    | none => if i = m.chars.length then .ok 0 else .error .outside

/-- `Py_DECREF(characters)`. (clib/xmlstring.c:122) -/
def decref (m : Mem) : Except Fault Mem :=
  match m.charRefs with
  | 0 => .error .freed
  | n + 1 => .ok { m with charRefs := n }

/-- `Py_INCREF(result)`, also in `Py_RETURN_TRUE`. (clib/xmlstring.c:73, 125) -/
def incref (m : Mem) : Mem := { m with resultRefs := m.resultRefs + 1 }

/-- `IS_XMLSPACE(c)`. (clib/xmlstring.c:31-34) -/
def isSpace (c : Nat) : Bool := c == 0x09 || c == 0x0A || c == 0x0D || c == 0x20

/-- `while (IS_XMLSPACE(*p)) p++;` (clib/xmlstring.c:116) -/
def skip (m : Mem) : Nat → Nat → Except Fault Nat
  | 0, _ => .error .endless
  | n + 1, p => match readChar m p with
    | .error f => .error f
    | .ok c => if isSpace c then skip m n (p + 1) else .ok p

/-- How `str`, `len` and `encoding` are left, or the return at once. (clib/xmlstring.c:59-105) -/
inductive Choice where
  | yes
  | decode (str len : Nat) (encoding : Bytes → Option Str)

/-- The number in `ch`. (clib/xmlstring.c:60-63) -/
def word (a b c d : UInt8) : Nat := a.toNat <<< 24 ||| b.toNat <<< 16 ||| c.toNat <<< 8 ||| d.toNat

/-- The two `switch` statements. (clib/xmlstring.c:64-100) -/
def choose (ch len : Nat) : Choice :=
  if ch = 0x3C3F786D ∨ ch = 0x003C003F ∨ ch = 0x3C003F00 ∨ ch = 0x4C6FA794 ∨ ch = 0x0000003C ∨ ch = 0x3C000000 ∨
      ch = 0x00003C00 ∨ ch = 0x003C0000 then .yes
  else if ch = 0x0000FEFF ∨ ch = 0xFFFE0000 ∨ ch = 0x0000FFFE ∨ ch = 0xFEFF0000 then .decode 0 len decodeUtf32
  else if ch &&& 0xFFFFFF00 = 0xEFBBBF00 then .decode 3 (len - 3) decodeUtf8
  else if ch >>> 16 = 0xFEFF ∨ ch >>> 16 = 0xFFFE then .decode 0 len decodeUtf16
  else .decode 0 len decodeUtf8

/-- The bytes from `str`, `len` of them. (clib/xmlstring.c:107) -/
def range (bs : Bytes) (str len : Nat) : Except Fault Bytes :=
  if str + len ≤ bs.length then .ok ((bs.drop str).take len) else .error .outside

/-- The reads of the first four bytes. (clib/xmlstring.c:58-105) -/
def detect (bs : Bytes) : Except Fault Choice :=
  if 4 ≤ bs.length then do
    let a ← readByte bs 0
    let b ← readByte bs 1
    let c ← readByte bs 2
    let d ← readByte bs 3
    return choose (word a b c d) bs.length
  else .ok (.decode 0 bs.length decodeUtf8)

/-- `string_isxml`: the memory in the end and the result. (clib/xmlstring.c:44-127) -/
def isxml (bs : Bytes) : Except Fault (Mem × Bool) := do
  match ← detect bs with
  | .yes => return (incref ⟨[], 0, 0⟩, true)
  | .decode str len encoding =>
    match encoding (← range bs str len) with
    | none => return (incref ⟨[], 0, 0⟩, false)
    | some cs =>
      let m : Mem := ⟨cs, 1, 0⟩
      let p ← skip m (cs.length + 1) 0
      let c ← readChar m p
      let m ← decref m
      return (incref m, c == '<'.toNat)

end Amara.C
