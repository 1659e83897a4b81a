import Verif.Spec.MicroXml
/-
Specification: is the end of a piece of text inside a quoted attribute value?  A reading of the text
character by character that knows only tags, '=', quotes and references.
-/
namespace Amara

/-- Where the reader is: outside tags, inside a tag, just after an '=' in a tag, inside a value
opened by quote `q` (in plain characters, just after '&', just after '&#', further inside a
reference, or after a malformed reference, which never ends). -/
inductive Scan where
  | out
  | tag
  | eq
  | val (q : Char)
  | amp (q : Char)
  | hash (q : Char)
  | ref (q : Char)
  | lost
deriving DecidableEq, Repr

/-- One character. -/
def Scan.next : Scan → Char → Scan
  | .out, c => if c = '<' then .tag else .out
  | .tag, c => if c = '>' then .out else if c = '=' then .eq else .tag
  | .eq, c => if c = '"' ∨ c = '\'' then .val c else .tag
  | .val q, c => if c = q then .tag else if c = '&' then .amp q else .val q
  | .amp q, c => if c = '#' then .hash q else if c.isAlphanum then .ref q else .lost
  | .hash q, c => if c = 'x' then .ref q else .lost
  | .ref q, c => if c = ';' then .val q else if c.isAlphanum then .ref q else .lost
  | .lost, _ => .lost

/-- Is it inside a quoted value? -/
def Scan.inside : Scan → Bool
  | .out => false
  | .tag => false
  | .eq => false
  | _ => true

/-- The text ends inside a quoted attribute value. -/
def endsInValue (w : Str) : Bool := (w.foldl Scan.next .out).inside

end Amara
