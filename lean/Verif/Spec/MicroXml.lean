import Verif.Model.Node
/-
Specification: what a MicroXML text denotes, independent of the parser.

`IsDoc e w` says that the text `w` is a MicroXML spelling of the element `e`.  It is the MicroXML
grammar (https://dvcs.w3.org/hg/microxml/raw-file/tip/spec/microxml.html) with these differences,
which are those of the library's dialect: no comments, no empty-element tags `<a/>`, no white space
between '=' and the quote, full stop and a few Latin letters are not allowed in names (`NameCode`), no literal
tab or newline in attribute values; and, more liberally, white space is allowed between '<' or '</'
and the name, and an attribute may be repeated.
-/
namespace Amara

/-- Unicode non-characters. -/
def NonCharacter (n : Nat) : Prop := (0xFDD0 ≤ n ∧ n ≤ 0xFDEF) ∨ n % 0x10000 ≥ 0xFFFE

/-- The characters allowed in a MicroXML document (production `char`): tab, newline, printable
ASCII, and everything from U+00A0 up except surrogates and non-characters. -/
def LegalCode (n : Nat) : Prop :=
  n = 0x9 ∨ n = 0xA ∨ (0x20 ≤ n ∧ n ≤ 0x7E) ∨
  (0xA0 ≤ n ∧ n ≤ 0x10FFFF ∧ ¬ (0xD800 ≤ n ∧ n ≤ 0xDFFF) ∧ ¬ NonCharacter n)

instance (n : Nat) : Decidable (LegalCode n) := by unfold LegalCode NonCharacter; infer_instance

/-- A legal character. -/
def Legal (c : Char) : Prop := LegalCode c.toNat

instance (c : Char) : Decidable (Legal c) := by unfold Legal; infer_instance

/-- A character that can stand for itself in text. -/
def TextLit (c : Char) : Prop := Legal c ∧ c ≠ '&' ∧ c ≠ '<' ∧ c ≠ '>'

/-- A character that can stand for itself in an attribute value quoted by `q`. -/
def AttrLit (q c : Char) : Prop :=
  Legal c ∧ c ≠ '&' ∧ c ≠ '<' ∧ c ≠ '>' ∧ c ≠ '\t' ∧ c ≠ '\n' ∧ c ≠ q

instance (c : Char) : Decidable (TextLit c) := by unfold TextLit; infer_instance
instance (q c : Char) : Decidable (AttrLit q c) := by unfold AttrLit; infer_instance

/-- The five named references. -/
def namedRefs : List (String × Char) :=
  [("lt", '<'), ("gt", '>'), ("amp", '&'), ("quot", '"'), ("apos", '\'')]

/-- The value of a hexadecimal digit, in either case. -/
def hexDigit? (c : Char) : Option Nat := "0123456789abcdef".toList.idxOf? c.toLower

/-- The number written by hexadecimal digits, least significant first. -/
def hexValueRev : Str → Nat
  | [] => 0
  | c :: r => (hexDigit? c).getD 0 + 16 * hexValueRev r

/-- The number written by hexadecimal digits. -/
def hexValue (ds : Str) : Nat := hexValueRev ds.reverse

/-- `Spells lit s w`: the text `w` spells the characters `s`, each written as itself (where `lit`
allows it), as a named reference or as a hexadecimal reference. -/
inductive Spells (lit : Char → Prop) : Str → Str → Prop
  | nil : Spells lit [] []
  | lit {c s w} : lit c → Spells lit s w → Spells lit (c :: s) (c :: w)
  | named {n c s w} : (n, c) ∈ namedRefs → Spells lit s w →
      Spells lit (c :: s) ('&' :: (n.toList ++ ';' :: w))
  | hex {ds c s w} : ds ≠ [] → (∀ d ∈ ds, (hexDigit? d).isSome) → hexValue ds = c.toNat → Legal c →
      Spells lit s w → Spells lit (c :: s) ('&' :: '#' :: 'x' :: (ds ++ ';' :: w))

/-- White space inside tags and around the document element. -/
def Space (w : Str) : Prop := ∀ c ∈ w, c = ' ' ∨ c = '\t' ∨ c = '\n' ∨ c = '\r'

instance (w : Str) : Decidable (Space w) := by unfold Space; infer_instance

/-- MicroXML's nameStartChar, on code points. -/
def NameStartCode (n : Nat) : Prop :=
  (0x41 ≤ n ∧ n ≤ 0x5A) ∨ (0x61 ≤ n ∧ n ≤ 0x7A) ∨ n = 0x5F ∨ (0xC0 ≤ n ∧ n ≤ 0x2FF ∧ n ≠ 0xD7 ∧ n ≠ 0xF7) ∨
  (0x370 ≤ n ∧ n ≤ 0x1FFF ∧ n ≠ 0x37E) ∨ (0x200C ≤ n ∧ n ≤ 0x200D) ∨ (0x2070 ≤ n ∧ n ≤ 0x218F) ∨
  (0x2C00 ≤ n ∧ n ≤ 0x2FEF) ∨ (0x3001 ≤ n ∧ n ≤ 0xD7FF) ∨ (0xF900 ≤ n ∧ n ≤ 0xFDCF) ∨
  (0xFDF0 ≤ n ∧ n ≤ 0xFFFD) ∨ (0x10000 ≤ n ∧ n ≤ 0xEFFFF)

/-- MicroXML's nameChar, on code points. -/
def MicroNameCode (n : Nat) : Prop :=
  NameStartCode n ∨ (0x30 ≤ n ∧ n ≤ 0x39) ∨ n = 0x2D ∨ n = 0x2E ∨ n = 0xB7 ∨
  (0x300 ≤ n ∧ n ≤ 0x36F) ∨ (0x203F ≤ n ∧ n ≤ 0x2040)

/-- What the library takes for a name character after the first: MicroXML's class without full stop
and without U+00C1 to U+00D5, and with U+00B8 to U+00BF. -/
def NameCode (n : Nat) : Prop :=
  (MicroNameCode n ∧ n ≠ 0x2E ∧ ¬ (0xC1 ≤ n ∧ n ≤ 0xD5)) ∨ (0xB8 ≤ n ∧ n ≤ 0xBF)

instance (n : Nat) : Decidable (NameStartCode n) := by unfold NameStartCode; infer_instance
instance (n : Nat) : Decidable (NameCode n) := by unfold NameCode MicroNameCode; infer_instance

/-- A name: a name-start character, then name characters. -/
def IsName (n : Str) : Prop :=
  ∃ c r, n = c :: r ∧ NameStartCode c.toNat ∧ ∀ d ∈ r, NameCode d.toNat

instance (n : Str) : Decidable (IsName n) :=
  match n with
  | [] => isFalse (by rintro ⟨c, r, h, _⟩; cases h)
  | c :: r => decidable_of_iff (NameStartCode c.toNat ∧ ∀ d ∈ r, NameCode d.toNat)
      ⟨fun h => ⟨c, r, rfl, h⟩, by rintro ⟨c', r', h, h'⟩; cases h; exact h'⟩

/-- The attribute specifications of a tag, in order, each preceded by white space. -/
inductive IsAttrs : List (Str × Str) → Str → Prop
  | nil : IsAttrs [] []
  | cons {k v raw w1 w2 q kvs w} : w1 ≠ [] → Space w1 → IsName k → Space w2 → (q = '"' ∨ q = '\'') →
      Spells (AttrLit q) v raw → IsAttrs kvs w →
      IsAttrs ((k, v) :: kvs) (w1 ++ (k ++ (w2 ++ '=' :: q :: (raw ++ q :: w))))

/-- The value given last to `k`. -/
def lastValue (kvs : List (Str × Str)) (k : Str) : Str :=
  ((kvs.reverse.find? (fun p => p.1 == k)).map (·.2)).getD []

/-- The names in order of first appearance. -/
def firstNames : List (Str × Str) → List Str
  | [] => []
  | (k, _) :: r => k :: (firstNames r).filter (· ≠ k)

/-- The mapping denoted by the attribute specifications of a tag: each name once, in the order of
first appearance, with the value given last. -/
def dictOf (kvs : List (Str × Str)) : Attrs := (firstNames kvs).map fun k => (k, lastValue kvs k)

/-- Is a text node. -/
def Node.isText : Node → Bool
  | .text _ => true
  | .elem .. => false

/-- `IsContent ns w`: the text `w` is a spelling of the sequence of nodes `ns`. No text node is empty
or directly followed by another. -/
inductive IsContent : List Node → Str → Prop
  | nil : IsContent [] []
  | text {s raw ns w} : s ≠ [] → Spells TextLit s raw → IsContent ns w →
      (∀ n ∈ ns.head?, n.isText = false) → IsContent (.text s :: ns) (raw ++ w)
  | elem {n kvs wa cs wc ns w w0 w1 w2 w3 w4} : IsName n → IsAttrs kvs wa → IsContent cs wc →
      IsContent ns w → Space w0 → Space w1 → Space w2 → Space w3 → Space w4 →
      IsContent (.elem n (dictOf kvs) cs :: ns)
        ('<' :: (w0 ++ (n ++ (wa ++ (w1 ++ '>' :: (wc ++
          ('<' :: (w2 ++ '/' :: (w3 ++ (n ++ (w4 ++ '>' :: w))))))))))) 

/-- The text `w` is a spelling of the document element `e`, with white space around it. -/
def IsDoc (e : Node) (w : Str) : Prop :=
  e.isText = false ∧ ∃ w0 w1 w2, Space w0 ∧ Space w2 ∧ IsContent [e] w1 ∧ w = w0 ++ (w1 ++ w2)

mutual
  /-- The events of a node in document order; `anc` are the names of the elements around it,
  outermost first. -/
  def Node.events (anc : List Str) : Node → List Event
    | .elem n as cs => .start n as anc :: (Node.eventsList (anc ++ [n]) cs ++ [.stop n anc])
    | .text s => [.chars s]
  /-- The events of a sequence of nodes. -/
  def Node.eventsList (anc : List Str) : List Node → List Event
    | [] => []
    | x :: xs => Node.events anc x ++ Node.eventsList anc xs
end

end Amara
