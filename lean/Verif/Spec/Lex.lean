import Verif.Model.Lex
import Verif.Spec.MicroXml
/-
Specification of the MicroXML scanner: the tokens and how they are written, longest match.
-/
namespace Amara.Lex

/-- White space in tags. -/
def LexSpace (w : Str) : Prop := ∀ c ∈ w, c = ' ' ∨ c = '\t' ∨ c = '\n'

/-- `v` is `s` without the white space at both ends (white space as Python's `str.strip` understands it). -/
def Stripped (s v : Str) : Prop := ∃ a b, s = a ++ (v ++ b) ∧ (∀ c ∈ a, isPySpace c = true) ∧
  (∀ c ∈ b, isPySpace c = true) ∧ (∀ c ∈ v.head?, isPySpace c = false) ∧ (∀ c ∈ v.getLast?, isPySpace c = false)

/-- The named references. -/
def entities : List (String × Kind) :=
  [("&amp;", .ampEnt), ("&lt;", .ltEnt), ("&gt;", .gtEnt), ("&quot;", .quotEnt), ("&apos;", .aposEnt)]

/-- `Lexeme st k v w st'`: in the state `st` the text `w` is a token of kind `k` with value `v`, after which the
state is `st'`. -/
inductive Lexeme : LState → Kind → Str → Str → LState → Prop
  | start {w1 n w2 v} : LexSpace w1 → IsName n → LexSpace w2 → Stripped (w1 ++ (n ++ w2)) v →
      Lexeme .data .starttag v ('<' :: (w1 ++ (n ++ w2))) .tag
  | stop {w1 n w2 v} : LexSpace w1 → IsName n → LexSpace w2 → Stripped (w1 ++ (n ++ w2)) v →
      Lexeme .data .endtag v ('<' :: '/' :: (w1 ++ (n ++ w2) ++ ['>'])) .data
  | comment {m} : (∀ c ∈ m, TextLit c) → Lexeme .data .comment m ("<!--".toList ++ (m ++ "-->".toList)) .data
  | text {v} : v ≠ [] → (∀ c ∈ v, TextLit c) → Lexeme .data .chardata v v .data
  | gtData : Lexeme .data .gt ['>'] ['>'] .data
  | name {n} : IsName n → Lexeme .tag .name n n .tag
  | gt : Lexeme .tag .gt ['>'] ['>'] .data
  | eq : Lexeme .tag .eq ['='] ['='] .tag
  | openSgl : Lexeme .tag .sglQuote ['\''] ['\''] .attrsgl
  | openDbl : Lexeme .tag .dblQuote ['"'] ['"'] .attrdbl
  | closeSgl : Lexeme .attrsgl .sglQuote ['\''] ['\''] .tag
  | closeDbl : Lexeme .attrdbl .dblQuote ['"'] ['"'] .tag
  | valueSgl {v} : v ≠ [] → (∀ c ∈ v, AttrLit '\'' c) → Lexeme .attrsgl .chardata v v .attrsgl
  | valueDbl {v} : v ≠ [] → (∀ c ∈ v, AttrLit '"' c) → Lexeme .attrdbl .chardata v v .attrdbl
  | hex {st ds} : st ≠ .tag → ds ≠ [] → (∀ d ∈ ds, (hexDigit? d).isSome = true) →
      Lexeme st .numEnt ds ("&#x".toList ++ (ds ++ [';'])) st
  | named {st n k} : st ≠ .tag → (n, k) ∈ entities → Lexeme st k n.toList n.toList st

/-- `Accounts st p s os st'`: scanning `s`, which is at position `p`, in the state `st` shows `os` and ends in the
state `st'`.  At each point the longest token is taken; if there is none, the character is reported and skipped. -/
inductive Accounts : LState → Nat → Str → List Out → LState → Prop
  | nil {st p} : Accounts st p [] [] st
  | illegal {st p c r os st2} : (∀ k v w st', Lexeme st k v w st' → ¬ w <+: c :: r) → Accounts st (p + 1) r os st2 →
      Accounts st p (c :: r) (.illegal c :: os) st2
  | tok {st p k v w st' r os st2} : Lexeme st k v w st' →
      (∀ k' v' w' st'', Lexeme st k' v' w' st'' → w' <+: w ++ r → w'.length ≤ w.length) →
      Accounts st' (p + w.length) r os st2 → Accounts st p (w ++ r) (.tok ⟨k, v, p⟩ :: os) st2

/-! ### the tokens of a document -/

/-- What is seen of a token, apart from its position. -/
def Out.token? : Out → Option (Kind × Str)
  | .tok t => some (t.kind, t.value)
  | .illegal _ => none

/-- The tokens, without their positions. -/
def tokensOf (os : List Out) : List (Kind × Str) := os.filterMap Out.token?

/-- The characters reported as illegal. -/
def illegalsOf (os : List Out) : Str := os.filterMap fun
  | .illegal c => some c
  | .tok _ => none

/-- The text that a token of text or of an attribute value stands for. -/
def tokText : Kind × Str → Option Str
  | (.chardata, v) => some v
  | (.ampEnt, _) => some ['&']
  | (.ltEnt, _) => some ['<']
  | (.gtEnt, _) => some ['>']
  | (.quotEnt, _) => some ['"']
  | (.aposEnt, _) => some ['\'']
  | (.numEnt, ds) => if (hexValue ds).isValidChar then some [Char.ofNat (hexValue ds)] else none
  | _ => none

/-- The text that a sequence of such tokens stands for. -/
def decode : List (Kind × Str) → Option Str
  | [] => some []
  | t :: ts => (tokText t).bind fun a => (decode ts).map (a ++ ·)

/-- The tokens of the attributes of a tag. -/
inductive AttrToks : List (Str × Str) → List (Kind × Str) → Prop
  | nil : AttrToks [] []
  | cons {k v q ts kvs ta} : (q = (.dblQuote, ['"']) ∨ q = (.sglQuote, ['\''])) → decode ts = some v →
      AttrToks kvs ta → AttrToks ((k, v) :: kvs) ((.name, k) :: (.eq, ['=']) :: q :: (ts ++ q :: ta))

/-- The tokens of a sequence of nodes. -/
inductive NodeToks : List Node → List (Kind × Str) → Prop
  | nil : NodeToks [] []
  | text {s ts ns ts'} : s ≠ [] → decode ts = some s → NodeToks ns ts' → (∀ n ∈ ns.head?, n.isText = false) →
      NodeToks (.text s :: ns) (ts ++ ts')
  | elem {n kvs ta cs tc ns ts} : AttrToks kvs ta → NodeToks cs tc → NodeToks ns ts →
      NodeToks (.elem n (dictOf kvs) cs :: ns)
        ((.starttag, n) :: (ta ++ (.gt, ['>']) :: (tc ++ (.endtag, n) :: ts)))

/-- There is no white space between '<' and '/'. -/
def NoGap (w : Str) : Prop := ∀ a sp b, w = a ++ '<' :: (sp ++ '/' :: b) → Space sp → sp = []

/-- The name neither begins nor ends with U+1680, the one character that can be in a name and is removed by
`str.strip`. -/
def Trimmed (n : Str) : Prop := n.head? ≠ some (Char.ofNat 0x1680) ∧ n.getLast? ≠ some (Char.ofNat 0x1680)

mutual
  /-- The names of the elements of a tree. -/
  def elemNames : Node → List Str
    | .elem n _ cs => n :: elemNamesList cs
    | .text _ => []
  /-- The names of the elements of a sequence of trees. -/
  def elemNamesList : List Node → List Str
    | [] => []
    | x :: xs => elemNames x ++ elemNamesList xs
end

end Amara.Lex
