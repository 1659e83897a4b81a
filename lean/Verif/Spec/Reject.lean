import Verif.Spec.Writer
import Verif.Spec.Context
/-
Specification: what the MicroXML parser rejects, and what it should reject.
-/
namespace Amara

/-- In the text every '=' that is followed by anything is followed by a quotation mark. -/
def EqualsQuoted (w : Str) : Prop :=
  ∀ p c t, w = p ++ '=' :: c :: t → c = '"' ∨ c = '\''

/-- The names in an event: those of the element and its attributes, and of the elements around it. -/
def Event.names : Event → List Str
  | .start n as anc => n :: (as.map (·.1) ++ anc)
  | .stop n anc => n :: anc
  | .chars _ => []

/-- `Unclosed stk cs`: the calls `cs`, none of which asks for an empty-element tag, have started a document
element and left the elements `stk` open (innermost first, at least one), ending each in turn; names
are names, and texts and attribute values are such as can be written. -/
inductive Unclosed : List Str → List Call → Prop
  | root {n as} : IsName n → (∀ p ∈ as, IsName p.1 ∧ AttrValue p.2) → Unclosed [n] [.start n as false]
  | down {stk cs n as} : Unclosed stk cs → IsName n → (∀ p ∈ as, IsName p.1 ∧ AttrValue p.2) →
      Unclosed (n :: stk) (cs ++ [.start n as false])
  | text {stk cs s} : Unclosed stk cs → (∀ c ∈ s, Legal c) → Unclosed stk (cs ++ [.text s])
  | up {n stk cs} : Unclosed (n :: stk) cs → stk ≠ [] → Unclosed stk (cs ++ [.stop n])

end Amara
