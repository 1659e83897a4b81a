import Verif.Spec.MicroXml
/-
Specification: what it means for a stream of events to be well nested.
-/
namespace Amara

/-- Where a reader of a well-nested event stream is: before the document element, inside it with the
given elements open (innermost first), after it, or in a stream that is not well nested. -/
inductive Track where
  | before
  | inside (opened : List Str)
  | after
  | bad
deriving DecidableEq, Repr

/-- One event.  The ancestor list of a start or end event must be the names of the elements open
around the element, outermost first; an end event must name the innermost open element; text occurs
only inside the document element; nothing may follow the document element. -/
def Track.next : Track → Event → Track
  | .before, .start n _ anc => if anc = [] then .inside [n] else .bad
  | .inside o, .start n _ anc => if anc = o.reverse then .inside (n :: o) else .bad
  | .inside (m :: o), .stop n anc =>
    if n = m ∧ anc = o.reverse then (if o = [] then .after else .inside o) else .bad
  | .inside o, .chars _ => .inside o
  | _, _ => .bad

/-- A whole stream. -/
def track (evs : List Event) : Track := evs.foldl Track.next .before

/-- A prefix of a well-nested stream of one document. -/
def WellNested (evs : List Event) : Prop := track evs ≠ .bad

instance (evs : List Event) : Decidable (WellNested evs) := by unfold WellNested; infer_instance

/-- An element name the parser can deliver. -/
def NameOrEmpty (n : Str) : Prop := n = [] ∨ IsName n

/-- A legal event. -/
def LegalEvent : Event → Prop
  | .start n as anc => NameOrEmpty n ∧ (∀ p ∈ as, ∀ c ∈ p.2, Legal c) ∧ ∀ m ∈ anc, NameOrEmpty m
  | .stop n anc => NameOrEmpty n ∧ ∀ m ∈ anc, NameOrEmpty m
  | .chars s => s ≠ [] ∧ ∀ c ∈ s, Legal c

end Amara
