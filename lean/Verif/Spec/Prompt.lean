import Verif.Spec.MicroXml
/-
Specification: which events report a tag.
-/
namespace Amara

/-- The event reports a start tag or an end tag, not character data. -/
def Event.isTag : Event → Bool
  | .start .. => true
  | .stop .. => true
  | .chars _ => false

end Amara
