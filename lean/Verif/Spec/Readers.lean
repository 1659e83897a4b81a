import Verif.Spec.Expat
/-
Specification: expat's callbacks for a document.
-/
namespace Amara

/-- Expat's callbacks report the document `e`, its character data cut in any way, into pieces that are not empty. -/
structure ReportsDoc (cbs : List XCall) (e : Node) : Prop where
  reports : ∃ evs, Reports cbs evs ∧ WellNested evs ∧ joinChars evs = joinChars (e.events []) ∧ ∀ s, .chars s ∈ evs → s ≠ []

end Amara
