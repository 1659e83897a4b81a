import Verif.Model.XSender
import Verif.Spec.SenderSinks
import Verif.Spec.Expat
/-
Specification for XML senders fed in pieces.
-/
namespace Amara

/-- Sinks that take whatever comes. -/
def takesAll : Nat → List Node → SinkDoes := fun _ _ => .waits

/-- Calls of `parse` in which expat makes these callbacks and reports no error of its own. -/
def goodCalls (pieces : List (List XCall)) : List (List XCall × Bool) := pieces.map fun p => (p, false)

end Amara
