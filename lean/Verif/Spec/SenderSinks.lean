import Verif.Model.SenderSinks
import Verif.Spec.TreeIter
/-
Specification for sinks that end or raise.
-/
namespace Amara

/-- The sinks take all that is sent to them, one after the other. -/
inductive Takes (does : Nat → List Node → SinkDoes) : Sinks → List SOut → Sinks → Prop
  | nil {k} : Takes does k [] k
  | stray {k ix f r k'} : Takes does k r k' → Takes does k (.stray ix f :: r) k'
  | send {k ix x r k' k''} : k.send does ix x = (k', none) → Takes does k' r k'' → Takes does k (.send ix x :: r) k''

/-- A sink that returns after `n` elements. -/
def takesFirst (n : Nat) : Nat → List Node → SinkDoes := fun _ got => if got.length < n then .waits else .returns

end Amara
