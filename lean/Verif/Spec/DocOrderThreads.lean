import Verif.Model.DocOrderThreads
import Verif.Spec.DocOrder
/-
Specification: unions evaluated by several threads.
-/
namespace Amara

/-- The evaluations that are to be made: at which node, and what the two sides yield. -/
def UWorld.begin (m : Numbers) (asked : List (ONode × List ONode)) : UWorld := ⟨m, asked.map fun c => .new c.1 c.2⟩

/-- Evaluation `k` has ended with this: the nodes, or none for AttributeError. -/
def UEnded (w : UWorld) (k : Nat) (res : Option (List ONode)) : Prop := ∃ c, w.calls[k]? = some c ∧ c.phase = .done res

end Amara
