import Verif.Model.SendersMem
import Verif.Spec.SenderMem
import Verif.Spec.TreeIter
/-
Specification for a sender with several patterns in memory.
-/
namespace Amara

/-- The trees sent, with the number of the sink, in the order of the calls. -/
def sentBy (os : List SOut) : List (Nat × Node) := os.filterMap fun
  | .send ix x => some (ix, x)
  | .stray _ _ => none

/-- One for one, the object went to the sink and is, in the memory given, the corresponding tree, with no parent. -/
def SentAs (f : Nat × Id × Heap → Heap) : List (Nat × Id × Heap) → List (Nat × Node) → Prop
  | [], [] => True
  | p :: ps, x :: xs => p.1 = x.1 ∧ Rep (f p) none p.2.1 x.2 ∧ SentAs f ps xs
  | _, _ => False

/-- No object belongs to two of these trees. -/
def NothingShared (h : Heap) (is : List Id) : Prop :=
  is.Pairwise fun i j => ∀ k, Reachable h [i] k → ¬ Reachable h [j] k

end Amara
