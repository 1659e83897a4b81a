import Verif.Model.SenderMem
import Verif.Spec.Heap
/-
Specification for the sender in memory.
-/
namespace Amara

/-- Each object is the corresponding tree, with no parent, in the memory given. -/
def AllRep (f : Id × Heap → Heap) : List (Id × Heap) → List Node → Prop
  | [], [] => True
  | p :: ps, x :: xs => Rep (f p) none p.1 x ∧ AllRep f ps xs
  | _, _ => False

mutual
  /-- The number of nodes of a tree. -/
  def Node.count : Node → Nat
    | .elem _ _ cs => Node.countList cs + 1
    | .text _ => 1
  def Node.countList : List Node → Nat
    | [] => 0
    | x :: r => Node.count x + Node.countList r
end

/-- At most `n` objects are kept alive by these references. -/
def AtMost (h : Heap) (roots : List Id) (n : Nat) : Prop :=
  ∃ ids : List Id, ids.length ≤ n ∧ ∀ j, Reachable h roots j → j ∈ ids

/-- The nodes of the open elements of a subtree that is being built, and of their children so far. -/
def openCount : List OpenElem → Nat
  | [] => 0
  | (_, _, ts) :: r => Node.countList ts + 1 + openCount r

end Amara
