import Verif.Model.DocOrder
import Verif.Spec.Gen
/-
Specification for the order of the results of a union.
-/
namespace Amara

/-- The elements of the tree under `t`, itself included, in document order. -/
def ElementsOf (h : Heap) (t : Id) (l : List Id) : Prop := ∃ ids, Below h (h.children t) ids ∧ l = t :: ids

/-- `a` comes before `b` in the list. -/
def Before {α} (l : List α) (a b : α) : Prop := ∃ u v, l = u ++ v ∧ a ∈ u ∧ b ∈ v

/-- Just these nodes, as often as they were, and none before one that precedes it in `order`. -/
def Arranged {α} (order xs zs : List α) : Prop := zs.Perm xs ∧ zs.Pairwise (fun a b => ¬ Before order b a)

/-- The element or text objects and attributes of the tree under `t`. -/
def Within (h : Heap) (t : Id) : ONode → Prop
  | .root => False
  | .obj i => Reachable h [t] i
  | .attr e => Reachable h [t] e

/-- All these nodes are numbered, and the numbers go up along the list. -/
def GoUp (m : Numbers) (order : List ONode) : Prop :=
  (∀ x ∈ order, ∃ k, m.of x = some k) ∧
  order.Pairwise (fun a b => ∀ p q, m.of a = some p → m.of b = some q → p < q)

/-- The object that is `k` times the parent of this one. -/
def upTimes (h : Heap) : Nat → Id → Option Id
  | 0, i => some i
  | k + 1, i => (h.xmlParent i).bind (upTimes h k)

end Amara
