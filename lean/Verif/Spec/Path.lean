import Verif.Model.TreeUtil
/-
Specification: positions in a tree and document order.
-/
namespace Amara

/-- The node at a position: child number `i` of the node, and so on. -/
def Node.at? (x : Node) : Path → Option Node
  | [] => some x
  | i :: p =>
    match x.xmlChildren[i]? with
    | some y => y.at? p
    | none => none

/-- The nodes on the way down to a position, without the node one starts from. -/
def Node.trail (x : Node) : Path → Option (List Node)
  | [] => some []
  | i :: p =>
    match x.xmlChildren[i]? with
    | some y => (y.trail p).map (y :: ·)
    | none => none

/-- Document order: a node is before what is below it, and a sibling and all below it are before the next
siblings. -/
def docLt : Path → Path → Prop
  | [], [] => False
  | [], _ :: _ => True
  | _ :: _, [] => False
  | i :: p, j :: q => i < j ∨ (i = j ∧ docLt p q)

/-- In document order, without repetition. -/
def InDocOrder {α} (l : List (Path × α)) : Prop := l.Pairwise fun a b => docLt a.1 b.1

end Amara
