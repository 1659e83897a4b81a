import Verif.Spec.Edit
import Verif.Model.Heap
/-
Specification for taking the results of a query out of the tree.
-/
namespace Amara

/-- `for x in xs: x.xml_parent.xml_remove(x)`, for a list `xs` made before, runs to its end without an error. -/
inductive RemoveAll : Heap → List Id → Heap → Prop
  | nil {h} : RemoveAll h [] h
  | cons {h h1 h' x xs p} : h.xmlParent x = some p → h.xmlRemove p x = .ok h1 → RemoveAll h1 xs h' →
      RemoveAll h (x :: xs) h'

mutual
  /-- The tree at position `here` of a document without the nodes at the positions `ps` of that document. -/
  def Node.cutAt (ps : List Path) (here : Path) : Node → Node
    | .elem n as ts => .elem n as (Node.cutAtList ps here 0 ts)
    | .text s => .text s
  /-- The same for children, the first of which is number `k`. -/
  def Node.cutAtList (ps : List Path) (here : Path) (k : Nat) : List Node → List Node
    | [] => []
    | t :: ts =>
      if here ++ [k] ∈ ps then Node.cutAtList ps here (k + 1) ts
      else t.cutAt ps (here ++ [k]) :: Node.cutAtList ps here (k + 1) ts
end

end Amara
