import Verif.Spec.TreeIter
/-
Specification: how far into a document an element ends.
-/
namespace Amara

mutual
  /-- The number of tags of a node. -/
  def Node.tags : Node → Nat
    | .elem _ _ cs => 2 + Node.tagsList cs
    | .text _ => 0
  def Node.tagsList : List Node → Nat
    | [] => 0
    | x :: xs => Node.tags x + Node.tagsList xs
end

/-- The number of tags up to the end tag, included, of the element at a position: for the element itself all its tags; for
what is in child `i` the start tag, the tags of the children before, and those in that child. -/
def Node.tagsTo : Node → Path → Nat
  | .elem n as cs, [] => (Node.elem n as cs).tags
  | .elem _ _ cs, i :: p =>
    match cs[i]? with
    | some y => 1 + Node.tagsList (cs.take i) + y.tagsTo p
    | none => 0
  | .text _, _ => 0

end Amara
