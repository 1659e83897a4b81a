import Verif.Spec.Edit
import Verif.Spec.Path
/-
Specification: where in the text of an element (`xml_encode()`) the nodes below it are written.
-/
namespace Amara

/-- The start tag of an element. -/
def Node.startTag : Node → Str
  | .elem n as _ => '<' :: (n ++ (encodeAttrs as ++ ['>']))
  | .text _ => []

/-- What is written before the node at a position: the start tags of the elements around it and, in each of them, the
children before. -/
def Node.textBefore (x : Node) : Path → Str
  | [] => []
  | i :: p => x.startTag ++ ((x.xmlChildren.take i).flatMap Node.written ++
      match x.xmlChildren[i]? with
      | some y => y.textBefore p
      | none => [])

/-- Neither position is above the other one, nor are they the same. -/
def Apart (p q : Path) : Prop := ¬ p <+: q ∧ ¬ q <+: p

end Amara
