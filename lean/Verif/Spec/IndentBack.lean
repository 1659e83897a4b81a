import Verif.Spec.Tree
import Verif.Spec.Writer
/-
Specification for reading back what was written with indentation.
-/
namespace Amara

/-- White space an indent can be made of (a carriage return is not legal in MicroXML). -/
def BlankIndent (ind : Str) : Prop := ∀ c ∈ ind, c = ' ' ∨ c = '\t' ∨ c = '\n'

/-- A text without its white space. -/
def noBlanks (s : Str) : Str := s.filter fun c => !(c == ' ' || c == '\t' || c == '\n' || c == '\r')

mutual
  /-- A tree with all white space taken out of its texts, adjacent texts joined and empty ones dropped. -/
  def Node.squeeze : Node → Node
    | .elem n as cs => .elem n as (Node.squeezeList cs)
    | .text s => .text (noBlanks s)
  def Node.squeezeList : List Node → List Node
    | [] => []
    | .text s :: r => consText (noBlanks s) (Node.squeezeList r)
    | .elem n as cs :: r => Node.squeeze (.elem n as cs) :: Node.squeezeList r
end

mutual
  /-- The elements in a tree that contain no elements, in document order. -/
  def Node.leafElems : Node → List Node
    | .elem n as cs => if cs.all Node.isText then [.elem n as cs] else Node.leafElemsList cs
    | .text _ => []
  def Node.leafElemsList : List Node → List Node
    | [] => []
    | x :: r => Node.leafElems x ++ Node.leafElemsList r
end

end Amara
