import Verif.Model.TreeUtil
import Verif.Spec.Tree
/-
Specification for pretty-printing.
-/
namespace Amara

/-- White space only (Python's white space). -/
def Blank (s : Str) : Prop := ∀ c ∈ s, isPySpace c = true

instance (s : Str) : Decidable (Blank s) := by unfold Blank; infer_instance

mutual
  /-- The tree without white-space-only text, at every level. -/
  def Node.bare : Node → Node
    | .elem n as cs => .elem n as (Node.bareList cs)
    | .text s => .text s
  def Node.bareList : List Node → List Node
    | [] => []
    | .text s :: r => if Blank s then Node.bareList r else .text s :: Node.bareList r
    | .elem n as cs :: r => Node.bare (.elem n as cs) :: Node.bareList r
end

mutual
  /-- At every level each element has text directly before and after it, and there is some child. -/
  def Node.Separated : Node → Prop
    | .elem _ _ cs => Node.SeparatedList false cs
    | .text _ => True
  /-- The same for the rest of the children; `b` says whether the child before is text. -/
  def Node.SeparatedList (b : Bool) : List Node → Prop
    | [] => b = true
    | .text _ :: r => Node.SeparatedList true r
    | .elem n as cs :: r => b = true ∧ Node.Separated (.elem n as cs) ∧ Node.SeparatedList false r
end

mutual
  /-- Every white-space-only text in the element, itself at depth `d`, is a newline and an indent for each
  level, or one indent less if it is a last child. -/
  def Node.UniformAt (d : Int) (ind : Str) : Node → Prop
    | .elem _ _ cs => Node.UniformList (d + 1) ind cs
    | .text _ => True
  def Node.UniformList (d : Int) (ind : Str) : List Node → Prop
    | [] => True
    | .text s :: r =>
      (Blank s → s = '\n' :: copies d.toNat ind ∨ (r = [] ∧ s = '\n' :: copies (d - 1).toNat ind)) ∧
      Node.UniformList d ind r
    | .elem n as cs :: r => Node.UniformAt d ind (.elem n as cs) ∧ Node.UniformList d ind r
end

end Amara
