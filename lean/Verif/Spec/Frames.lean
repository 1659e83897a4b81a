import Verif.Model.Frames
import Verif.Spec.Pretty
/-
Specification: how deep a tree is, and what an interrupted `make_pretty` leaves.
-/
namespace Amara

/-- No function used needs more than `m` calls. -/
def Needs.Within (c : Needs) (m : Nat) : Prop := c.quote ≤ m ∧ c.escape ≤ m ∧ c.value ≤ m ∧ c.text ≤ m

mutual
  /-- The number of elements on the longest way down from a node. -/
  def Node.height : Node → Nat
    | .elem _ _ cs => 1 + Node.heights cs
    | .text _ => 0
  def Node.heights : List Node → Nat
    | [] => 0
    | x :: r => max (Node.height x) (Node.heights r)
end

/-- An element as `make_pretty` leaves it; text as it is. -/
def Node.prettyChild (depth : Int) : Node → Node
  | .elem n as cs => (Node.elem n as cs).makePretty depth "  ".toList
  | .text s => .text s

/-- `HalfPretty d x x'`: `x'` is what `make_pretty(x, d)` leaves if it is interrupted: on one way down the elements keep
their children, what is to the left of that way is done, what is to the right is not. -/
inductive HalfPretty : Int → Node → Node → Prop
  | here {d x} : HalfPretty d x x
  | between {d n as l r} : HalfPretty d (.elem n as (l ++ r)) (.elem n as (l.map (Node.prettyChild (d + 1)) ++ r))
  | inside {d n as l x x' r} : HalfPretty (d + 1) x x' →
      HalfPretty d (.elem n as (l ++ x :: r)) (.elem n as (l.map (Node.prettyChild (d + 1)) ++ x' :: r))

end Amara
