import Verif.Spec.XPath
/-
Specification: what is meant by a node test, an equal sibling and an exception, for steps from any item.
-/
namespace Amara

variable {F : Type}

/-- Evaluating `e` at `x` yields exactly `xs`, in that order, and then raises `er`. -/
def Env.YieldsThenRaises (E : Env F) (n : Nat) (e : Expr F) (x : Item F) (xs : List (Item F)) (er : XErr) : Prop :=
  E.run n e x = ⟨xs, .err er⟩

/-- What a node test lets pass, away from the child axis: `*` lets pass any node. -/
def Node.Taken (doc : Node) : Test → Path → Prop
  | .name n, q => doc.Named n q
  | .star, q => doc.Has q
  | .node, q => doc.Has q
  | .text, q => ∃ s, doc.at? q = some (.text s)

/-- Children number `i` and `k` of the element at `u` are text nodes of the same characters. -/
def Node.SameText (doc : Node) (u : Path) (i k : Nat) : Prop :=
  ∃ s, doc.at? (u ++ [i]) = some (.text s) ∧ doc.at? (u ++ [k]) = some (.text s)

/-- Child number `j` of the element at `u` is the first that Python finds equal to child number `i`: the child itself if it
is an element, the first text node of the same characters if it is text. -/
def Node.FirstLike (doc : Node) (u : Path) (i j : Nat) : Prop :=
  j ≤ i ∧ (j = i ∨ doc.SameText u i j) ∧ ∀ k, k < j → ¬ doc.SameText u i k

/-- Strings, numbers and booleans. -/
def Item.Atomic : Item F → Prop
  | .str _ | .int _ | .float _ | .bool _ => True
  | .root | .node _ | .attr _ _ _ => False

/-- What `self::` yields at an item that is not a node of the tree: `*` lets everything pass, `node()` nodes and strings,
`text()` strings only, and a name nothing. -/
def Item.selfOf (t : Test) (x : Item F) : List (Item F) :=
  match t, x with
  | .star, x => [x]
  | .node, .root | .node, .attr _ _ _ | .node, .str _ => [x]
  | .text, .str _ => [x]
  | _, _ => []

end Amara
