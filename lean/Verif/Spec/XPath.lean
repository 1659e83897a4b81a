import Verif.Model.XPath
import Verif.Spec.Tree
/-
Specification of MicroXPath results: what the axes and tests denote, in terms of positions in the document.
-/
namespace Amara

/-- What an evaluation depends on: the document, the variables, how strings are parsed by `for-each`, and
Python's floats. -/
structure Env (F : Type) where
  fo : FloatOps F
  doc : Node
  vars : Str → Option (Item F)
  parse : Str → Except XErr (Expr F)

variable {F : Type}

/-- Evaluating `e` with `x` as the context item. -/
def Env.run (E : Env F) (n : Nat) (e : Expr F) (x : Item F) : Res F := evalN E.fo E.doc E.parse E.vars n e x

/-- Evaluating `e` at `x` yields exactly `xs`, in that order, without an exception. -/
def Env.Yields (E : Env F) (n : Nat) (e : Expr F) (x : Item F) (xs : List (Item F)) : Prop :=
  E.run n e x = ⟨xs, .done⟩

/-- An item that Python takes for true: not an empty string or text node, not zero, not False. -/
def Env.Truthy (E : Env F) (x : Item F) : Prop := x.truthy E.fo E.doc = true

/-- There is a node at this position. -/
def Node.Has (doc : Node) (p : Path) : Prop := ∃ x, doc.at? p = some x

/-- There is an element at this position. -/
def Node.ElemAt (doc : Node) (p : Path) : Prop := ∃ m as cs, doc.at? p = some (.elem m as cs)

/-- There is an element of this name at this position. -/
def Node.Named (doc : Node) (n : Str) (p : Path) : Prop := ∃ as cs, doc.at? p = some (.elem n as cs)

/-- No text node is empty (so in parsed documents, C12). -/
def Node.NoEmptyText (doc : Node) : Prop := ∀ p, doc.at? p ≠ some (.text [])

/-- The positions on an axis from position `p` (attributes are not positions). -/
def OnAxis : Axis → Path → Path → Prop
  | .self, p, q => q = p
  | .child, p, q => ∃ i, q = p ++ [i]
  | .descendant, p, q => ∃ r, r ≠ [] ∧ q = p ++ r
  | .descendantOrSelf, p, q => ∃ r, q = p ++ r
  | .parent, p, q => ∃ i, p = q ++ [i]
  | .ancestor, p, q => ∃ r, r ≠ [] ∧ p = q ++ r
  | .ancestorOrSelf, p, q => ∃ r, p = q ++ r
  | .followingSibling, p, q => ∃ u i j, p = u ++ [i] ∧ q = u ++ [j] ∧ i < j
  | .precedingSibling, p, q => ∃ u i j, p = u ++ [i] ∧ q = u ++ [j] ∧ j < i
  | .following, p, q => docLt p q ∧ ¬ ∃ r, q = p ++ r
  | .preceding, p, q => docLt q p ∧ ¬ ∃ r, p = q ++ r
  | .attribute, _, _ => False

/-- What a node test denotes. -/
def Node.Passes (doc : Node) : Test → Path → Prop
  | .name n, q => doc.Named n q
  | .star, q => doc.ElemAt q
  | .node, q => doc.Has q
  | .text, q => ∃ s, doc.at? q = some (.text s)

/-- The effective boolean value of a result: false if it is empty or begins with false, zero or an empty string
(or text node), true otherwise. -/
def Env.Ebv (E : Env F) : List (Item F) → Prop
  | [] => False
  | .bool b :: _ => b = true
  | .int i :: _ => i ≠ 0
  | .float f :: _ => E.fo.isZero f = false
  | .str s :: _ => s ≠ []
  | .node p :: _ => E.doc.at? p ≠ some (.text [])
  | .root :: _ => True
  | .attr _ _ _ :: _ => True

/-- The string value of an item: of an element all text in it, of an attribute its value, of the root nothing;
other items as Python prints them. -/
def Env.strVal (E : Env F) : Item F → Str
  | .node p => match E.doc.at? p with
    | some x => x.texts.flatten
    | none => []
  | .attr _ _ v => v
  | .root => []
  | .str s => s
  | .int i => (toString i).toList
  | .float f => E.fo.show_ f
  | .bool true => "True".toList
  | .bool false => "False".toList

/-- Evaluating `e` at `x` yields at least one item, and the first has this string value. -/
def Env.FirstStr (E : Env F) (n : Nat) (e : Expr F) (x : Item F) (s : Str) : Prop :=
  ∃ y, (E.run n e x).items.head? = some y ∧ E.strVal y = s

end Amara
