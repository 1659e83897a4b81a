import Verif.Model.Printing
import Verif.Spec.XPath
/-
What is meant by printing the results of a query (C150).
-/
namespace Amara

variable {F : Type}

/-- The loop `for item in q: print(item.xml_encode())` prints `out` and ends as `t` says. -/
def Env.Prints (E : Env F) (n : Nat) (e : Expr F) (x : Item F) (out : List Str) (t : Tail) : Prop :=
  collect (Item.xmlEncode E.doc) (E.run n e x).items (E.run n e x).tail = (out, t)

/-- The loop `for item in q: item.xml_write()` writes `out` and ends as `t` says. -/
def Env.Writes (E : Env F) (n : Nat) (e : Expr F) (x : Item F) (out : List Str) (t : Tail) : Prop :=
  collect (Item.xmlWrite E.doc) (E.run n e x).items (E.run n e x).tail = (out, t)

/-- The item is the element or the text at a position of the document. -/
def Item.IsNode (doc : Node) : Item F → Prop
  | .node p => ∃ x, doc.at? p = some x
  | _ => False

/-- The item is an attribute. -/
def Item.IsAttr : Item F → Prop
  | .attr _ _ _ => True
  | _ => False

end Amara
