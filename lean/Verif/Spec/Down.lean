import Verif.Spec.XPath
import Verif.Spec.XPathItems
/-
Queries that only look down (C152): which they are, and what it means that an item of an element standing alone is an item of a document
that has the element in it.
-/
namespace Amara

variable {F : Type}

/-- The item of a document that an item of an element becomes if the element is at position `p` of the document: positions are counted
from the document element. -/
def Item.moved (p : Path) : Item F → Item F
  | .node q => .node (p ++ q)
  | .attr q k v => .attr (p ++ q) k v
  | x => x

/-- All items, moved; the end stays. -/
def Res.moved (p : Path) (r : Res F) : Res F := ⟨r.items.map (Item.moved p), r.tail⟩

/-- The axes that lead to the context node, to what is in it and to its attributes. -/
def Axis.Down (a : Axis) : Prop :=
  a = .self ∨ a = .child ∨ a = .attribute ∨ a = .descendant ∨ a = .descendantOrSelf

/-- The expressions in which all steps are along these axes, with any operators, tests and functions; variables and literals are no
nodes; the text given to `for-each` is a literal that is such an expression, or none at all. (After `//` the axis of a step does not
matter: it is never used.) -/
inductive Env.LooksDown (E : Env F) : Expr F → Prop
  | lit {y : Item F} : y.Atomic → E.LooksDown (.lit y)
  | var {v : Str} : (∀ y, E.vars v = some y → y.Atomic) → E.LooksDown (.var v)
  | dot : E.LooksDown .dot
  | test {t : Test} : E.LooksDown (.test t)
  | step {a : Axis} {t : Test} : a.Down → E.LooksDown (.step a t)
  | slash {l r : Expr F} : E.LooksDown l → E.LooksDown r → E.LooksDown (.slash l r)
  | dslash {l r : Expr F} : E.LooksDown l → E.LooksDown r → E.LooksDown (.dslash l r)
  | dslashStep {l : Expr F} {a : Axis} {t : Test} : E.LooksDown l → E.LooksDown (.dslash l (.step a t))
  | pred {l : Expr F} {ps : List (Expr F)} : E.LooksDown l → (∀ q ∈ ps, E.LooksDown q) → E.LooksDown (.pred l ps)
  | union {l r : Expr F} : E.LooksDown l → E.LooksDown r → E.LooksDown (.union l r)
  | eq {l r : Expr F} : E.LooksDown l → E.LooksDown r → E.LooksDown (.eq l r)
  | ne {l r : Expr F} : E.LooksDown l → E.LooksDown r → E.LooksDown (.ne l r)
  | rel {op : Rel} {l r : Expr F} : E.LooksDown l → E.LooksDown r → E.LooksDown (.rel op l r)
  | and {l r : Expr F} : E.LooksDown l → E.LooksDown r → E.LooksDown (.and l r)
  | or {l r : Expr F} : E.LooksDown l → E.LooksDown r → E.LooksDown (.or l r)
  | neg {e : Expr F} : E.LooksDown e → E.LooksDown (.neg e)
  | arith {op : Arith} {l r : Expr F} : E.LooksDown (.arith op l r)
  | seq {es : List (Expr F)} : (∀ e ∈ es, E.LooksDown e) → E.LooksDown (.seq es)
  | call {m : Str} {es : List (Expr F)} : m ≠ "for-each".toList → (∀ e ∈ es, E.LooksDown e) → E.LooksDown (.call m es)
  | each {e : Expr F} {s : Str} : E.LooksDown e → (∀ g, E.parse s = .ok g → E.LooksDown g) →
      E.LooksDown (.call "for-each".toList [e, .lit (.str s)])

end Amara
