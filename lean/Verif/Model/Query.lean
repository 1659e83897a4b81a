import Verif.Model.Heap
import Verif.Model.IsXml
import Verif.Model.XParse
import Verif.Spec.Heap
import Verif.Spec.XPath
/-
The entry points of MicroXPath: `qquery` of `pylib/uxml/uxpath/__init__.py` and the method `xml_xpath` of
`pylib/uxml/tree.py`.

Simplifications: the tree built from a text is handed to the evaluator as the value it represents (`IsTree`, see
`Spec/Heap`); queries are on elements (a text node has no children to search); functions are the built-in ones; the
generator is consumed to the end.
-/
namespace Amara

variable {F : Type}

/-- What the argument `xml_thing` of `qquery` can be: a string, bytes, or an element, given by the document it is part
of and its position in it. -/
inductive XmlThing where
  | str (s : Str)
  | bytes (bs : Bytes)
  | elem (doc : Node) (p : Path)

/-- An expression as an argument: a string or parsed. -/
inductive XPathThing (F : Type) where
  | str (s : Str)
  | parsed (e : Expr F)

/-- How a query ends: the text is refused by the parser, its parsing does not end, or items are yielded. -/
inductive Answer (F : Type) where
  | badText (e : Err)
  | never
  | items (doc : Node) (r : Res F)

/-- `parse(xpath)`, `uxml/uxpath/__init__.py` 63-71, as the evaluator uses it.  (`none` does not happen, see C78.) -/
def parseText (fo : FloatOps F) (s : Str) : Except XErr (Expr F) :=
  match X.xparse fo s with
  | some r => r
  | none => .error .assertion

/-- The surroundings of a query: `context(item, variables=vars, functions=None)`, `uxml/uxpath/__init__.py` 73-89. -/
def queryEnv (fo : FloatOps F) (vars : Str → Option (Item F)) (doc : Node) : Env F :=
  { fo := fo, doc := doc, vars := vars, parse := parseText fo }

/-- The context item: `if force_root and isinstance(item, nodetype): self.item = root_node.get(item)` where
`force_root = not node.xml_parent`, `uxml/uxpath/__init__.py` 80-81, 120-121, `uxml/tree.py` 56. -/
def contextItem (p : Path) : Item F := if p = [] then .root else .node p

/-- `e.xml_xpath(xpath, vars)`, `uxml/tree.py` 37-65, for the element at position `p` of `doc`. -/
def xmlXPath (fo : FloatOps F) (vars : Str → Option (Item F)) (n : Nat) (doc : Node) (p : Path) (xp : XPathThing F) : Res F :=
  match xp with
  | .str s => match parseText fo s with
    | .ok e => (queryEnv fo vars doc).run n e (contextItem p)
    | .error e => .fail e
  | .parsed e => (queryEnv fo vars doc).run n e (contextItem p)

/-- The part of `qquery` after the tree is there, `uxml/uxpath/__init__.py` 131-136: `parsed_expr` is only assigned for
a string, so otherwise the next line raises UnboundLocalError (a NameError). -/
def qqueryTree (fo : FloatOps F) (vars : Str → Option (Item F)) (n : Nat) (doc : Node) (p : Path) (xp : XPathThing F) : Res F :=
  match xp with
  | .str s => match parseText fo s with
    | .ok e => (queryEnv fo vars doc).run n e (contextItem p)
    | .error e => .fail e
  | .parsed _ => .fail .name

/-- `qquery` of a string, `uxml/uxpath/__init__.py` 122-125, 130: all executions (the collector may run while the tree
is built).  Without a root nothing is yielded; a StopIteration becomes RuntimeError (PEP 479). -/
def QQueryText (fo : FloatOps F) (vars : Str → Option (Item F)) (n : Nat) (text : Str) (xp : XPathThing F) (a : Answer F) :
    Prop :=
  ∃ h r b', TreeParse (Builder.new h) text r b' ∧ match r with
    | .raised e => a = .badText e
    | .stopIteration => a = .badText .runtime
    | .never => a = .never
    | .returned none => ∃ doc, a = .items doc .nil
    | .returned (some i) => ∃ doc, Rep b'.heap none i doc ∧ a = .items doc (qqueryTree fo vars n doc [] xp)

/-- `qquery(xml_thing, xpath_thing, vars)`, `uxml/uxpath/__init__.py` 102-137.  `xml_thing.decode('utf-8')` raises
UnicodeDecodeError, a ValueError. -/
def QQuery (fo : FloatOps F) (vars : Str → Option (Item F)) (n : Nat) (x : XmlThing) (xp : XPathThing F) (a : Answer F) : Prop :=
  match x with
  | .str s => QQueryText fo vars n s xp a
  | .bytes bs => match decodeUtf8 bs with
    | some s => QQueryText fo vars n s xp a
    | none => ∃ doc, a = .items doc (.fail .value)
  | .elem doc p => a = .items doc (qqueryTree fo vars n doc p xp)

end Amara
