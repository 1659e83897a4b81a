import Verif.Model.XPath
/-
Serialising the items a query gives: `for item in e.xml_xpath(q): print(item.xml_encode())`, as in `uxml/uxpath/README.md` 47, 55.
-/
namespace Amara

variable {F : Type}

/-- `item.xml_encode()`.  Elements: `uxml/tree.py` 78-105, texts: 175-176, the root: 31-32 (`root_node` has no method of its own),
attributes: `uxml/uxpath/xast.py` 74-75, where `xml_name` is empty: `node.__init__`, called last in 69, sets it to `''`
(`uxml/tree.py` 22).  Strings, numbers and booleans have no such method.  A position where there is no node stands for no
object. -/
def Item.xmlEncode (doc : Node) : Item F → Except XErr Str
  | .root => .error .notImplemented
  | .node p => match doc.at? p with
    | some x => .ok x.encode
    | none => .error .attribute
  | .attr _ _ v => .ok ('{' :: '=' :: '"' :: (v ++ ['"', '}']))
  | .str _ => .error .attribute
  | .int _ => .error .attribute
  | .float _ => .error .attribute
  | .bool _ => .error .attribute

/-- `item.xml_write()`: what is written.  `uxml/tree.py` 34-35 (the root and texts inherit it), and `uxml/uxpath/xast.py` 77-78 for
attributes. -/
def Item.xmlWrite (doc : Node) : Item F → Except XErr Str
  | .root => .error .notImplemented
  | .node p => Item.xmlEncode (F := F) doc (.node p)
  | .attr _ _ _ => .error .notImplemented
  | x => Item.xmlEncode doc x

/-- `for item in …: out.append(f(item))` over what a query yields, `uxml/uxpath/README.md` 46-47: the results of the calls, and how
the loop ends. -/
def collect (f : Item F → Except XErr Str) : List (Item F) → Tail → List Str × Tail
  | [], t => ([], t)
  | x :: xs, t => match f x with
    | .ok s => (s :: (collect f xs t).1, (collect f xs t).2)
    | .error e => ([], .err e)

end Amara
