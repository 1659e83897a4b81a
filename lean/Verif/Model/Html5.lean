/-
The HTML tree adapter, `pylib/uxml/html5.py`: the methods html5lib calls on nodes.  html5lib itself
(the tokeniser and the tree construction algorithm) is not part of the project and not modelled.
-/
import Verif.Model.Heap

namespace Amara

/-- What html5lib passes as a node: an element or text already in memory, a plain string or new
`tree.text`, or a `comment` object with its data. -/
inductive HChild where
  | node (i : Id)
  | str (s : Str)
  | comment (data : Str)
deriving DecidableEq, Repr

/-- What `xml_insert` makes of it (`uxml/tree.py` 132-135).  A `comment` is a `str` (`uxml/html5.py`
162), so `text(child, parent=self)` is called; `str.__new__` takes `str(child)`, and
`comment.__str__` (`uxml/html5.py` 183-184) returns the empty string. -/
def HChild.child : HChild → Child
  | .node i => .node i
  | .str s => .str s
  | .comment _ => .str []

/-- `item == refNode`, as `list.index` and `list.remove` ask it.  Text nodes, plain strings and
comments are strings: they are compared by their characters, for a comment those of its data. -/
def Heap.refEq (h : Heap) (ref : HChild) (c : Id) : Bool :=
  match ref with
  | .node d => h.pyEq c d
  | .str s => match h.obj c with | some (.text s' _) => s' == s | _ => false
  | .comment s => match h.obj c with | some (.text s' _) => s' == s | _ => false

/-- `if insertBefore:`: an element is true, a string is true unless it is empty. -/
def Heap.truthy (h : Heap) : HChild → Bool
  | .node d => match h.obj d with | some (.text s _) => s != [] | _ => true
  | .str s => s != []
  | .comment s => s != []

/-- `node.appendChild`, `uxml/html5.py` 56-57. -/
def Heap.appendChild (h : Heap) (e : Id) (c : HChild) : Except MutErr Heap := h.xmlAppend e c.child

/-- `node.insertBefore`, `uxml/html5.py` 71-76. -/
def Heap.insertBefore (h : Heap) (e : Id) (c ref : HChild) : Except MutErr Heap :=
  match (h.children e).findIdx? (h.refEq ref) with
  | some k => h.xmlInsert e c.child k
  | none => .error .valueError

/-- `node.insertText`, `uxml/html5.py` 62-69. -/
def Heap.insertText (h : Heap) (e : Id) (data : Str) (ref : Option HChild) : Except MutErr Heap :=
  match ref with
  | some r => if h.truthy r then h.insertBefore e (.str data) r else h.appendChild e (.str data)
  | none => h.appendChild e (.str data)

/-- `node.removeChild`, `uxml/html5.py` 59-60: only the child list is changed. -/
def Heap.removeChild (h : Heap) (e : Id) (c : HChild) : Except MutErr Heap :=
  if (h.children e).any (h.refEq c) then
    .ok (h.setChildren e ((h.children e).eraseP (h.refEq c)))
  else .error .valueError

/-- `qname.split(':')[-1]`, `uxml/html5.py` 93-94. -/
def qnameToLocal (q : Str) : Str := (q.reverse.takeWhile (· ≠ ':')).reverse

/-- The key of an attribute: a string, or a tuple of which the second item is the name. -/
inductive AttrKey where
  | name (s : Str)
  | tuple (s : Str)
deriving DecidableEq, Repr

/-- `element.xml_set_attributes_`, `uxml/html5.py` 138-146; the string test is `startswith('xmlns')`. -/
def setAttributes (old : Attrs) : List (AttrKey × Str) → Attrs
  | [] => old
  | (.tuple s, v) :: r => setAttributes (old.set (qnameToLocal s) v) r
  | (.name s, v) :: r =>
    if "xmlns".toList.isPrefixOf s then setAttributes old r else setAttributes (old.set s v) r

/-- The name of an element html5lib does not name, `uxml/html5.py` 245. -/
def unnamed : Str := "UNNAMED_BY_HTML5LIB".toList

/-- `eclass`, `uxml/html5.py` 265-288: the `xml_name` of the new element. html5lib may pass None or
an empty name; the namespace only goes into attributes html5lib reads back. -/
def eclassName (name : Option Str) : Str :=
  match name with
  | some (c :: n) => qnameToLocal (c :: n)
  | _ => qnameToLocal unnamed

/-- How `parse_lax_xml` ends. -/
inductive LaxRes where
  | ok (top : Id) (h : Heap)
  | indexError
  | failed (e : MutErr)

/-- `parse_lax_xml` after `parse` has returned `false_top`, `uxml/html5.py` 341-350.  The last
`return` cannot raise, so its `except IndexError` never applies. -/
def Heap.laxTop (h : Heap) (falseTop : Id) : LaxRes :=
  match (h.children falseTop)[1]? with
  | none => .indexError
  | some body =>
    match (h.children body)[0]? with
    | none => .indexError
    | some top =>
      match h.xmlRemove body top with
      | .ok h' => .ok top h'
      | .error e => .failed e

/-- `XHTML_NAMESPACE`, `uxml/html5.py` 246. -/
def xhtmlNamespace : Str := "http://www.w3.org/1999/xhtml".toList

/-- What an `element` of `uxml/html5.py` says of itself: `xml_name`, and the attributes `xml_html5lib_name` and
`xml_html5lib_namespace` if the object has them (`uxml/html5.py` 284-287). -/
structure H5Names where
  xmlName : Str
  h5name : Option (Option Str)
  h5namespace : Option (Option Str)
deriving DecidableEq, Repr

/-- `element.name`, `uxml/html5.py` 107-109; html5lib may have named the element None. -/
def H5Names.name (e : H5Names) : Option Str := e.h5name.getD (some e.xmlName)

/-- `element.namespace`, `uxml/html5.py` 111-113. -/
def H5Names.namespace (e : H5Names) : Option Str := e.h5namespace.getD none

/-- `element.nameTuple`, `uxml/html5.py` 115-119. -/
def H5Names.nameTuple (e : H5Names) : Option Str × Option Str := (e.namespace, e.name)

/-- `not s` for None or a string. -/
def falsy : Option Str → Bool
  | some (_ :: _) => false
  | _ => true

/-- `eclass(name, namespace)`, `uxml/html5.py` 265-288. -/
def eclass (useXhtmlNs : Bool) (name ns : Option Str) : H5Names :=
  -- 267-273: xml_html5lib_namespace and namespace
  let s1 : Option (Option Str) × Option Str :=
    if !useXhtmlNs && ns == some xhtmlNamespace then (some ns, none) else (none, ns)
  -- 275-277: xml_html5lib_name and name
  let s2 : Option (Option Str) × Str := if falsy name then (some name, unnamed) else (none, name.getD [])
  -- 280-281
  let h5ns := if s2.2.contains ':' && falsy s1.2 then some s1.2 else s1.1
  { xmlName := qnameToLocal s2.2, h5name := s2.1, h5namespace := h5ns }      -- 283-288

/-- What `element.cloneNode`, `uxml/html5.py` 153-158, gives the copy: a new object, so neither of the two
attributes is there. -/
def H5Names.clone (e : H5Names) : H5Names := { xmlName := e.xmlName, h5name := none, h5namespace := none }

/-- `element.cloneNode` in memory, `uxml/html5.py` 153-158: `tree.element.__init__` with no parent (134). -/
def Heap.cloneNode (h : Heap) (e : Id) : Except MutErr (Id × Heap) :=
  match h.obj e with
  | some (.elem n as _ _) => .ok (h.newElement n as)
  | _ => .error .attributeError

/-- `node.hasContent`, `uxml/html5.py` 84-87. -/
def Heap.hasContent (h : Heap) (e : Id) : Bool := !(h.children e).isEmpty

/-- `for node in nodes: self.xml_append(node)`, `uxml/html5.py` 127-128. -/
def Heap.appendAll (h : Heap) (e : Id) : List HChild → Except MutErr Heap
  | [] => .ok h
  | c :: r => do (← h.xmlAppend e c.child).appendAll e r

/-- `e.childNodes = nodes`, `uxml/html5.py` 125-129: the element gets a new list.  The loop may go over the old
list, which does not change. -/
def Heap.setChildNodes (h : Heap) (e : Id) (nodes : List HChild) : Except MutErr Heap :=
  match h.obj e with
  | some (.elem ..) => (h.setChildren e []).appendAll e nodes
  | _ => .error .attributeError

/-- What html5lib appends to a `document`: elements made by `eclass`, comments, and the `tree.element` that
`doctypeClass` makes (`uxml/html5.py` 256-258). -/
inductive RootNode where
  | elem (i : Id)
  | comment (data : Str)
  | doctype (i : Id)
deriving DecidableEq, Repr

/-- `document.appendChild`, `uxml/html5.py` 223-224. -/
def docAppend (roots : List RootNode) (n : RootNode) : List RootNode := roots ++ [n]

/-- `isinstance(e, element)` for the `element` of `uxml/html5.py`. -/
def RootNode.isElement : RootNode → Bool
  | .elem _ => true
  | _ => false

/-- What `html5.parse` returns of the document, `uxml/html5.py` 322-323. -/
def firstElement (roots : List RootNode) : Option RootNode := roots.find? RootNode.isElement

end Amara
