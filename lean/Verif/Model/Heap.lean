import Verif.Model.Tree
/-
Element and text objects in memory: identity, child lists and weak parent links, the tree builder
(`pylib/uxml/tree.py` 206-254) under a garbage collector, and the mutation methods of elements.
-/
namespace Amara

/-- Identity of an object. Identities are not reused (a weak reference to a collected object stays
dead even if CPython later reuses its address). -/
abbrev Id := Nat

/-- An object: `element` (`uxml/tree.py` 71-76) or `text` (162-170). `parent` is `_xml_parent`
(`uxml/tree.py` 21): a weak reference or None. -/
inductive Obj where
  | elem (name : Str) (attrs : Attrs) (children : List Id) (parent : Option Id)
  | text (s : Str) (parent : Option Id)
deriving DecidableEq, Repr

/-- The stored parent link. -/
def Obj.link : Obj → Option Id
  | .elem _ _ _ p => p
  | .text _ p => p

/-- `xml_children`: the list of an element (`uxml/tree.py` 75), `[]` for text (183-184). -/
def Obj.kids : Obj → List Id
  | .elem _ _ cs _ => cs
  | .text _ _ => []

/-- Memory: the objects that exist, and the next identity. -/
structure Heap where
  next : Nat
  obj : Id → Option Obj

/-- Assignment to an object. -/
def Heap.set (h : Heap) (i : Id) (o : Obj) : Heap := { h with obj := fun j => if j = i then some o else h.obj j }

/-- Creation of an object. -/
def Heap.alloc (h : Heap) (o : Obj) : Heap := { (h.set h.next o) with next := h.next + 1 }

/-- `xml_parent`, `uxml/tree.py` 25-27: the weak reference gives None once its target is gone. -/
def Heap.deref (h : Heap) (p : Option Id) : Option Id :=
  match p with
  | some i => if (h.obj i).isSome then some i else none
  | none => none

/-- The `xml_parent` of an object. -/
def Heap.xmlParent (h : Heap) (i : Id) : Option Id := h.deref ((h.obj i).bind Obj.link)

/-- The `xml_children` of an object. -/
def Heap.children (h : Heap) (i : Id) : List Id := ((h.obj i).map Obj.kids).getD []

/-- Strongly reachable: child lists hold strong references, parent links are weak. -/
inductive Reachable (h : Heap) (roots : List Id) : Id → Prop
  | root {i} : i ∈ roots → Reachable h roots i
  | child {i c} : Reachable h roots i → c ∈ h.children i → Reachable h roots c

/-- Any run of the collector: some objects that are not reachable disappear. -/
def Collected (roots : List Id) (h h' : Heap) : Prop :=
  h'.next = h.next ∧ ∀ i, h'.obj i = h.obj i ∨ (h'.obj i = none ∧ ¬ Reachable h roots i)

/-! ### the tree builder -/

/-- A tree builder in the middle of a parse: memory, `_root`, `_parent` (`uxml/tree.py` 208-209) and
the handler's local variables `new_element` (215) and `new_text` (223). -/
structure Builder where
  heap : Heap
  root : Option Id
  parent : Option Id
  newElement : Option Id
  newText : Option Id

/-- Everything the builder refers to strongly. -/
def Builder.roots (b : Builder) : List Id :=
  b.root.toList ++ b.parent.toList ++ b.newElement.toList ++ b.newText.toList

/-- The assignments of the handler, `uxml/tree.py` 215-227. -/
inductive Op where
  | makeElement (n : Str) (as : Attrs)
  | linkElement
  | moveDown
  | setRoot
  | makeText (s : Str)
  | linkText
  | moveUp
deriving DecidableEq, Repr

/-- `x.xml_children.append(c)`. -/
def Heap.append (h : Heap) (x c : Id) : Heap :=
  match h.obj x with
  | some (.elem n as cs p) => h.set x (.elem n as (cs ++ [c]) p)
  | _ => h

/-- One assignment.  Elements are always true, so `if self._parent` asks whether it is None. -/
def Op.exec (b : Builder) : Op → Builder
  | .makeElement n as =>      -- 215
    { b with heap := b.heap.alloc (.elem n as [] b.parent), newElement := some b.heap.next }
  | .linkElement =>           -- 217
    match b.parent, b.newElement with
    | some p, some c => { b with heap := b.heap.append p c }
    | _, _ => b
  | .moveDown => { b with parent := b.newElement }      -- 218
  | .setRoot => if b.root = none then { b with root := b.newElement } else b      -- 221
  | .makeText s =>            -- 223
    { b with heap := b.heap.alloc (.text s b.parent), newText := some b.heap.next }
  | .linkText =>              -- 224
    match b.parent, b.newText with
    | some p, some c => { b with heap := b.heap.append p c }
    | _, _ => b
  | .moveUp =>                -- 226-227
    match b.parent with
    | some p => { b with parent := b.heap.xmlParent p }
    | none => b

/-- What the handler does for an event, `uxml/tree.py` 211-228. -/
def Event.ops : Event → List Op
  | .start n as _ => [.makeElement n as, .linkElement, .moveDown, .setRoot]
  | .chars s => [.makeText s, .linkText]
  | .stop _ _ => [.moveUp]

/-- Executions of a list of assignments with something else happening to memory at any point in between: `D` tells
what, given the builder's roots. -/
inductive RunsWith (D : List Id → Heap → Heap → Prop) : List Op → Builder → Builder → Prop
  | done {b} : RunsWith D [] b b
  | collect {ops b h b'} : D b.roots b.heap h → RunsWith D ops { b with heap := h } b' → RunsWith D ops b b'
  | op {o ops b b'} : RunsWith D ops (o.exec b) b' → RunsWith D (o :: ops) b b'

/-- Executions of a list of assignments with the collector running at any point in between. -/
abbrev Runs := RunsWith Collected

/-- The two calls of `send` made by `treebuilder.parse`, `uxml/tree.py` 234-237: the events handed to
the handler, and how the calls end. -/
def drive (doc : Str) : List Event × SendRes :=
  match send newParser doc false with
  | (e1, .returned, p1) =>
    match send p1 [] true with
    | (e2, r2, _) => (e1 ++ e2, r2)
  | (e1, r1, _) => (e1, r1)

/-- How `treebuilder.parse` ends: with a result, or as the parser does. -/
inductive ParseRes where
  | returned (root : Option Id)
  | raised (e : Err)
  | stopIteration
  | never
deriving DecidableEq, Repr

/-- Resetting, `uxml/tree.py` 232-234; the handler is a new generator, so it has no locals yet. -/
def Builder.reset (b : Builder) : Builder :=
  { b with root := none, parent := none, newElement := none, newText := none }

/-- `treebuilder.parse(doc)`, `uxml/tree.py` 230-238, on a builder in any state: all executions. -/
def TreeParse (b : Builder) (doc : Str) (r : ParseRes) (b' : Builder) : Prop :=
  Runs ((drive doc).1.flatMap Event.ops) b.reset b' ∧
  r = match (drive doc).2 with
    | .returned => .returned b'.root
    | .raised e => .raised e
    | .stopIteration => .stopIteration
    | .never => .never

/-- A new tree builder, `uxml/tree.py` 207-209. -/
def Builder.new (h : Heap) : Builder := ⟨h, none, none, none, none⟩

/-! ### mutation -/

/-- `element(name, attrs)` called by a client, `uxml/tree.py` 71-76. -/
def Heap.newElement (h : Heap) (n : Str) (as : Attrs) : Id × Heap := (h.next, h.alloc (.elem n as [] none))

/-- `text(value)` called by a client, `uxml/tree.py` 163-170. -/
def Heap.newText (h : Heap) (s : Str) : Id × Heap := (h.next, h.alloc (.text s none))

/-- `list.insert(i, x)`. -/
def pyInsert {α} (xs : List α) (i : Int) (x : α) : List α :=
  let j := if i < 0 then i + xs.length else i
  let k := j.toNat
  xs.take k ++ x :: xs.drop k

/-- What is passed as a child: a plain string or a node object. -/
inductive Child where
  | str (s : Str)
  | node (i : Id)
deriving DecidableEq, Repr

/-- Errors of the mutation methods. -/
inductive MutErr where
  | valueError
  | attributeError
deriving DecidableEq, Repr

/-- `text(s, parent=self)` or linking an element, `uxml/tree.py` 132-135: the node to be listed. -/
def Heap.attach (h : Heap) (e : Id) : Child → Option (Id × Heap)
  | .str s => some (h.next, h.alloc (.text s (some e)))
  | .node c =>
    match h.obj c with
    | some (.text s _) => some (h.next, h.alloc (.text s (some e)))
    | some (.elem n as cs _) => some (c, h.set c (.elem n as cs (some e)))
    | none => none

/-- Replacing the child list of an element. -/
def Heap.setChildren (h : Heap) (e : Id) (cs : List Id) : Heap :=
  match h.obj e with
  | some (.elem n as _ p) => h.set e (.elem n as cs p)
  | _ => h

/-- `e.xml_insert(child, index)`, `uxml/tree.py` 126-140. `text` has no such method. -/
def Heap.xmlInsert (h : Heap) (e : Id) (child : Child) (index : Int) : Except MutErr Heap :=
  match h.obj e with
  | some (.elem ..) =>
    match h.attach e child with
    | some (c, h1) =>
      .ok (h1.setChildren e
        (if index = -1 then h1.children e ++ [c] else pyInsert (h1.children e) index c))
    | none => .error .attributeError
  | _ => .error .attributeError

/-- `e.xml_append(child)`, `uxml/tree.py` 117-124. -/
def Heap.xmlAppend (h : Heap) (e : Id) (child : Child) : Except MutErr Heap := h.xmlInsert e child (-1)

/-- `==` of two nodes: text nodes are strings and are compared as such, elements by identity. -/
def Heap.pyEq (h : Heap) (c d : Id) : Bool :=
  c == d || match h.obj c, h.obj d with
    | some (.text s _), some (.text s' _) => s == s'
    | _, _ => false

/-- Clearing a parent link. -/
def Heap.unlink (h : Heap) (c : Id) : Heap :=
  match h.obj c with
  | some (.elem n as cs _) => h.set c (.elem n as cs none)
  | some (.text s _) => h.set c (.text s none)
  | none => h

/-- `e.xml_remove(child)`, `uxml/tree.py` 142-154: membership and `list.remove` go by `==`. -/
def Heap.xmlRemove (h : Heap) (e c : Id) : Except MutErr Heap :=
  match h.obj e with
  | some (.elem ..) =>
    if (h.children e).any (h.pyEq c) then
      .ok ((h.unlink c).setChildren e ((h.children e).eraseP (h.pyEq c)))
    else .error .valueError
  | _ => .error .attributeError

end Amara
