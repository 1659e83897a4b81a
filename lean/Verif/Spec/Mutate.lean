import Verif.Model.Heap
/-
Specification for the mutation methods: histories of a client, and when links are consistent.
-/
namespace Amara

/-- Is an element object. -/
def Heap.isElem (h : Heap) (i : Id) : Prop := ∃ n as cs p, h.obj i = some (.elem n as cs p)

/-- Some objects disappear; an object listed as a child by a remaining one remains (child lists hold
strong references). -/
def Released (h h' : Heap) : Prop :=
  h'.next = h.next ∧ (∀ i, h'.obj i = h.obj i ∨ h'.obj i = none) ∧
  ∀ i c, c ∈ h'.children i → (h'.obj c).isSome

/-- One step of a client: create a node; insert a string, an existing text node, or a detached element
(one whose `xml_parent` is None); remove an element; or let go of objects. -/
inductive MStep : Heap → Heap → Prop
  | newElement (h n as) : MStep h (h.newElement n as).2
  | newText (h s) : MStep h (h.newText s).2
  | insertStr {h e s i h'} : h.xmlInsert e (.str s) i = .ok h' → MStep h h'
  | insertText {h e c s p i h'} : h.obj c = some (.text s p) → h.xmlInsert e (.node c) i = .ok h' → MStep h h'
  | insertElement {h e c i h'} : h.isElem c → h.xmlParent c = none → h.xmlInsert e (.node c) i = .ok h' →
      MStep h h'
  | remove {h e c h'} : h.isElem c → h.xmlRemove e c = .ok h' → MStep h h'
  | release {h h'} : Released h h' → MStep h h'

/-- Histories. -/
inductive MSteps : Heap → Heap → Prop
  | refl {h} : MSteps h h
  | tail {h h' h''} : MSteps h h' → MStep h' h'' → MSteps h h''

/-- No objects at all. -/
def Heap.empty : Heap := ⟨0, fun _ => none⟩

/-- A node is listed among an element's children exactly when its `xml_parent` is that element, and it
is listed at most once. -/
def Consistent (h : Heap) : Prop :=
  ∀ e, (h.obj e).isSome → (h.children e).Nodup ∧
    ∀ c, c ∈ h.children e ↔ (h.obj c).isSome ∧ h.xmlParent c = some e

/-- Where `xml_insert(child, i)` should put the child in a list of `len` children: -1 means last, other
negative positions count from the end, and positions are clamped to the list. -/
def insertPos (len : Nat) (i : Int) : Nat :=
  if i = -1 then len
  else if 0 ≤ i then min i.toNat len
  else (len + i).toNat

/-- What is passed as a child is a string `s`: plain, or a text node (a text node is a string). -/
def IsString (h : Heap) (child : Child) (s : Str) : Prop :=
  child = .str s ∨ ∃ d p, child = .node d ∧ h.obj d = some (.text s p)

end Amara
