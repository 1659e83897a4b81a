import Verif.Spec.Edit
import Verif.Spec.Selectors
import Verif.Spec.Tree
/-
Specification for C177: a program that marks or renames what a query with tests finds.

    for e in list(doc.xml_xpath('//m[t]')): e.xml_attributes[k] = v
    for e in list(doc.xml_xpath('//m[t]')): e.xml_attributes.pop(k, None)
    for e in list(doc.xml_xpath('//m[t]')): e.xml_name = m2
-/
namespace Amara

/-- What is done to each element: `e.xml_attributes[k] = v`, `e.xml_attributes.pop(k, None)`, or `e.xml_name = m`. -/
inductive Touch where
  | set (k v : Str)
  | pop (k : Str)
  | name (m : Str)

def Touch.onHeap (h : Heap) (e : Id) : Touch → Heap
  | .set k v => h.changeAttrs e fun as => as.set k v
  | .pop k => h.changeAttrs e fun as => as.filter fun a => a.1 ≠ k
  | .name m => h.rename e m

/-- The loop. -/
def touchAll (c : Touch) (h : Heap) (xs : List Id) : Heap := xs.foldl (fun h e => c.onHeap h e) h

/-- The name and the attributes an element has afterwards. -/
def Touch.tag : Touch → Str → Attrs → Str × Attrs
  | .set k v, n, as => (n, as.set k v)
  | .pop k, n, as => (n, as.filter fun a => a.1 ≠ k)
  | .name m, _, as => (m, as)

/-- The name, or the name and the value, can be written. -/
def Touch.Writable : Touch → Prop
  | .set k v => IsName k ∧ AttrValue v
  | .pop _ => True
  | .name m => IsName m

/-- What is at a position before and after: nothing; the same text; an element with the new tag if it is one of those touched and with the old
one if not. -/
def Touch.Becomes (c : Touch) (touched : Prop) : Option Node → Option Node → Prop
  | none, none => True
  | some (.text s), some (.text s') => s' = s
  | some (.elem n as _), some (.elem n' as' _) => (touched → (n', as') = c.tag n as) ∧ (¬ touched → n' = n ∧ as' = as)
  | _, _ => False

/-- The tree `d'` has the same nodes as `d`, at the same positions, but for the tags of the elements at the positions `P`. -/
def Node.TouchedAt (c : Touch) (P : Path → Prop) (d d' : Node) : Prop := ∀ q, c.Becomes (P q) (d.at? q) (d'.at? q)

end Amara
