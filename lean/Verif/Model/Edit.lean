import Verif.Model.Heap
/-
What a client can do to an element besides calling its methods: its attributes and its name are plain fields
(`pylib/uxml/tree.py` 71-76).

Simplification: an element has its attributes to itself.  That holds as long as no program gives one mapping to two
elements; `Model/AttrDict` and C117 are about programs that do.
-/
namespace Amara

/-- `e.xml_attributes[k] = v`, `del e.xml_attributes[k]` or any other change of the mapping in place: `uxml/tree.py` 74. -/
def Heap.changeAttrs (h : Heap) (e : Id) (f : Attrs → Attrs) : Heap :=
  match h.obj e with
  | some (.elem n as cs p) => h.set e (.elem n (f as) cs p)
  | _ => h

/-- `e.xml_name = m`: `uxml/tree.py` 73. -/
def Heap.rename (h : Heap) (e : Id) (m : Str) : Heap :=
  match h.obj e with
  | some (.elem _ as cs p) => h.set e (.elem m as cs p)
  | _ => h

end Amara
