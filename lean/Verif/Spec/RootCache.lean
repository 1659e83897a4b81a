import Verif.Model.Heap
/-
Specification: the top of a tree in memory.
-/
namespace Amara

/-- `r` is the top of the tree the element is in: following `xml_parent` from it ends at `r`. -/
inductive Top (h : Heap) : Id → Id → Prop
  | root {e} : h.xmlParent e = none → Top h e e
  | up {e p r} : h.xmlParent e = some p → Top h p r → Top h e r

/-- `x` is `e` or one of its ancestors. -/
inductive Up (h : Heap) : Id → Id → Prop
  | refl (e) : Up h e e
  | step {e p x} : h.xmlParent e = some p → Up h p x → Up h e x

end Amara
