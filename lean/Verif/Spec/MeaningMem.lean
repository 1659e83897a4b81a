import Verif.Spec.Meaning
import Verif.Spec.XHeap
/-
C156 on objects in memory: the object at a place.
-/
namespace Amara

variable {F : Type}

/-- The object at a place of the tree of `t`: the root node of `t`, or the object that is found there, counting children. -/
def Spot.InMemory (h : Heap) (t : Id) : Spot → Mem.Item F → Prop
  | .root, x => x = .root t
  | .at p, x => ∃ i, h.locate t p = some i ∧ x = .obj i

end Amara
