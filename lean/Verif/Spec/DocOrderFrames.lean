import Verif.Spec.DocOrder
/-
Specification for unions at Python's limit on nested calls.
-/
namespace Amara

/-- At least `k` elements are around this one in the tree under `t`. -/
def Deep (h : Heap) (t : Id) (k : Nat) (i : Id) : Prop := ∃ j, k ≤ j ∧ upTimes h j i = some t

end Amara
