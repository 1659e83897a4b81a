import Verif.Model.RootObjects
import Verif.Spec.RootCache
/-
Specification: programs that ask for root nodes, let go of elements and have them collected.
-/
namespace Amara

/-- What a program can do: ask an absolute path at an element; anything that leaves the objects `keep` as they are; and
at any time the collector may take away what neither the program, which holds `held`, nor the cache leads to. -/
inductive Life (keep : Id → Prop) : Heap × RootStore → Heap × RootStore → Prop
  | refl {w} : Life keep w w
  | ask {w h s n e r s'} : Life keep w (h, s) → (h.obj e).isSome → s.get h n e = some (r, s') → Life keep w (h, s')
  | work {w h s h'} : Life keep w (h, s) → (∀ i, keep i → h'.obj i = h.obj i) → Life keep w (h', s)
  | collect {w h s h'} (held : List Id) : Life keep w (h, s) → Collected (held ++ s.refs) h h' → Life keep w (h', s)

/-- A full collection: everything goes that neither the program nor the cache leads to. -/
def CollectedAll (roots : List Id) (h h' : Heap) : Prop :=
  Collected roots h h' ∧ ∀ i, ¬ Reachable h roots i → h'.obj i = none

/-- This many documents, of one element each, have been made, asked for their root and let go of, one after the other,
with a full collection after each. -/
inductive Visited : Nat → Heap × RootStore → Prop
  | start : Visited 0 (⟨0, fun _ => none⟩, ⟨[], 0⟩)
  | next {k h s n r s' h'} (name : Str) (as : Attrs) : Visited k (h, s) →
      s.get (h.newElement name as).2 n (h.newElement name as).1 = some (r, s') →
      CollectedAll s'.refs (h.newElement name as).2 h' → Visited (k + 1) (h', s')

/-- The ancestors of an element, nearest first. -/
inductive Ancestors (h : Heap) : Id → List Id → Prop
  | top {e} : h.xmlParent e = none → Ancestors h e []
  | up {e p l} : h.xmlParent e = some p → Ancestors h p l → Ancestors h e (p :: l)

/-- The first of these elements that is in the cache gives the root node. -/
def firstCached (s : RootStore) : List Id → Option RootObj
  | [] => none
  | e :: l => match s.find e with
    | some r => some r
    | none => firstCached s l

end Amara
