import Verif.Model.XHeap
import Verif.Spec.Edit
/-
A query and the objects it has to do with (C154).
-/
namespace Amara

variable {F : Type}

/-- The item is a value, or a node that is, or hangs on, one of these objects. -/
def Mem.Item.Inside (S : Id → Prop) : Mem.Item F → Prop
  | .root t => S t
  | .obj i => S i
  | .attr e _ _ => S e
  | _ => True

/-- These objects hang together among themselves only, in one memory: no child and no parent of one of them is anything else. -/
def Enclosed (S : Id → Prop) (h : Heap) : Prop :=
  ∀ i, S i → (∀ c ∈ h.children i, S c) ∧ ∀ p, h.xmlParent i = some p → S p

/-- One object leads to another: along children and parents. -/
inductive LeadsTo (h : Heap) (i : Id) : Id → Prop
  | refl : LeadsTo h i i
  | child {j c} : LeadsTo h i j → c ∈ h.children j → LeadsTo h i c
  | parent {j p} : LeadsTo h i j → h.xmlParent j = some p → LeadsTo h i p

/-- The object an item is, or hangs on. -/
def Mem.Item.object : Mem.Item F → Option Id
  | .root t => some t
  | .obj i => some i
  | .attr e _ _ => some e
  | _ => none

/-- Two memories in which these objects are the same: names, attributes, characters, children and parents. -/
def SameOn (S : Id → Prop) (h h' : Heap) : Prop := ∀ i, S i → h'.obj i = h.obj i ∧ h'.xmlParent i = h.xmlParent i

/-- A program goes on, and these trees are at each point what they were. -/
inductive EditStepsBeside (R : Id → Prop) : Heap → Forest → Heap → Forest → Prop
  | refl {h T} : EditStepsBeside R h T h T
  | tail {h T h' T' h'' T''} : EditStepsBeside R h T h' T' → EditStep h' T' h'' T'' → (∀ r, R r → T'' r = T' r) →
      EditStepsBeside R h T h'' T''

/-- The objects of the trees with these tops. -/
def InTrees (h : Heap) (R : Id → Prop) (i : Id) : Prop := ∃ r, R r ∧ Reachable h [r] i

end Amara
