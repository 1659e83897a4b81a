import Verif.Model.Heap
import Verif.Spec.MicroXml
/-
Specification: an object in memory is a given tree.
-/
namespace Amara

mutual
  /-- `Rep h p i t`: the object `i` is the root of the tree `t`: it has its name, attributes and text,
  its children are, in order and without repetition, the children of `t`, its `xml_parent` is `p`, and
  the `xml_parent` of every child is the element that lists it. -/
  def Rep (h : Heap) (p : Option Id) (i : Id) : Node → Prop
    | .elem n as ts => ∃ cs q, h.obj i = some (.elem n as cs q) ∧ h.xmlParent i = p ∧ cs.Nodup ∧
        RepList h i cs ts
    | .text s => ∃ q, h.obj i = some (.text s q) ∧ h.xmlParent i = p
  /-- The objects `cs`, children of `par`, are the trees `ts`. -/
  def RepList (h : Heap) (par : Id) (cs : List Id) : List Node → Prop
    | [] => cs = []
    | t :: ts => ∃ c r, cs = c :: r ∧ Rep h (some par) c t ∧ RepList h par r ts
end

/-- An end-element event. -/
def Event.isStop : Event → Bool
  | .stop .. => true
  | _ => false

/-- `Described evs t`: `evs` are the events of the tree `t` up to some end-element events missing at
the end, or there are no events and no tree. -/
def Described (evs : List Event) : Option Node → Prop
  | none => evs = []
  | some t => t.isText = false ∧ evs ≠ [] ∧ ∃ missing, (∀ ev ∈ missing, ev.isStop = true) ∧
      evs ++ missing = t.events []

/-- The result of a parse is the tree `t`. -/
def IsTree (h : Heap) (root : Option Id) : Option Node → Prop
  | none => root = none
  | some t => ∃ i, root = some i ∧ Rep h none i t

end Amara
