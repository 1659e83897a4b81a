import Verif.Spec.Bones
import Verif.Spec.MicroxTests
/-
Specification for C171: queries in two documents with the same elements but other text between them.

`CorePath.Within v` and so on single out the queries meant: no text nodes are asked for, and unless `v` holds the text of
elements is not looked at (that of attributes may be).
-/
namespace Amara

mutual
  def CorePath.Within (v : Prop) : CorePath → Prop
    | .here | .up | .step _ _ | .children | .nth _ _ _ => True
    | .abs p | .anywhere p | .deep p _ => p.Within v
    | .seq p q | .either p q => p.Within v ∧ q.Within v
    | .filter p c => p.Within v ∧ c.Within v
  def CoreTest.Within (v : Prop) : CoreTest → Prop
    | .found p | .foundAttr p _ => p.Within v
    | .attr _ | .attrIs _ _ | .yes | .no => True
    | .valueIs _ | .contains _ | .startsWith _ => v
    | .not c => c.Within v
    | .and c d | .or c d => c.Within v ∧ d.Within v
end

/-- A last step to attributes. -/
def CoreEnd.OfAttrs : CoreEnd → Prop
  | .texts | .nodes => False
  | .attr _ | .attrs => True

def CoreList.Within (v : Prop) : CoreList → Prop
  | .path p => p.Within v
  | .last e => e.OfAttrs
  | .after p e => p.Within v ∧ e.OfAttrs
  | .allTexts _ => False
  | .abs l | .anywhere l => l.Within v

/-- The query is for attributes. -/
def CoreList.OfAttrs : CoreList → Prop
  | .path _ | .allTexts _ => False
  | .last e | .after _ e => e.OfAttrs
  | .abs l | .anywhere l => l.OfAttrs

def TestedList.OfAttrs : TestedList → Prop
  | .path _ => False
  | .core l | .seq _ l => l.OfAttrs

mutual
  def TestedPath.Within (v : Prop) : TestedPath → Prop
    | .core p => p.Within v
    | .seq p q => p.Within v ∧ q.Within v
    | .deep p _ | .number p _ => p.Within v
    | .filter p ts | .numberThen p _ ts => p.Within v ∧ ts.Within v
  def TestedList.Within (v : Prop) : TestedList → Prop
    | .path p => p.Within v
    | .core l => l.Within v
    | .seq p l => p.Within v ∧ l.Within v
  def Tests.Within (v : Prop) : Tests → Prop
    | .one t => t.Within v
    | .more t ts => t.Within v ∧ ts.Within v
  def ValueTest.Within (v : Prop) : ValueTest → Prop
    | .found l | .count l _ _ | .countIs l _ => l.Within v
    | .is l _ | .contains l _ | .startsWith l _ => l.Within v ∧ (v ∨ l.OfAttrs)
    | .nameIs _ => True
    | .not t => t.Within v
    | .and t t' | .or t t' => t.Within v ∧ t'.Within v
end

def TestedQuery.Within (v : Prop) : TestedQuery → Prop
  | .list l | .count l => l.Within v
  | .string l => l.Within v ∧ (v ∨ l.OfAttrs)
  | .name p => p.Within v

/-- Elements at the same place, counting only elements among the siblings at each level. -/
def SameElem (d d' : Node) (p p' : Path) : Prop := d.ElemAt p ∧ d'.ElemAt p' ∧ d.among p = d'.among p'

/-- The same place. -/
def SameSpot (d d' : Node) : Spot → Spot → Prop
  | .root, .root => True
  | .at p, .at p' => SameElem d d' p p'
  | _, _ => False

/-- The same element, or the same attribute of the same element. -/
def SameFound (d d' : Node) : Found → Found → Prop
  | .node u, .node u' => SameSpot d d' u u'
  | .attr p k v, .attr p' k' v' => SameElem d d' p p' ∧ k = k' ∧ v = v'
  | _, _ => False

end Amara
