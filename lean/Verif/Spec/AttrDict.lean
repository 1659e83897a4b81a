import Verif.Model.AttrDict
/-
Specification: attributes as values.
-/
namespace Amara

/-- Mappings as values: those the program holds, and the attributes of each element, which are its own. -/
structure AVal where
  held : List Attrs
  attrs : List Attrs
deriving DecidableEq

/-- One operation on values: an element gets its own copy of the mapping it is given, and a change of the attributes of
an element changes that element and nothing else. -/
def AVal.step (v : AVal) : AOp → AVal
  | .mapping as => { v with held := v.held ++ [as] }
  | .hold e => match v.attrs[e]? with
    | some a => { v with held := v.held ++ [a] }
    | none => v
  | .element none => { v with attrs := v.attrs ++ [[]] }
  | .element (some h) => match v.held[h]? with
    | some a => { v with attrs := v.attrs ++ [a] }
    | none => v
  | .clone e => match v.attrs[e]? with
    | some a => { v with attrs := v.attrs ++ [a] }
    | none => v
  | .change e f => { v with attrs := v.attrs.modify e f }
  | .changeHeld h f => { v with held := v.held.modify h f }
  | .assign e h => match v.held[h]? with
    | some a => { v with attrs := v.attrs.set e a }
    | none => v

/-- A sequence of operations on values. -/
def AVal.run (v : AVal) (p : List AOp) : AVal := p.foldl AVal.step v

/-- The program hands over each mapping it holds at most once, and leaves it alone after that; `used` are those handed
over so far. A mapping got from an element counts as handed over. -/
def Careful : AVal → List Nat → List AOp → Prop
  | _, _, [] => True
  | v, used, op :: r =>
    match op with
    | .hold e => Careful (v.step (.hold e)) (if e < v.attrs.length then v.held.length :: used else used) r
    | .element (some h) => h ∉ used ∧ Careful (v.step op) (h :: used) r
    | .changeHeld h _ => h ∉ used ∧ Careful (v.step op) used r
    | .assign _ h => h ∉ used ∧ Careful (v.step op) (h :: used) r
    | _ => Careful (v.step op) used r

/-- The operation does not involve a mapping the program holds. -/
def AOp.onElements : AOp → Prop
  | .element none => True
  | .clone _ => True
  | .change _ _ => True
  | _ => False

end Amara
