import Verif.Model.Expat
import Verif.Spec.Heap
import Verif.Spec.Nesting
import Verif.Spec.Tree
/-
Specification for trees from full XML.
-/
namespace Amara

/-- No white space character (of Unicode, as Python sees it) in the string. -/
def NoSpace (s : Str) : Prop := ∀ c ∈ s, isPySpace c = false

/-- `QName q l`: `q` is how expat reports the name with local part `l`: the local part alone, or a
namespace name, a space and the local part; neither has white space in it. -/
def QName (q l : Str) : Prop :=
  l ≠ [] ∧ NoSpace l ∧ (q = l ∨ ∃ uri, uri ≠ [] ∧ NoSpace uri ∧ q = uri ++ ' ' :: l)

/-- The attributes of a callback, with their local names. -/
inductive ReportsAttrs : List (Str × Str) → List (Str × Str) → Prop
  | nil : ReportsAttrs [] []
  | cons {q l v qs ls} : QName q l → ReportsAttrs qs ls → ReportsAttrs ((q, v) :: qs) ((l, v) :: ls)

/-- The callbacks report the events, with qualified names; two attributes with the same local name fall
together. -/
inductive Reports : List XCall → List Event → Prop
  | nil : Reports [] []
  | start {q l attrs ls anc cbs evs} : QName q l → ReportsAttrs attrs ls → Reports cbs evs →
      Reports (.start q attrs :: cbs) (.start l (dictOf ls) anc :: evs)
  | stop {q l anc cbs evs} : QName q l → Reports cbs evs → Reports (.stop q :: cbs) (.stop l anc :: evs)
  | chars {s cbs evs} : Reports cbs evs → Reports (.chars s :: cbs) (.chars s :: evs)

/-- Consecutive texts joined and empty ones dropped. -/
def joinChars : List Event → List Event
  | [] => []
  | .chars s :: r =>
    if s = [] then joinChars r
    else match joinChars r with
      | .chars t :: r' => .chars (s ++ t) :: r'
      | r' => .chars s :: r'
  | e :: r => e :: joinChars r

/-- Objects and stored links are numbered below the counter. -/
def WellFormed (h : Heap) : Prop := ∀ i o, h.obj i = some o → i < h.next ∧ ∀ p, o.link = some p → p < h.next

/-- Any number of parses by one builder, one after the other, whatever each is given and however it ends. -/
inductive XParses : Builder → Builder → Prop
  | refl {b} : XParses b b
  | tail {b b' b'' cbs x r} : XParses b b' → XTreeParse b' cbs x r b'' → XParses b b''

end Amara
