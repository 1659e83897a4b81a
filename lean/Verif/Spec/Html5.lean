/-
Specification for the HTML tree adapter.
-/
import Verif.Model.Html5
import Verif.Spec.Heap
import Verif.Spec.Mutate

namespace Amara

mutual
  /-- `t'` is `t` with empty text nodes put in among the children of its elements. -/
  inductive GainsEmptyText : Node → Node → Prop
    | text (s) : GainsEmptyText (.text s) (.text s)
    | elem {n as ts ts'} : GainEmptyTexts ts ts' → GainsEmptyText (.elem n as ts) (.elem n as ts')
  inductive GainEmptyTexts : List Node → List Node → Prop
    | nil : GainEmptyTexts [] []
    | keep {t t' ts ts'} : GainsEmptyText t t' → GainEmptyTexts ts ts' →
        GainEmptyTexts (t :: ts) (t' :: ts')
    | gain {ts ts'} : GainEmptyTexts ts ts' → GainEmptyTexts ts (.text [] :: ts')
end

/-- The tree adapter puts a comment into the tree. -/
inductive PutsComment (h : Heap) (e : Id) (data : Str) (h' : Heap) : Prop
  | append : h.appendChild e (.comment data) = .ok h' → PutsComment h e data h'
  | before (ref : HChild) : h.insertBefore e (.comment data) ref = .ok h' → PutsComment h e data h'

/-- Histories of html5lib working on trees: nodes are created, appended, inserted before others,
removed from child lists, copied, given other children altogether, and let go. -/
inductive HSteps : Heap → Heap → Prop
  | refl {h} : HSteps h h
  | newElement {h h' n as} : HSteps h h' → HSteps h (h'.newElement n as).2
  | newText {h h' s} : HSteps h h' → HSteps h (h'.newText s).2
  | append {h h' h'' e c} : HSteps h h' → h'.appendChild e c = .ok h'' → HSteps h h''
  | before {h h' h'' e c r} : HSteps h h' → h'.insertBefore e c r = .ok h'' → HSteps h h''
  | text {h h' h'' e s r} : HSteps h h' → h'.insertText e s r = .ok h'' → HSteps h h''
  | remove {h h' h'' e c} : HSteps h h' → h'.removeChild e c = .ok h'' → HSteps h h''
  | clone {h h' x h'' e} : HSteps h h' → h'.cloneNode e = .ok (x, h'') → HSteps h h''
  | children {h h' h'' e cs} : HSteps h h' → h'.setChildNodes e cs = .ok h'' → HSteps h h''
  | release {h h' h''} : HSteps h h' → Released h' h'' → HSteps h h''

end Amara

namespace Amara

/-- `l` is what follows the last colon of `q` (all of it if there is none). -/
def LocalPart (q l : Str) : Prop := ':' ∉ l ∧ (q = l ∨ ∃ p, q = p ++ ':' :: l)

/-- The attribute name that a key given by html5lib stands for: the local part of the second item of a
tuple; a string itself, unless it is a namespace declaration. -/
inductive StandsFor : AttrKey → Str → Prop
  | tuple {s l} : LocalPart s l → StandsFor (.tuple s) l
  | name {s} : (¬ ∃ r, s = "xmlns".toList ++ r) → StandsFor (.name s) s

end Amara

namespace Amara

/-- `x` stands for `c` among the children of `e`: its `xml_parent` is `e`, and it is `c` itself if that is an element,
else a new text with the characters of `c` (none for a comment). -/
def StandsAs (h h' : Heap) (e : Id) (c : HChild) (x : Id) : Prop :=
  h'.xmlParent x = some e ∧
  match c with
  | .node k => (h.isElem k → x = k) ∧
      ∀ s p, h.obj k = some (.text s p) → h.obj x = none ∧ h'.obj x = some (.text s (some e))
  | .str s => h.obj x = none ∧ h'.obj x = some (.text s (some e))
  | .comment _ => h.obj x = none ∧ h'.obj x = some (.text [] (some e))

/-- One after the other. -/
inductive StandAs (h h' : Heap) (e : Id) : List HChild → List Id → Prop
  | nil : StandAs h h' e [] []
  | cons {c cs x xs} : StandsAs h h' e c x → StandAs h h' e cs xs → StandAs h h' e (c :: cs) (x :: xs)

/-- A node is listed nowhere. -/
def Unlisted (h : Heap) (c : Id) : Prop := ∀ f, c ∉ h.children f

/-- What may be put into a tree: an element only if it is listed nowhere. -/
def Free (h : Heap) (c : HChild) : Prop := ∀ k, c = .node k → h.isElem k → Unlisted h k

/-- html5lib moves the children of `e` over to `f`: each is appended to `f`, then `e.childNodes = []`. -/
def MovesChildren (h : Heap) (e f : Id) (h' : Heap) : Prop :=
  ∃ h1, h.appendAll f ((h.children e).map .node) = .ok h1 ∧ h1.setChildNodes e [] = .ok h'

/-- Histories of html5lib in which an element is taken out of its list before it is put into another one, and the
children of an element are only moved to another one as a whole. -/
inductive TidySteps : Heap → Heap → Prop
  | refl {h} : TidySteps h h
  | newElement {h h' n as} : TidySteps h h' → TidySteps h (h'.newElement n as).2
  | newText {h h' s} : TidySteps h h' → TidySteps h (h'.newText s).2
  | clone {h h' x h'' e} : TidySteps h h' → h'.cloneNode e = .ok (x, h'') → TidySteps h h''
  | append {h h' h'' e c} : TidySteps h h' → Free h' c → h'.appendChild e c = .ok h'' → TidySteps h h''
  | before {h h' h'' e c r} : TidySteps h h' → Free h' c → h'.insertBefore e c r = .ok h'' → TidySteps h h''
  | text {h h' h'' e s r} : TidySteps h h' → h'.insertText e s r = .ok h'' → TidySteps h h''
  | remove {h h' h'' e c} : TidySteps h h' → h'.removeChild e c = .ok h'' → TidySteps h h''
  | move {h h' h'' e f} : TidySteps h h' → e ≠ f → MovesChildren h' e f h'' → TidySteps h h''
  | release {h h' h''} : TidySteps h h' → Released h' h'' → TidySteps h h''

/-- Whatever is listed has the element that lists it as `xml_parent`, and is listed once. -/
def ListedOnce (h : Heap) : Prop := ∀ e c, c ∈ h.children e → h.xmlParent c = some e ∧ (h.children e).Nodup

end Amara
