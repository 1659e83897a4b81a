import Verif.Model.TreeIter
/-
The attribute mappings as objects.  An element does not own its attributes: `xml_attributes` is a reference to a
dictionary, which may be the one of an event, of another element or of the client.

Simplifications.  Elements and dictionaries are numbered in the order they are made, and are not garbage collected.
Of an element only its `xml_attributes` is kept here; names and children are the subject of `Model/Heap`.
-/
namespace Amara

/-- The dictionaries in memory; the ones the program holds a reference to (the third component of an event included),
in the order it got them; and for each element made so far the dictionary that is its `xml_attributes`. -/
structure DMem where
  dicts : List Attrs
  held : List Nat
  elems : List Nat
deriving DecidableEq, Repr

/-- Nothing yet. -/
def DMem.empty : DMem := ⟨[], [], []⟩

/-- The contents of a dictionary. -/
def DMem.dict (m : DMem) (d : Nat) : Attrs := m.dicts.getD d []

/-- What `e.xml_attributes` shows, for each element in the order they were made. -/
def DMem.attributes (m : DMem) : List Attrs := m.elems.map m.dict

/-- What a program can do with attribute mappings. -/
inductive AOp where
  /-- a new dictionary: one the client makes, or the one in a start-element event, which is a copy of the parser's
  (`uxml/parser.py` 229-232) or new (`uxml/xml.py` 28) -/
  | mapping (as : Attrs)
  /-- a reference to the attributes of element `e` is kept -/
  | hold (e : Nat)
  /-- `element(name)`, or `element(name, d)` for the dictionary held as number `h` -/
  | element (h : Option Nat)
  /-- html5lib's `e.cloneNode()` -/
  | clone (e : Nat)
  /-- `e.xml_attributes[k] = v`, `del e.xml_attributes[k]`, `e.xml_attributes.clear()`, ... -/
  | change (e : Nat) (f : Attrs → Attrs)
  /-- the same for a dictionary the program holds -/
  | changeHeld (h : Nat) (f : Attrs → Attrs)
  /-- `e.xml_attributes = d` -/
  | assign (e h : Nat)

/-- A dictionary is changed in place. -/
def DMem.modify (m : DMem) (d : Nat) (f : Attrs → Attrs) : DMem := { m with dicts := m.dicts.modify d f }

/-- `self.xml_attributes = {}`, a new dictionary: `attrs or {}` when `attrs` is None or empty, `uxml/tree.py` 74. -/
def DMem.bare (m : DMem) : DMem := { m with dicts := m.dicts ++ [[]], elems := m.elems ++ [m.dicts.length] }

/-- `self.xml_attributes = attrs or {}`, `uxml/tree.py` 74: the given dictionary itself, unless it is empty. -/
def DMem.make (m : DMem) (d : Nat) : DMem :=
  if m.dict d = [] then m.bare else { m with elems := m.elems ++ [d] }

/-- One operation.  One that refers to an element or a dictionary that does not exist does nothing. -/
def DMem.step (m : DMem) : AOp → DMem
  | .mapping as => { m with dicts := m.dicts ++ [as], held := m.held ++ [m.dicts.length] }
  | .hold e => match m.elems[e]? with
    | some d => { m with held := m.held ++ [d] }
    | none => m
  | .element none => m.bare
  | .element (some h) => match m.held[h]? with
    | some d => m.make d
    | none => m
  /- `element(self.xml_name, attrs=self.xml_attributes.copy())`, `uxml/html5.py` 157-158 -/
  | .clone e => match m.elems[e]? with
    | some d => { m with dicts := m.dicts ++ [m.dict d] }.make m.dicts.length
    | none => m
  | .change e f => match m.elems[e]? with
    | some d => m.modify d f
    | none => m
  | .changeHeld h f => match m.held[h]? with
    | some d => m.modify d f
    | none => m
  | .assign e h => match m.held[h]? with
    | some d => { m with elems := m.elems.set e d }
    | none => m

/-- A sequence of operations. -/
def DMem.run (m : DMem) (p : List AOp) : DMem := p.foldl DMem.step m

/-- What the tree builder does with the attributes of an event, `uxml/tree.py` 214-215, when `n` dictionaries are held:
an element is made with the dictionary of the event itself. -/
def builderOps (n : Nat) : Event → List AOp
  | .start _ as _ => [.mapping as, .element (some n)]
  | _ => []

/-- How many patterns of a sender make an element for a start-element event, `uxml/treeiter.py` 131-138: those whose
building depth grows. -/
def Sender.builders (s s' : Sender) : Nat :=
  (s.pats.zip s'.pats).countP fun x => x.1.2.depth < x.2.2.depth

/-- What a sender does with the attributes of an event, `uxml/treeiter.py` 124-146, when `n` dictionaries are held: each
pattern that is building, or has just matched, makes an element with the dictionary of the event itself. -/
def senderAttrOps (n : Nat) (s s' : Sender) : Event → List AOp
  | .start _ as _ => .mapping as :: List.replicate (s.builders s') (.element (some n))
  | _ => []

/-- A parse by the tree builder, with what the client does after each event. -/
def builderProgram : Nat → List (Event × List AOp) → List AOp
  | _, [] => []
  | n, (ev, p) :: r =>
    builderOps n ev ++ p ++ builderProgram (match ev with | .start .. => n + 1 | _ => n) r

/-- A run of a sender, with what its sinks and the client do after each event, up to an exception. -/
def senderProgram : Nat → Sender → List (Event × List AOp) → List AOp
  | _, _, [] => []
  | n, s, (ev, p) :: r =>
    match (s.handle (fun _ => none) ev).2 with
    | none => []
    | some s' => senderAttrOps n s s' ev ++ p ++ senderProgram (match ev with | .start .. => n + 1 | _ => n) s' r

end Amara
