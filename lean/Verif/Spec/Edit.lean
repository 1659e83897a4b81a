import Verif.Model.Edit
import Verif.Spec.Path
import Verif.Spec.Mutate
import Verif.Spec.Heap
import Verif.Spec.MicroXml
/-
Specification for programs that load, edit and save documents.  The trees a program holds are values here, without
identity, parent links or garbage: `Forest`.  `EditStep` has, for every thing the program can do, the call on objects in
memory and beside it what that means for the values.
-/
namespace Amara

/-- The object at a position below an object: child number `k`, and so on. -/
def Heap.locate (h : Heap) (i : Id) : Path → Option Id
  | [] => some i
  | k :: p =>
    match (h.children i)[k]? with
    | some c => h.locate c p
    | none => none

/-- The tree with the node at a position replaced by `f` of it. -/
def Node.change (f : Node → Node) : Path → Node → Node
  | [], t => f t
  | k :: p, .elem n as ts => .elem n as (ts.modify k (Node.change f p))
  | _ :: _, .text s => .text s

/-- A child put in where `xml_insert(child, i)` should put it (`insertPos`). -/
def Node.insertChild (i : Int) (u : Node) : Node → Node
  | .elem n as ts => .elem n as (ts.take (insertPos ts.length i) ++ u :: ts.drop (insertPos ts.length i))
  | .text s => .text s

/-- Child number `k` taken out. -/
def Node.eraseChild (k : Nat) : Node → Node
  | .elem n as ts => .elem n as (ts.eraseIdx k)
  | .text s => .text s

/-- Other attributes. -/
def Node.changeAttrs (f : Attrs → Attrs) : Node → Node
  | .elem n as ts => .elem n (f as) ts
  | .text s => .text s

/-- Another name. -/
def Node.rename (m : Str) : Node → Node
  | .elem _ as ts => .elem m as ts
  | .text s => .text s

/-- The trees a program holds, by their top nodes. -/
abbrev Forest := Id → Option Node

/-- One tree more, or another one in its place. -/
def Forest.put (F : Forest) (i : Id) (t : Node) : Forest := fun j => if j = i then some t else F j

/-- One tree less. -/
def Forest.drop (F : Forest) (i : Id) : Forest := fun j => if j = i then none else F j

/-- The program has a reference to the top node of each of its trees, so the collector leaves these alone. -/
def Forest.HeldBy (F : Forest) (held : List Id) : Prop := ∀ i, F i ≠ none → i ∈ held

/-- `treebuilder.parse(doc)` as in `TreeParse`, while the program holds other objects. -/
def ParseHolding (held : List Id) (b : Builder) (doc : Str) (r : ParseRes) (b' : Builder) : Prop :=
  RunsWith (fun roots h h' => Collected (roots ++ held) h h') ((drive doc).1.flatMap Event.ops) b.reset b' ∧
  r = match (drive doc).2 with
    | .returned => .returned b'.root
    | .raised e => .raised e
    | .stopIteration => .stopIteration
    | .never => .never

/-- One thing a program does: on objects, and on values. -/
inductive EditStep : Heap → Forest → Heap → Forest → Prop
  /-- a document is parsed, by any builder -/
  | parse {F held b doc t i b'} : F.HeldBy held → IsDoc t doc → ParseHolding held b doc (.returned (some i)) b' →
      EditStep b.heap F b'.heap (F.put i t)
  /-- anything is parsed, and the result, if there is one, not used -/
  | parseOther {F held b doc r b'} : F.HeldBy held → ParseHolding held b doc r b' → EditStep b.heap F b'.heap F
  /-- `element(n, as)` -/
  | newElement {h F} (n as) : EditStep h F (h.newElement n as).2 (F.put (h.newElement n as).1 (.elem n as []))
  /-- `text(s)` -/
  | newText {h F} (s) : EditStep h F (h.newText s).2 (F.put (h.newText s).1 (.text s))
  /-- a string, or a copy of a text node, is inserted into the element at a position of one of the trees -/
  | insertString {h F h' r t p e child s i} : F r = some t → h.locate r p = some e → IsString h child s →
      h.xmlInsert e child i = .ok h' → EditStep h F h' (F.put r (t.change (Node.insertChild i (.text s)) p))
  /-- one tree becomes part of another -/
  | insertTree {h F h' r t p e d u i} : F r = some t → h.locate r p = some e → F d = some u → u.isText = false → d ≠ r →
      h.xmlInsert e (.node d) i = .ok h' → EditStep h F h' ((F.drop d).put r (t.change (Node.insertChild i u) p))
  /-- a part of a tree becomes a tree of its own; if it is a text then the first one with these characters -/
  | remove {h F h' r t p e k c u} : F r = some t → h.locate r p = some e → h.locate r (p ++ [k]) = some c →
      t.at? (p ++ [k]) = some u → (∀ s, u = .text s → ∀ j, j < k → t.at? (p ++ [j]) ≠ some (.text s)) →
      h.xmlRemove e c = .ok h' → EditStep h F h' ((F.put r (t.change (Node.eraseChild k) p)).put c u)
  /-- the attributes of the element at a position are changed -/
  | attributes {h F r t p e} (f) : F r = some t → h.locate r p = some e →
      EditStep h F (h.changeAttrs e f) (F.put r (t.change (Node.changeAttrs f) p))
  /-- the element at a position gets another name -/
  | rename {h F r t p e} (m) : F r = some t → h.locate r p = some e →
      EditStep h F (h.rename e m) (F.put r (t.change (Node.rename m) p))
  /-- a tree is given up -/
  | forget {h F} (d) : EditStep h F h (F.drop d)
  /-- the collector runs -/
  | collect {h F h' held} : F.HeldBy held → Collected held h h' → EditStep h F h' F

/-- A program. -/
inductive EditSteps : Heap → Forest → Heap → Forest → Prop
  | refl {h F} : EditSteps h F h F
  | tail {h F h' F' h'' F''} : EditSteps h F h' F' → EditStep h' F' h'' F'' → EditSteps h F h'' F''

/-- How a node is written as a child: `xml_encode` of an element, the escaped characters of a text. -/
def Node.written : Node → Str
  | .elem n as ts => (Node.elem n as ts).encode
  | .text s => escape s

end Amara
