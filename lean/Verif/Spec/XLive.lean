import Verif.Model.XLive
import Verif.Spec.DocOrder
import Verif.Spec.Gen
/-
Specification for changing a tree while the results of a query are being read.
-/
namespace Amara

/-- The nodes of a list and everything below them, elements and text, in document order. -/
inductive AllBelow (h : Heap) : List Id → List Id → Prop
  | nil : AllBelow h [] []
  | cons {c cs l l'} : AllBelow h (h.children c) l → AllBelow h cs l' → AllBelow h (c :: cs) (c :: (l ++ l'))

/-- Element or text, and the name. -/
def Obj.label : Obj → Option Str
  | .elem n _ _ _ => some n
  | .text _ _ => none

/-- The node has the same kind, name and child list. -/
def SameNode (h h' : Heap) (i : Id) : Prop :=
  h'.children i = h.children i ∧ (h'.obj i).map Obj.label = (h.obj i).map Obj.label

/-- A caller of a step: asks for results and, whenever it has control, changes memory in a way that `R` allows, given
the results so far.  `AxisRun t R h g vs h' g' ws`: memory, generator and the results so far, before and after. -/
inductive AxisRun (t : Test) (R : List Id → Heap → Heap → Prop) :
    Heap → AxisGen → List Id → Heap → AxisGen → List Id → Prop
  | refl {h g vs} : AxisRun t R h g vs h g vs
  | change {h g vs h' g' vs' h''} : AxisRun t R h g vs h' g' vs' → R vs' h' h'' → AxisRun t R h g vs h'' g' vs'
  | next {h g vs h' g' vs' y g''} : AxisRun t R h g vs h' g' vs' → AxisNext t h' g' (.give y g'') →
      AxisRun t R h g vs h' g'' (vs' ++ [y])

/-- Only nodes that were already reached are changed: given the nodes in the order of the axis and the results so far,
every node after the last result keeps kind, name and children; before the first result, every node and the context
node. -/
def OnlyBehind (ctx : Id) (nodes : List Id) (vs : List Id) (h h' : Heap) : Prop :=
  match vs.getLast? with
  | none => ∀ i ∈ ctx :: nodes, SameNode h h' i
  | some y => (∀ i, Before nodes y i → SameNode h h' i) ∧ (y = ctx → SameNode h h' ctx)

/-- Any change that keeps kinds and names. -/
def NamesKept (_ : List Id) (h h' : Heap) : Prop := ∀ i, (h'.obj i).map Obj.label = (h.obj i).map Obj.label

/-- `for x in <step>: x.xml_parent.xml_remove(x)`. -/
inductive QueryRemove (t : Test) : Heap → AxisGen → Heap → Prop
  | done {h g} : AxisNext t h g .finished → QueryRemove t h g h
  | remove {h g y g' p h1 h'} : AxisNext t h g (.give y g') → h.xmlParent y = some p → h.xmlRemove p y = .ok h1 →
      QueryRemove t h1 g' h' → QueryRemove t h g h'

mutual
  /-- The tree without the elements named `n` below its top. -/
  def Node.without (n : Str) : Node → Node
    | .text s => .text s
    | .elem m as cs => .elem m as (Node.withoutList n cs)
  /-- A list of trees without those that are elements named `n`, at any depth. -/
  def Node.withoutList (n : Str) : List Node → List Node
    | [] => []
    | .text s :: r => .text s :: Node.withoutList n r
    | .elem m as cs :: r =>
      if m = n then Node.withoutList n r else .elem m as (Node.withoutList n cs) :: Node.withoutList n r
end

/-- An element with this name. -/
def Node.named (n : Str) : Node → Bool
  | .elem m _ _ => m == n
  | .text _ => false

mutual
  /-- The tree after going through every child list and taking out the elements named `n`, but passing over what follows
  one taken out. -/
  def Node.thinned (n : Str) : Node → Node
    | .text s => .text s
    | .elem m as cs => .elem m as (takenOut (Node.named n) (Node.thinnedList n cs))
  /-- Each of the trees. -/
  def Node.thinnedList (n : Str) : List Node → List Node
    | [] => []
    | t :: ts => t.thinned n :: Node.thinnedList n ts
end

mutual
  /-- No two neighbouring children named `n`, anywhere. -/
  def Node.apart (n : Str) : Node → Prop
    | .text _ => True
    | .elem _ _ cs => (∀ u x y r, cs = u ++ x :: y :: r → x.named n = true → y.named n = false) ∧ Node.apartList n cs
  /-- The same in each of the trees. -/
  def Node.apartList (n : Str) : List Node → Prop
    | [] => True
    | t :: ts => t.apart n ∧ Node.apartList n ts
end

end Amara
