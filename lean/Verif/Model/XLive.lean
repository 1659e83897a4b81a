import Verif.Model.Gen
import Verif.Model.XPath
/-
The steps of MicroXPath as what they are: generators that read child lists and parent links while they run
(`pylib/uxml/uxpath/xast.py` 360-382, 414-499), on objects in memory, so that the caller of `xml_xpath` may change the tree
between two results.  The axes are those that read child lists: `child`, `descendant`, `descendant-or-self`,
`following`, `following-sibling` and `preceding-sibling`; the context item is an element or text object, and the caller holds on to
it and to the nodes of the tree.
-/
namespace Amara

/-- Whether the node test yields the node, `uxml/uxpath/xast.py` 582-590, 617-620. -/
def Test.live (t : Test) (h : Heap) (i : Id) : Bool :=
  match t with
  | .name n => match h.obj i with
    | some (.elem m _ _ _) => m == n
    | _ => false
  | .star => true
  | .node => true
  | .text => match h.obj i with
    | some (.text _ _) => true
    | _ => false

/-- The axes that start from the list the context item is in. -/
inductive Side where
  | following | followingSibling | precedingSibling
deriving DecidableEq, Repr

/-- A suspended step. -/
inductive AxisGen where
  /-- in `for child in ctx.item.xml_children`, 419: the element and the index of the list iterator -/
  | child (e : Id) (k : Nat)
  /-- `descendant-or-self` not yet started, 452 -/
  | self (e : Id)
  /-- before `to_process = list(ctx.item.xml_children)`, 445, 453 -/
  | start (e : Id)
  /-- in the loop over `to_process`, 446-450, 454-458, 463-467 -/
  | todo (l : List Id)
  /-- `following`, `following-sibling` or `preceding-sibling` not yet started, 460, 469, 491 -/
  | beside (s : Side) (e : Id)
  /-- in the loop over a list of its own, 471, 496 -/
  | list (l : List Id)
  /-- the absolute path `//test` in a tree with this document element, not yet started, 374-377 -/
  | top (t : Id)
  /-- the absolute path `//test`, in the loop over `to_process`, 378-382 -/
  | walk (l : List Id)
  /-- the same, in the step `child::test` from a node: the index of its list iterator, and `to_process` -/
  | inside (e : Id) (k : Nat) (l : List Id)
deriving DecidableEq, Repr

/-- What one round of the loop does: it ends, raises ValueError, or goes on, with or without a result. -/
inductive AxisOut where
  | finished
  | raised
  | pass (g : AxisGen)
  | give (y : Id) (g : AxisGen)
deriving DecidableEq, Repr

/-- `yield from self.node_test.compute(new_ctx)` and on. -/
def Test.out (t : Test) (h : Heap) (i : Id) (g : AxisGen) : AxisOut := if t.live h i then .give i g else .pass g

/-- One round, `uxml/uxpath/xast.py` 418-424 (`child`), 444-458 (`descendant`, `descendant-or-self`), 459-467
(`following`), 468-473 (`following-sibling`), 490-498 (`preceding-sibling`), 373-382 (the absolute path `//test`: the
step `child::test` from the root, which has the document element as its child, and from every node below).  `index` goes
by `==`. -/
def axisRound (t : Test) (h : Heap) : AxisGen → AxisOut
  | .child e k => match (h.children e)[k]? with
    | none => .finished
    | some c => if t.isName && !h.isElemB c then .pass (.child e (k + 1)) else t.out h c (.child e (k + 1))
  | .self e => t.out h e (.start e)
  | .start e => .pass (.todo (h.children e))
  | .todo [] => .finished
  | .todo (c :: cs) => t.out h c (.todo (h.children c ++ cs))
  | .beside b e => match h.xmlParent e with
    | none => .finished
    | some p => match (h.children p).findIdx? (h.pyEq e) with
      | none => .raised
      | some s => .pass (match b with
        | .following => .todo ((h.children p).drop (s + 1))
        | .followingSibling => .list ((h.children p).drop (s + 1))
        | .precedingSibling => .list ((h.children p).take s).reverse)
  | .list [] => .finished
  | .list (c :: cs) => t.out h c (.list cs)
  | .top e => if t.isName && !h.isElemB e then .pass (.walk [e]) else t.out h e (.walk [e])
  | .walk [] => .finished
  | .walk (c :: cs) => .pass (.inside c 0 (h.children c ++ cs))
  | .inside e k l => match (h.children e)[k]? with
    | none => .pass (.walk l)
    | some c => if t.isName && !h.isElemB c then .pass (.inside e (k + 1) l) else t.out h c (.inside e (k + 1) l)

/-- `next(g)`: rounds until there is a result, or the end. -/
inductive AxisNext (t : Test) (h : Heap) : AxisGen → AxisOut → Prop
  | give {g y g'} : axisRound t h g = .give y g' → AxisNext t h g (.give y g')
  | finished {g} : axisRound t h g = .finished → AxisNext t h g .finished
  | raised {g} : axisRound t h g = .raised → AxisNext t h g .raised
  | pass {g g' r} : axisRound t h g = .pass g' → AxisNext t h g' r → AxisNext t h g r

end Amara
