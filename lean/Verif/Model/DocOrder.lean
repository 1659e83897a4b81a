import Verif.Model.Gen
/-
The numbers by which the results of a MicroXPath union are sorted, `_docorder` (`pylib/uxml/uxpath/xast.py` 81-89 and
272-280), on elements in memory that are created, moved and removed between queries.  The numbers are attributes of the
node objects and are never taken away.

Simplifications: what the two sides of the union yield is given, and evaluating them numbers nothing (they have no
union inside that is evaluated at a node without a number); one root node object, and the caller holds on to it and to
the tree.
-/
namespace Amara

/-- A node of MicroXPath: the root node, an element or text object, or an attribute node, which is made anew each time
(`uxml/uxpath/xast.py` 65-69). -/
inductive ONode where
  | root
  | obj (i : Id)
  | attr (owner : Id)
deriving DecidableEq, Repr

/-- The `_docorder` attributes there are. -/
structure Numbers where
  root : Option Nat
  obj : Id → Option Nat

/-- `node._docorder`, none if there is no such attribute. -/
def Numbers.of (m : Numbers) : ONode → Option Nat
  | .root => m.root
  | .obj i => m.obj i
  | .attr _ => none

/-- `node._docorder = k` for an object. -/
def Numbers.put (m : Numbers) (i : Id) (k : Nat) : Numbers := ⟨m.root, fun j => if j = i then some k else m.obj j⟩

/-- `while node.xml_parent: node = node.xml_parent`, `uxml/uxpath/xast.py` 83-84.  Cut off after a number of rounds
(`none`): it ends unless the parent links run in a circle. -/
def topOf (h : Heap) : Nat → Id → Option Id
  | n, i =>
    match h.xmlParent i with
    | none => some i
    | some p => match n with
      | 0 => none
      | n + 1 => topOf h n p

/-- `for node in descendants(node): ...`, `uxml/uxpath/xast.py` 87-89, with `index` so far.  Cut off in the same way. -/
def numberRest (h : Heap) : Nat → DescGen → Nat → Numbers → Option Numbers
  | n, g, k, m =>
    match descNext h g with
    | none => some m
    | some (y, g') => match n with
      | 0 => none
      | n + 1 => numberRest h n g' (k + 1) (m.put y (k + 1))

/-- `index_docorder(node)`, `uxml/uxpath/xast.py` 81-89.  The root node has no parent and its one child is `d` (44); an
attribute node's parent is its element. -/
def indexDocorder (h : Heap) (d : Id) (n : Nat) (m : Numbers) : ONode → Option Numbers
  | .root => numberRest h n (descGen d) 1 (Numbers.put ⟨some 0, m.obj⟩ d 1)
  | .obj i => (topOf h n i).bind fun t => numberRest h n (descGen t) 0 (m.put t 0)
  | .attr e => (topOf h n e).bind fun t => numberRest h n (descGen t) 0 (m.put t 0)

/-- Insertion into a list sorted by number, after equal ones. -/
def insertNum {α} (k : Nat) (x : α) : List (Nat × α) → List (Nat × α)
  | [] => [(k, x)]
  | (k', y) :: r => if k' ≤ k then (k', y) :: insertNum k x r else (k, x) :: (k', y) :: r

/-- `selected.sort(key=operator.attrgetter('_docorder'))`, `uxml/uxpath/xast.py` 279: stable; none is AttributeError. -/
def sortNumbered (m : Numbers) (xs : List ONode) : Option (List ONode) :=
  (xs.mapM fun x => (m.of x).map fun k => (k, x)).map fun ks =>
    (ks.foldl (fun acc kx => insertNum kx.1 kx.2 acc) []).map Prod.snd

/-- `left | right` at `ctx`, `uxml/uxpath/xast.py` 272-280: the numbers afterwards, and the nodes yielded or none for
AttributeError. -/
def unionObjs (h : Heap) (d : Id) (n : Nat) (ctx : ONode) (l r : List ONode) (m : Numbers) :
    Option (Numbers × Option (List ONode)) :=
  (if (m.of ctx).isSome then some m else indexDocorder h d n m ctx).map fun m' => (m', sortNumbered m' (l ++ r))

end Amara
