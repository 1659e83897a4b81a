import Verif.Model.DocOrder
/-
Unions of MicroXPath (`pylib/uxml/uxpath/xast.py` 81-89 and 272-280) with Python's limit on nested calls: the nodes are
numbered with `descendants`, which calls itself for each level of the tree, and a node that has got a number keeps it.

Simplifications: those of Model/DocOrder; evaluating the two sides of the union does not meet the limit.
-/
namespace Amara

/-- The loop of `index_docorder`, `uxml/uxpath/xast.py` 87-89, with room for `room` calls of `descendants` in each other
(`uxml/treeutil.py` 13-20): the numbers afterwards, and whether RecursionError was raised.  The call that is one too many
is made when the next element is asked for, after the one it is made for has got its number. -/
def numberRestK (h : Heap) (room : Nat) : Nat → DescGen → Nat → Numbers → Option (Numbers × Bool)
  | n, g, k, m =>
    if room < g.length then some (m, true)
    else match descNext h g with
      | none => some (m, false)
      | some (y, g') => match n with
        | 0 => none
        | n + 1 => numberRestK h room n g' (k + 1) (m.put y (k + 1))

/-- `index_docorder(node)`, `uxml/uxpath/xast.py` 81-89.  From the root node, `descendants` of the root node is one more
call. -/
def indexDocorderK (h : Heap) (d : Id) (room : Nat) (n : Nat) (m : Numbers) : ONode → Option (Numbers × Bool)
  | .root =>
    if room = 0 then some (⟨some 0, m.obj⟩, true)
    else numberRestK h (room - 1) n (descGen d) 1 (Numbers.put ⟨some 0, m.obj⟩ d 1)
  | .obj i => (topOf h n i).bind fun t => numberRestK h room n (descGen t) 0 (m.put t 0)
  | .attr e => (topOf h n e).bind fun t => numberRestK h room n (descGen t) 0 (m.put t 0)

/-- How a union ends. -/
inductive UnionEnd where
  | nodes (zs : List ONode)
  | attributeError
  | recursionError
deriving DecidableEq, Repr

/-- `left | right` at `ctx`, `uxml/uxpath/xast.py` 272-280, with that room. -/
def unionObjsK (h : Heap) (d : Id) (room n : Nat) (ctx : ONode) (l r : List ONode) (m : Numbers) :
    Option (Numbers × UnionEnd) :=
  (if (m.of ctx).isSome then some (m, false) else indexDocorderK h d room n m ctx).map fun mr =>
    (mr.1, if mr.2 then .recursionError
      else match sortNumbered mr.1 (l ++ r) with
        | some zs => .nodes zs
        | none => .attributeError)

end Amara
