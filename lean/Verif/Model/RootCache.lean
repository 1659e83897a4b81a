import Verif.Model.Heap
/-
The cache of root nodes used by absolute paths, `root_node.get` (`pylib/uxml/uxpath/xast.py` 32-62), on elements in
memory that are created, moved and removed between queries.

Simplification: a root node is the document element it wraps (`xml_children = [docelem]`, 44); that two elements of
one tree can have different root node objects is not seen here.
-/
namespace Amara

/-- `root_node._cache`, `uxml/uxpath/xast.py` 38: a dictionary from elements (by identity) to root nodes. -/
abbrev RootCache := Id → Option Id

/-- The loop of `root_node.get`, `uxml/uxpath/xast.py` 58-61, with `curr_elem` and `parent`: what is found in the
cache, or the last element.  Cut off after a number of rounds (`none`): it ends unless the parent links run in a
circle. -/
def climb (h : Heap) (c : RootCache) : Nat → Id → Option Id → Option (Id ⊕ Id)
  | _, curr, none => some (.inr curr)
  | 0, _, some _ => none
  | n + 1, _, some p =>
    match h.xmlParent p with
    | none => some (.inr p)
    | some q => match c q with
      | some r => some (.inl r)
      | none => climb h c n p (some q)

/-- `root_node.get(elem)` for an element, `uxml/uxpath/xast.py` 52-62: the document element of the root node returned
and the new cache. -/
def getRootNode (h : Heap) (c : RootCache) (n : Nat) (e : Id) : Option (Id × RootCache) :=
  match c e with
  | some r => some (r, c)
  | none => match climb h c n e (h.xmlParent e) with
    | none => none
    | some (.inl r) => some (r, c)
    | some (.inr d) => some (d, fun x => if x = e then some d else c x)

end Amara
