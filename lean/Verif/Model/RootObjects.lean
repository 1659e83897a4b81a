import Verif.Model.Heap
/-
The cache of root nodes, `root_node._cache` and `root_node.get` (`pylib/uxml/uxpath/xast.py` 32-62), with the root
nodes as objects of their own, and as something that refers to elements: the dictionary belongs to the class, holds
its keys and its values strongly, and nothing is ever taken out of it.
-/
namespace Amara

/-- A root node object, `uxml/uxpath/xast.py` 40-45: which one it is, and the element in its `xml_children`. -/
structure RootObj where
  num : Nat
  doc : Id
deriving DecidableEq, Repr

/-- `root_node._cache`, `uxml/uxpath/xast.py` 38: a dictionary from elements (by identity) to root nodes; and how many
root nodes have been made. -/
structure RootStore where
  cache : List (Id × RootObj)
  made : Nat
deriving DecidableEq, Repr

/-- `root_node._cache[elem]`, none if it is not there, `uxml/uxpath/xast.py` 53, 61. -/
def RootStore.find (s : RootStore) (e : Id) : Option RootObj := s.cache.lookup e

/-- The elements that the cache refers to: its keys, and the children of its root nodes, `uxml/uxpath/xast.py` 38, 44. -/
def RootStore.refs (s : RootStore) : List Id := s.cache.map Prod.fst ++ s.cache.map (·.2.doc)

/-- The loop of `root_node.get`, `uxml/uxpath/xast.py` 56-61, with `curr_elem` and `parent`: what is found in the
cache, or the last element.  Cut off after a number of rounds (`none`): it ends unless the parent links run in a
circle. -/
def RootStore.climb (s : RootStore) (h : Heap) : Nat → Id → Option Id → Option (RootObj ⊕ Id)
  | _, curr, none => some (.inr curr)
  | 0, _, some _ => none
  | n + 1, _, some p =>
    match h.xmlParent p with
    | none => some (.inr p)
    | some q => match s.find q with
      | some r => some (.inl r)
      | none => s.climb h n p (some q)

/-- `root_node.get(elem)` for an element, `uxml/uxpath/xast.py` 52-62: the root node and the cache after it. -/
def RootStore.get (s : RootStore) (h : Heap) (n : Nat) (e : Id) : Option (RootObj × RootStore) :=
  match s.find e with
  | some r => some (r, s)
  | none => match s.climb h n e (h.xmlParent e) with
    | none => none
    | some (.inl r) => some (r, s)
    | some (.inr d) => some (⟨s.made, d⟩, ⟨(e, ⟨s.made, d⟩) :: s.cache, s.made + 1⟩)

end Amara
