import Verif.Model.Heap
/-
`descendants` and the selectors of `pylib/uxml/treeutil.py` as what they are: generators and filters that read the
child lists at the time they are asked for the next item, so that the caller may change the tree in between.

A Python list iterator is a list and an index; it gives the item at its index, if the list is that long by then, and
is finished for good once it was not.  The list `xml_children` of an element is never replaced, only changed in place
(`uxml/tree.py` 75, 138-140, 152), so the iterator is represented by the element and the index.  The caller is taken
to hold on to the element.
-/
namespace Amara

/-- `isinstance(x, element)`. -/
def Heap.isElemB (h : Heap) (i : Id) : Bool :=
  match h.obj i with
  | some (.elem ..) => true
  | _ => false

/-- A suspended `descendants(...)`: the elements whose loop is under way, the innermost first, each with the index of
its list iterator. -/
abbrev DescGen := List (Id × Nat)

/-- How much there is to do at most until the next item. -/
def genWork (h : Heap) (g : DescGen) : Nat := (g.map fun f => (h.children f.1).length - f.2 + 1).sum

/-- `next(g)` for `g = descendants(elem)`, `uxml/treeutil.py` 13-20: the item and the suspended generator, or none if it
is finished.  When a loop ends, the loop around it goes on (`yield from`). -/
def descNext (h : Heap) : DescGen → Option (Id × DescGen)
  | [] => none
  | (e, k) :: st =>
    match hc : (h.children e)[k]? with
    | none => descNext h st
    | some c => if h.isElemB c then some (c, (c, 0) :: (e, k + 1) :: st) else descNext h ((e, k + 1) :: st)
termination_by g => genWork h g
decreasing_by
  · simp [genWork]
  · have : k < (h.children e).length := (List.getElem?_eq_some_iff.1 hc).1
    simp only [genWork, List.map_cons, List.sum_cons]
    omega

/-- `descendants(elem)`, before anything is asked of it. -/
def descGen (e : Id) : DescGen := [(e, 0)]

/-- A suspended `filter(test, elem.xml_children)`: none once the list iterator is finished. -/
abbrev SelGen := Option (Id × Nat)

/-- `next(g)` for a selector, `uxml/treeutil.py` 23-74; `test` is asked at the time. -/
def selNext (test : Id → Bool) (h : Heap) : SelGen → Option Id × SelGen
  | none => (none, none)
  | some (e, k) =>
    match hc : (h.children e)[k]? with
    | none => (none, none)
    | some c => if test c then (some c, some (e, k + 1)) else selNext test h (some (e, k + 1))
termination_by g => match g with | none => 0 | some (e, k) => (h.children e).length - k + 1
decreasing_by
  have : k < (h.children e).length := (List.getElem?_eq_some_iff.1 hc).1
  omega

/-- `select_elements(elem)`, `uxml/treeutil.py` 23-30. -/
def selElements (h : Heap) (g : SelGen) : Option Id × SelGen := selNext h.isElemB h g

end Amara
