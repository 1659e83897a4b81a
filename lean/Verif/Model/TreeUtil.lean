import Verif.Model.Expat
import Verif.Model.Pattern
/-
The utilities of `pylib/uxml/treeutil.py`.

Simplification: trees are values and the identity of a node is its position (the indices of the children
passed through from the node the function is called on), so each object occurs once in the tree; the parser
builds such trees (C20).  Generators are lists, with a flag where they can end with an exception.
-/
namespace Amara

/-- A position below a node. -/
abbrev Path := List Nat

mutual
  /-- `descendants(elem)`, `uxml/treeutil.py` 13-20; `p` is the position of `elem`. -/
  def Node.descendants (p : Path) : Node → List (Path × Node)
    | .elem _ _ cs => Node.descendantsList p 0 cs
    | .text _ => []
  /-- The loop over the children; `i` is the index of the next one. -/
  def Node.descendantsList (p : Path) (i : Nat) : List Node → List (Path × Node)
    | [] => []
    | .elem n as cs :: r =>
      (p ++ [i], .elem n as cs) :: (Node.descendants (p ++ [i]) (.elem n as cs) ++
        Node.descendantsList p (i + 1) r)
    | .text _ :: r => Node.descendantsList p (i + 1) r
end

/-- The name of an element; `isinstance(x, element)` asks whether there is one. -/
def Node.look : Node → Option Str
  | .elem n _ _ => some n
  | .text _ => none

/-- The source of a selector: an element or any other iterable of nodes, `uxml/treeutil.py` 28-29, 58-59. -/
inductive Source where
  | element (n : Str) (as : Attrs) (cs : List Node)
  | items (xs : List Node)

/-- What the selectors go through, `uxml/treeutil.py` 28-29, 58-59. -/
def Source.members : Source → List Node
  | .element _ _ cs => cs
  | .items xs => xs

/-- `select_elements(source)`, `uxml/treeutil.py` 23-30. -/
def selectElements (src : Source) : List Node := src.members.filter fun x => x.look.isSome

/-- `xml_name`, `uxml/tree.py` 73, 169. -/
def Node.xmlName : Node → Str
  | .elem n _ _ => n
  | .text _ => "#text".toList

/-- `xml_attributes` of an element, `uxml/tree.py` 74. -/
def Node.xmlAttributes : Node → Attrs
  | .elem _ as _ => as
  | .text _ => []

/-- `xml_children`, `uxml/tree.py` 75, 183-184. -/
def Node.xmlChildren : Node → List Node
  | .elem _ _ cs => cs
  | .text _ => []

/-- `select_name(source, name)`, `uxml/treeutil.py` 33-39. -/
def selectName (src : Source) (name : Str) : List Node := (selectElements src).filter fun x => x.xmlName == name

/-- `select_name_pattern(source, pat)`, `uxml/treeutil.py` 42-48; `pat` is any predicate on names. -/
def selectNamePattern (src : Source) (pat : Str → Bool) : List Node :=
  (selectElements src).filter fun x => pat x.xmlName

/-- `select_value(source, val)`, `uxml/treeutil.py` 51-59: not restricted to elements. -/
def selectValue (src : Source) (val : Str) : List Node := src.members.filter fun x => x.xmlValue == val

/-- `check`, `uxml/treeutil.py` 69-73; `val` None is `none`. -/
def checkAttribute (name : Str) (val : Option Str) (x : Node) : Bool :=
  match val with
  | none => (x.xmlAttributes.get name).isSome
  | some v => (x.xmlAttributes.get name).isSome && x.xmlAttributes.get name == some v

/-- `select_attribute(source, name, val)`, `uxml/treeutil.py` 62-74. -/
def selectAttribute (src : Source) (name : Str) (val : Option Str) : List Node :=
  (selectElements src).filter (checkAttribute name val)

/-- `x == y` for children number `i` and `j` of a parent: text goes by its characters, elements by identity. -/
def sameChild (cs : List Node) (i j : Nat) : Bool :=
  i == j || match cs[i]?, cs[j]? with
    | some (.text s), some (.text t) => s == t
    | _, _ => false

/-- `following_siblings(elem)`, `uxml/treeutil.py` 76-82, for child number `i` of a parent with the children
`cs`: the indices of the siblings yielded.  (Without a parent: AttributeError.) -/
def followingSiblings (cs : List Node) (i : Nat) : List Nat :=
  ((List.range cs.length).dropWhile fun j => !sameChild cs j i).drop 1

/-- A name among the members of a tuple stage, `uxml/treeutil.py` 134. -/
def Stage.hasName {α} : Stage α → Bool
  | .oneOf subs => subs.any fun s => match s with
    | .name _ => true
    | .fn _ => false
  | _ => false

/-- `_prep_pattern(pattern)`, `uxml/treeutil.py` 121-138.  `name_test(substage)` lacks an argument, so a
name inside a tuple is a TypeError: `none`.  (Stages that are neither strings nor tuples, a ValueError, are
not modelled.) -/
def prepPattern (pat : List (Stage Node)) : Option (List (Stage Node)) :=
  if pat.any Stage.hasName then none else some pat

/-- One generator after another. -/
def thenGen {α} (a b : List α × Bool) : List α × Bool := if a.2 then a else (a.1 ++ b.1, b.2)

mutual
  /-- `select_pattern(node, None, state)`, `uxml/treeutil.py` 165-175: what is yielded, and whether a
  TypeError ends it. -/
  def Node.selectState (p : Path) (st : List (Stage Node)) : Node → List (Path × Node) × Bool
    | .elem _ _ cs => Node.selectStates p st 0 cs
    | .text _ => ([], false)
  /-- The loop over the children. -/
  def Node.selectStates (p : Path) (st : List (Stage Node)) (i : Nat) : List Node → List (Path × Node) × Bool
    | [] => ([], false)
    | x :: r =>
      match patStep Node.look st x with
      | .typeError => ([], true)
      | .none => Node.selectStates p st (i + 1) r
      | .to [] => thenGen ([(p ++ [i], x)], false) (Node.selectStates p st (i + 1) r)
      | .to st' => thenGen (Node.selectState (p ++ [i]) st' x) (Node.selectStates p st (i + 1) r)
end

/-- `select_pattern(node, pattern)`, `uxml/treeutil.py` 141-175. -/
def selectPattern (node : Node) (pat : List (Stage Node)) : List (Path × Node) × Bool :=
  match prepPattern pat with
  | none => ([], true)
  | some st => node.selectState [] st

/-- `s.strip()` is empty. -/
def isBlank (s : Str) : Bool := s.all isPySpace

mutual
  /-- `make_pretty(elem, depth, indent)`, `uxml/treeutil.py` 177-238: the tree afterwards.  The indent is not
  passed on (220). -/
  def Node.makePretty (depth : Int) (indent : Str) : Node → Node
    | .elem n as cs => .elem n as (Node.prettyLoop (depth + 1) indent 0 cs)
    | .text s => .text s
  /-- The loop and what follows it, `uxml/treeutil.py` 209-236; `depth` has been incremented (206), `ix` is
  `updated_child_ix`; the result is what is still to be added to `updated_child_list`. -/
  def Node.prettyLoop (depth : Int) (indent : Str) (ix : Nat) : List Node → List Node
    | [] =>
      if ix % 2 = 0 then [.text ('\n' :: repeatStr indent (depth - 1).toNat)] else []
    | .elem n as cs :: r =>
      if ix % 2 = 1 then
        Node.makePretty depth "  ".toList (.elem n as cs) :: Node.prettyLoop depth indent (ix + 1) r
      else
        .text ('\n' :: repeatStr indent depth.toNat) ::
          Node.makePretty depth "  ".toList (.elem n as cs) :: Node.prettyLoop depth indent (ix + 2) r
    | .text s :: r =>
      if isBlank s = false then .text s :: Node.prettyLoop depth indent (ix + 1) r
      else .text ('\n' :: repeatStr indent depth.toNat) :: Node.prettyLoop depth indent (ix + 1) r
end

end Amara
