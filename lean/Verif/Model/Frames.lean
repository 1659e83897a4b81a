import Verif.Model.TreeUtil
/-
The functions over trees that call themselves for each child, with Python's limit on nested calls: `xml_encode`,
`xml_value` and `strval` of `pylib/uxml/tree.py`, `descendants` and `make_pretty` of `pylib/uxml/treeutil.py`.

Each takes the number of nested calls that are still allowed, its own included; `none` (or the flag) is RecursionError.
Calls of other functions (`escape`, `quoteattr`, making a text node, `xml_value` of a text node) need some
room too, how much depends on the version of Python: it is a parameter, `Needs`.
-/
namespace Amara

/-- How many nested calls the functions used need: `quoteattr` (`uxml/tree.py` 89), `escape` (101), `xml_value` of a text node
(195, 199, `uxml/treeutil.py` 222), making a text node (`uxml/treeutil.py` 217, 229, 234). -/
structure Needs where
  quote : Nat
  escape : Nat
  value : Nat
  text : Nat

mutual
  /-- `element.xml_encode(indent, depth)`, `uxml/tree.py` 78-105, `text.xml_encode`, 175-176, with `k` calls left. -/
  def Node.encodeK (c : Needs) (ind : Str) (depth : Nat) : Nat → Node → Option Str
    | 0, _ => none
    | k + 1, .elem n as cs =>
      if as ≠ [] ∧ k < c.quote then none                                     -- 89: `quoteattr(aval)`
      else (Node.encodeChildrenK c ind depth k cs).map fun s =>
        '<' :: (n ++ (encodeAttrs as ++ '>' :: (indentRun ind depth ++ (s ++ '<' :: '/' :: (n ++ ['>'])))))
    | _ + 1, .text s => some s
  /-- The loop over the children, `uxml/tree.py` 94-103; `k` calls are left for the calls in it. -/
  def Node.encodeChildrenK (c : Needs) (ind : Str) (depth : Nat) (k : Nat) : List Node → Option Str
    | [] => some []
    | .elem n as cs :: r =>
      match Node.encodeK c ind (depth + 1) k (.elem n as cs) with
      | none => none
      | some s => (Node.encodeChildrenK c ind depth k r).map fun t => s ++ (indentRun ind depth ++ t)
    | .text s :: r =>
      if k < c.escape then none                                               -- 101: `escape(child)`
      else (Node.encodeChildrenK c ind depth k r).map fun t => escape s ++ t
end

mutual
  /-- `xml_value`, `uxml/tree.py` 109-114, 178-180: a level takes two calls, of the property and of the `lambda`. -/
  def Node.xmlValueK : Nat → Node → Option Str
    | 0, _ => none
    | k + 1, .elem _ _ cs => Node.xmlValuesK k cs
    | _ + 1, .text s => some s
  def Node.xmlValuesK (k : Nat) : List Node → Option Str
    | [] => some []
    | x :: r => match k with
      | 0 => none
      | k' + 1 => match Node.xmlValueK k' x with
        | none => none
        | some s => (Node.xmlValuesK k r).map (s ++ ·)
end

mutual
  /-- `strval(node, outermost=False)`, `uxml/tree.py` 190-203. -/
  def Node.strvalK (c : Needs) : Nat → Node → Option (List Str)
    | 0, _ => none
    | k + 1, .elem _ _ cs => Node.strvalsK c k cs
    | k + 1, .text s => if k < c.value then none else some [s]               -- 195
  def Node.strvalsK (c : Needs) (k : Nat) : List Node → Option (List Str)
    | [] => some []
    | .text s :: r => if k < c.value then none else (Node.strvalsK c k r).map (s :: ·)   -- 199
    | .elem n as cs :: r => match Node.strvalK c k (.elem n as cs) with
      | none => none
      | some s => (Node.strvalsK c k r).map (s ++ ·)
end

mutual
  /-- `descendants(elem)`, `uxml/treeutil.py` 13-20: what is yielded, and whether RecursionError ends it.  To go on in a
  nested generator every generator around it is entered again. -/
  def Node.descendantsK (p : Path) : Nat → Node → List (Path × Node) × Bool
    | 0, _ => ([], true)
    | k + 1, .elem _ _ cs => Node.descendantsListK p k 0 cs
    | _ + 1, .text _ => ([], false)
  def Node.descendantsListK (p : Path) (k : Nat) (i : Nat) : List Node → List (Path × Node) × Bool
    | [] => ([], false)
    | .elem n as cs :: r =>
      match Node.descendantsK (p ++ [i]) k (.elem n as cs) with
      | (xs, true) => ((p ++ [i], .elem n as cs) :: xs, true)
      | (xs, false) =>
        ((p ++ [i], .elem n as cs) :: (xs ++ (Node.descendantsListK p k (i + 1) r).1), (Node.descendantsListK p k (i + 1) r).2)
    | .text _ :: r => Node.descendantsListK p k (i + 1) r
end

mutual
  /-- `make_pretty(elem, depth, indent)`, `uxml/treeutil.py` 177-238: the tree afterwards, and whether RecursionError was
  raised. -/
  def Node.prettyK (c : Needs) (depth : Int) (indent : Str) : Nat → Node → Node × Bool
    | 0, x => (x, true)
    | k + 1, .elem n as cs =>
      match Node.prettyLoopK c (depth + 1) indent k 0 cs with
      | (_, upd, false) => (.elem n as upd, false)                      -- 237
      | (cs', _, true) => (.elem n as cs', true)
    | _ + 1, .text s => (.text s, false)
  /-- The loop, `uxml/treeutil.py` 209-236: the old list of children as it stands afterwards (the elements in it are changed
  in place), what is still added to `updated_child_list`, and whether RecursionError was raised. -/
  def Node.prettyLoopK (c : Needs) (depth : Int) (indent : Str) (k : Nat) (ix : Nat) : List Node → List Node × List Node × Bool
    | [] =>
      if ix % 2 = 0 then
        if k < c.text then ([], [], true) else ([], [.text ('\n' :: repeatStr indent (depth - 1).toNat)], false)
      else ([], [], false)
    | .elem n as cs :: r =>
      if ix % 2 = 1 then
        match Node.prettyK c depth "  ".toList k (.elem n as cs) with
        | (x', true) => (x' :: r, [], true)
        | (x', false) => match Node.prettyLoopK c depth indent k (ix + 1) r with
          | (r', u, b) => (x' :: r', x' :: u, b)
      else if k < c.text then (.elem n as cs :: r, [], true)
      else
        match Node.prettyK c depth "  ".toList k (.elem n as cs) with
        | (x', true) => (x' :: r, [], true)
        | (x', false) => match Node.prettyLoopK c depth indent k (ix + 2) r with
          | (r', u, b) => (x' :: r', .text ('\n' :: repeatStr indent depth.toNat) :: x' :: u, b)
    | .text s :: r =>
      if k < c.value then (.text s :: r, [], true)
      else if isBlank s = false then
        match Node.prettyLoopK c depth indent k (ix + 1) r with
        | (r', u, b) => (.text s :: r', .text s :: u, b)
      else if k < c.text then (.text s :: r, [], true)
      else
        match Node.prettyLoopK c depth indent k (ix + 1) r with
        | (r', u, b) => (.text s :: r', .text ('\n' :: repeatStr indent depth.toNat) :: u, b)
end

end Amara
