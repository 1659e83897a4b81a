import Verif.Model.TreeUtil
import Verif.Spec.Path
/-
The evaluator of MicroXPath expressions, `pylib/uxml/uxpath/xast.py` and `pylib/uxml/uxpath/functions.py`.

What is modelled: `compute` of every class of expression and every built-in function, on one document that does
not change meanwhile.  A generator is the list of the items it yields and how it ends; a consumer that takes
only the first item (`next`) sees nothing of the rest, as in Python.

Simplifications.
* A node is its position in the document, so `is` is equality of positions (attribute nodes: of their element
  and name; the code makes a new object each time, which shows only in `!=` between two of them).
* There is one root node (the cache of `root_node.get` is the subject of `Model/RootCache`).
* Floats are any type with the operations listed in `FloatOps`.
* Variables hold strings, numbers, booleans or nodes of the document; functions are the built-in ones.
* The one loop of the evaluator that need not end (axis `ancestor-or-self`, and `for-each` evaluating strings
  that contain `for-each`) is cut off after a number of rounds, `Tail.out`.
* The order numbers `_docorder` that `|` sorts by are positions; a root node has one only if the context item is
  the root (in the code also if a union was evaluated there before).
* The rewriting of the right side of `//` is described under `Expr.dslash` below; see also `Props/XPath`, C56.
-/
namespace Amara

/-- What the evaluator asks of Python's floats: `float(s)` (`none` is ValueError), `str(f)`, `int(f)` (`none` is
an error: ValueError for NaN; OverflowError for an infinity, counted as ValueError here), `f == 0`, and comparison among floats and integers (`none` if one is NaN). -/
structure FloatOps (F : Type) where
  parse : Str → Option F
  show_ : F → Str
  trunc : F → Option Int
  isZero : F → Bool
  cmp : F ⊕ Int → F ⊕ Int → Option Ordering

/-- Items of a sequence. -/
inductive Item (F : Type) where
  | root
  | node (p : Path)
  | attr (p : Path) (k v : Str)
  | str (s : Str)
  | int (i : Int)
  | float (f : F)
  | bool (b : Bool)
deriving DecidableEq, Repr

/-- The exceptions of the evaluator; `recursion` is RecursionError, which occurs in `Model/XFrames` only. -/
inductive XErr where
  | attribute | assertion | value | type | runtime | key | notImplemented | name | recursion
deriving DecidableEq, Repr

/-- How a generator ends: by itself, with an exception, or it was cut off. -/
inductive Tail where
  | done
  | err (e : XErr)
  | out
deriving DecidableEq, Repr

/-- What a generator yields. -/
structure Res (F : Type) where
  items : List (Item F)
  tail : Tail
deriving DecidableEq, Repr

namespace Res
variable {F : Type}

def nil : Res F := ⟨[], .done⟩
def one (x : Item F) : Res F := ⟨[x], .done⟩
def fail (e : XErr) : Res F := ⟨[], .err e⟩

/-- One generator after another: `yield from a; yield from b`. -/
def append (a b : Res F) : Res F :=
  match a.tail with
  | .done => ⟨a.items ++ b.items, b.tail⟩
  | t => ⟨a.items, t⟩

/-- `for x in xs: yield from f(x)`, and then the end `t`. -/
def bindList (f : Item F → Res F) (t : Tail) : List (Item F) → Res F
  | [] => ⟨[], t⟩
  | x :: r => append (f x) (bindList f t r)

/-- `for x in a: yield from f(x)`. -/
def bind (a : Res F) (f : Item F → Res F) : Res F := bindList f a.tail a.items

/-- What `next(a, default)` gives: an item, nothing (the default), or the generator's exception. -/
inductive First (F : Type) where
  | got (x : Item F)
  | empty
  | stop (t : Tail)

def first (a : Res F) : First F :=
  match a.items, a.tail with
  | x :: _, _ => .got x
  | [], .done => .empty
  | [], t => .stop t

end Res

/-- Axes, `uxml/uxpath/xast.py` 416-490. -/
inductive Axis where
  | self | child | attribute | ancestor | ancestorOrSelf | descendant | descendantOrSelf | following
  | followingSibling | parent | preceding | precedingSibling
deriving DecidableEq, Repr

/-- Node tests: `name_test` (a name or `*`) and `node_type_test` (`node()` or `text()`),
`uxml/uxpath/xast.py` 559-620. -/
inductive Test where
  | name (n : Str)
  | star
  | node
  | text
deriving DecidableEq, Repr

/-- Comparison operators other than `=` and `!=`. -/
inductive Rel where
  | lt | gt | le | ge
deriving DecidableEq, Repr

/-- The arithmetic operators. -/
inductive Arith where
  | add | sub | mul | div | mod
deriving DecidableEq, Repr

/-- Expressions.  `abs none` is `/`, `abs (some r)` is `/r`, `absAll r` is `//r`; `test` is a bare node type
test. -/
inductive Expr (F : Type) where
  | lit (x : Item F)
  | neg (e : Expr F)
  | slash (l r : Expr F)
  | dslash (l r : Expr F)
  | union (l r : Expr F)
  | eq (l r : Expr F)
  | ne (l r : Expr F)
  | rel (op : Rel) (l r : Expr F)
  | or (l r : Expr F)
  | and (l r : Expr F)
  | arith (op : Arith) (l r : Expr F)
  | abs (r : Option (Expr F))
  | absAll (r : Expr F)
  | step (a : Axis) (t : Test)
  | test (t : Test)
  | pred (lhs : Expr F) (ps : List (Expr F))
  | dot
  | dotdot
  | var (n : Str)
  | call (n : Str) (args : List (Expr F))
  | seq (es : List (Expr F))

section
variable {F : Type} (fo : FloatOps F) (doc : Node)

/-- `isinstance(x, element)`. -/
def Item.isElem : Item F → Bool
  | .node p => match doc.at? p with
    | some (.elem _ _ _) => true
    | _ => false
  | _ => false

/-- The characters of a text node. -/
def Item.textOf : Item F → Option Str
  | .node p => match doc.at? p with
    | some (.text s) => some s
    | _ => none
  | _ => none

/-- `isinstance(x, str)`: strings and text nodes (`uxml/tree.py` 162-170), with their characters. -/
def Item.strOf : Item F → Option Str
  | .str s => some s
  | x => x.textOf doc

/-- `isinstance(x, node)`. -/
def Item.isNode : Item F → Bool
  | .root | .node _ | .attr _ _ _ => true
  | _ => false

/-- `bool(x)`. -/
def Item.truthy (x : Item F) : Bool :=
  match x.strOf doc with
  | some s => !s.isEmpty
  | none => match x with
    | .int i => i != 0
    | .float f => !fo.isZero f
    | .bool b => b
    | _ => true

/-- The item of `ctx.copy(item=x)`, `uxml/uxpath/__init__.py` 91-99: `x` unless it is falsy. -/
def Item.orElse (x cur : Item F) : Item F := if x.truthy fo doc then x else cur

/-- `x.xml_children`; `none` is AttributeError.  `uxml/uxpath/xast.py` 44, `uxml/tree.py` 75, 183-184. -/
def Item.children : Item F → Option (List (Item F))
  | .root => some [.node []]
  | .node p => match doc.at? p with
    | some (.elem _ _ cs) => some ((List.range cs.length).map fun i => .node (p ++ [i]))
    | some (.text _) => some []
    | none => none
  | _ => none

/-- `x.xml_parent`; the outer `none` is AttributeError, the inner one None. -/
def Item.parent : Item F → Option (Option (Item F))
  | .root => some none
  | .node p => some (if p = [] then none else some (.node p.dropLast))
  | .attr p _ _ => some (some (.node p))
  | _ => none

/-- `root_node.get(x)`, `uxml/uxpath/xast.py` 52-62. -/
def Item.getRoot (x : Item F) : Res F :=
  match x with
  | .root => .one .root
  | x => if x.isElem doc then .one .root else .fail .assertion

/-- `compute` of a node test on an item: `name_test`, `uxml/uxpath/xast.py` 582-589, `node_type_test`, 617-620. -/
def Test.compute (t : Test) (x : Item F) : List (Item F) :=
  match t with
  | .star => [x]
  | .name n => match x with
    | .node p => match doc.at? p with
      | some (.elem m _ _) => if m = n then [x] else []
      | _ => []
    | _ => []
  | .node => if x.isNode || (x.strOf doc).isSome then [x] else []
  | .text => if (x.strOf doc).isSome then [x] else []

/-- `isinstance(test, name_test)`. -/
def Test.isName : Test → Bool
  | .name _ | .star => true
  | _ => false

/-- `test.name`. -/
def Test.theName : Test → Str
  | .name n => n
  | .star => "*".toList
  | .node => "node".toList
  | .text => "text".toList

/-- `for c in cs: new_ctx = ctx.copy(item=c); yield from test.compute(new_ctx)`. -/
def visit (t : Test) (cur : Item F) (cs : List (Item F)) : List (Item F) :=
  cs.flatMap fun c => t.compute doc (c.orElse fo doc cur)

mutual
  /-- The positions strictly below a node at position `p`, parents before children.  This is what the loops
  with `to_process` go through: see `Verif.Props.XPath`, `worklist_below`. -/
  def Node.under (p : Path) : Node → List Path
    | .elem _ _ cs => Node.underList p 0 cs
    | .text _ => []
  def Node.underList (p : Path) (i : Nat) : List Node → List Path
    | [] => []
    | x :: r => (p ++ [i]) :: (Node.under (p ++ [i]) x ++ Node.underList p (i + 1) r)
end

/-- The loop `while to_process: child = to_process[0]; to_process = list(child.xml_children) + to_process[1:]`,
`uxml/uxpath/xast.py` 378-383, 445-450, 453-458, 462-467, cut off after `n` rounds: the nodes it goes through. -/
def worklist : Nat → List (Item F) → Option (List (Item F))
  | _, [] => some []
  | 0, _ :: _ => none
  | n + 1, x :: r =>
    match x.children doc with
    | some cs => (worklist n (cs ++ r)).map (x :: ·)
    | none => none

/-- All nodes below an item, as the loops with `to_process` go through them; `none` is AttributeError. -/
def Item.below : Item F → Option (List (Item F))
  | .root => some (.node [] :: (doc.under []).map .node)
  | .node p => match doc.at? p with
    | some x => some ((x.under p).map .node)
    | none => none
  | _ => none

/-- The ancestors of an element position, nearest first: the loop over `xml_parent`,
`uxml/uxpath/xast.py` 431-435. -/
def ancestorsOf (p : Path) : List Path :=
  (List.range p.length).reverse.map fun k => p.take k

/-- `x.xml_parent.xml_children` and the index of `x` in it (`list.index`, by equality): the outer `none` is
AttributeError, the inner one the end (no parent). -/
inductive Siblings where
  | noParent
  | at (p : Path) (count : Nat) (ix : Nat)
  | fail (e : XErr)

/-- `uxml/uxpath/xast.py` 460-461, 469-470, 481-483, 491-493. -/
def Item.siblings : Item F → Siblings
  | .root => .noParent
  | .node p =>
    match p.getLast? with
    | none => .noParent
    | some i => match doc.at? p.dropLast with
      | some (.elem _ _ cs) => .at p.dropLast cs.length
          (((List.range cs.length).find? fun j => sameChild cs j i).getD 0)
      | _ => .fail .attribute
  | .attr _ _ _ => .fail .value
  | _ => .fail .attribute

/-- `step.compute`, `uxml/uxpath/xast.py` 414-499, for an axis, a node test and a context item; `n` bounds the
loop of `ancestor-or-self` (440-442), where `parent` does not change. -/
def stepRes (n : Nat) (a : Axis) (t : Test) (x : Item F) : Res F :=
  match a with
  | .self => ⟨t.compute doc x, .done⟩
  | .child => match x.children doc with
    | none => .fail .attribute
    | some cs => ⟨visit fo doc t x (if t.isName then cs.filter (·.isElem doc) else cs), .done⟩
  | .attribute => match x with
    | .node p => match doc.at? p with
      | some (.elem _ as _) =>
        ⟨(as.filter fun kv => t.theName = "*".toList ∨ t.theName = kv.1).map fun kv => .attr p kv.1 kv.2, .done⟩
      | _ => .nil
    | _ => .nil
  | .ancestor => match x with
    | .root => .one .root
    | .node p => .append ⟨visit fo doc t x ((ancestorsOf p).map .node), .done⟩ (x.getRoot doc)
    | .attr p _ _ => .append ⟨visit fo doc t x ((p :: ancestorsOf p).map .node), .done⟩ (x.getRoot doc)
    | _ => .fail .attribute
  | .ancestorOrSelf => .append ⟨t.compute doc x, .done⟩ (match x.parent with
    | none => .fail .attribute
    | some none => .fail .assertion
    | some (some y) => ⟨visit fo doc t x (List.replicate n y), .out⟩)
  | .descendant => match x.below doc with
    | none => .fail .attribute
    | some ys => ⟨visit fo doc t x ys, .done⟩
  | .descendantOrSelf => .append ⟨t.compute doc x, .done⟩ (match x.below doc with
    | none => .fail .attribute
    | some ys => ⟨visit fo doc t x ys, .done⟩)
  | .following => match x.siblings doc with
    | .noParent => .nil
    | .fail e => .fail e
    | .at p k i => ⟨visit fo doc t x (((List.range k).drop (i + 1)).flatMap fun j =>
        .node (p ++ [j]) :: (match doc.at? (p ++ [j]) with
          | some y => (y.under (p ++ [j])).map .node
          | none => [])), .done⟩
  | .followingSibling => match x.siblings doc with
    | .noParent => .nil
    | .fail e => .fail e
    | .at p k i => ⟨visit fo doc t x (((List.range k).drop (i + 1)).map fun j => .node (p ++ [j])), .done⟩
  | .parent => match x.parent with
    | none => .fail .attribute
    | some none => x.getRoot doc
    | some (some y) => ⟨visit fo doc t x [y], .done⟩
  | .preceding => match x.siblings doc with
    | .noParent => .nil
    | .fail e => .fail e
    | .at _ _ _ => .nil
  | .precedingSibling => match x.siblings doc with
    | .noParent => .nil
    | .fail e => .fail e
    | .at p _ i => ⟨visit fo doc t x (((List.range i).reverse).map fun j => .node (p ++ [j])), .done⟩

/-- `strval(x)`, `uxml/tree.py` 190-203, of a node. -/
def Item.strval : Item F → Str
  | .node p => match doc.at? p with
    | some x => x.xmlValue
    | none => []
  | .attr _ _ v => v
  | _ => []

/-- `to_string(x)` of a single item, as a string, `uxml/uxpath/xast.py` 93-114 (a bool is an int, so `True`
and `False`). -/
def Item.toStr (x : Item F) : Str :=
  match x with
  | .str s => s
  | .int i => (toString i).toList
  | .float f => fo.show_ f
  | .bool b => if b then "True".toList else "False".toList
  | x => x.strval doc

/-- `to_string(x)` as the object it yields: a text node is a string and is yielded itself. -/
def Item.toStrItem (x : Item F) : Item F := if (x.strOf doc).isSome then x else .str (x.toStr fo doc)

/-- `to_number(x)` of a single item, `uxml/uxpath/xast.py` 117-137. -/
def Item.toNum (x : Item F) : Res F :=
  match x with
  | .int i => .one (.int i)
  | .float f => .one (.float f)
  | .bool b => .one (.bool b)
  | x => match fo.parse (x.toStr fo doc) with
    | some f => .one (.float f)
    | none => .fail .value

/-- `to_boolean(x)` of a single item, `uxml/uxpath/xast.py` 140-162. -/
def Item.toBool (x : Item F) : Bool :=
  match x with
  | .bool b => b
  | x => match x.strOf doc with
    | some s => !s.isEmpty
    | none => match x with
      | .int i => i != 0
      | .float f => !fo.isZero f
      | _ => true

/-- The number an item is in Python, a bool being an int. -/
def Item.num : Item F → Option (F ⊕ Int)
  | .int i => some (.inr i)
  | .float f => some (.inl f)
  | .bool b => some (.inr (if b then 1 else 0))
  | _ => none

/-- Comparison of numbers. -/
def cmpNum (a b : F ⊕ Int) : Option Ordering :=
  match a, b with
  | .inr i, .inr j => some (compare i j)
  | a, b => fo.cmp a b

/-- Python's `x == y` on items.  Simplification: attribute nodes are objects made anew by each evaluation of a step and
compared by identity; here two of them are equal if they stand for one attribute, which is right where both come from
one object (`. != .`, a variable), while `@a != @a` is True in Python.  Only `!=` compares nodes. -/
def Item.pyEq (x y : Item F) : Bool :=
  match x.num, y.num with
  | some a, some b => cmpNum fo a b == some .eq
  | some _, none => false
  | none, some _ => false
  | none, none => match x.strOf doc, y.strOf doc with
    | some s, some t => s == t
    | some _, none => false
    | none, some _ => false
    | none, none => match x, y with
      | .root, .root => true
      | .node p, .node q => p == q
      | .attr p k _, .attr q l _ => p == q && k == l
      | _, _ => false

/-- Lexicographic comparison of strings by code point. -/
def strCmp : Str → Str → Ordering
  | [], [] => .eq
  | [], _ :: _ => .lt
  | _ :: _, [] => .gt
  | c :: s, d :: t => match compare c.toNat d.toNat with
    | .eq => strCmp s t
    | o => o

/-- The answer of an order comparison. -/
def Rel.holds (op : Rel) : Option Ordering → Bool
  | none => false
  | some .lt => op == .lt || op == .le
  | some .eq => op == .le || op == .ge
  | some .gt => op == .gt || op == .ge

/-- Python's `x < y` and so on; `none` is TypeError. -/
def Item.pyRel (op : Rel) (x y : Item F) : Option Bool :=
  match x.num, y.num with
  | some a, some b => some (op.holds (cmpNum fo a b))
  | _, _ => match x.strOf doc, y.strOf doc with
    | some s, some t => some (op.holds (some (strCmp s t)))
    | _, _ => none

/-- `x.xml_value if isinstance(x, node) else x`, `uxml/uxpath/xast.py` 290. -/
def Item.atom (x : Item F) : Item F := if x.isNode then .str (x.strval doc) else x

/-- The inner loop of `=`, `uxml/uxpath/xast.py` 289-294, for a left item already replaced by its value: `true`
when equal, otherwise how the right side ends.  A node on the right raises AttributeError (291 asks the left
item, by now a string, for `xml_value`). -/
def eqLoop (i : Item F) (t : Tail) : List (Item F) → Bool ⊕ Tail
  | [] => .inr t
  | j :: r =>
    if j.isNode then .inr (.err .attribute)
    else if i.pyEq fo doc j then .inl true else eqLoop i t r

/-- `left = right`, `uxml/uxpath/xast.py` 283-295: the right generator is used up by the first left item. -/
def eqRes (l r : Res F) : Res F :=
  match l.items with
  | [] => if l.tail = .done then .one (.bool false) else ⟨[], l.tail⟩
  | i :: _ =>
    match eqLoop fo doc (i.atom doc) r.tail r.items with
    | .inl _ => .one (.bool true)
    | .inr .done => if l.tail = .done then .one (.bool false) else ⟨[], l.tail⟩
    | .inr t => ⟨[], t⟩

/-- An item that `next` must give: an empty generator is StopIteration, which inside a generator becomes
RuntimeError. -/
def Res.need (a : Res F) (f : Item F → Res F) : Res F :=
  match a.first with
  | .got x => f x
  | .empty => .fail .runtime
  | .stop t => ⟨[], t⟩

/-- An item that `next(a, d)` gives. -/
def Res.orDefault (a : Res F) (d : Item F) (f : Item F → Res F) : Res F :=
  match a.first with
  | .got x => f x
  | .empty => f d
  | .stop t => ⟨[], t⟩

/-- Document order of positions. -/
def docLtB : Path → Path → Bool
  | [], [] => false
  | [], _ :: _ => true
  | _ :: _, [] => false
  | i :: p, j :: q => i < j || (i == j && docLtB p q)

/-- `isinstance(item, root_node)`. -/
def Item.isRoot : Item F → Bool
  | .root => true
  | _ => false

/-- `_docorder` as a key: the root first, then elements by position; `none` is AttributeError. -/
def Item.orderKey (rootHasIt : Bool) : Item F → Option (Option Path)
  | .root => if rootHasIt then some none else none
  | .node p => match doc.at? p with
    | some (.elem _ _ _) => some (some p)
    | _ => none
  | _ => none

/-- Comparing keys. -/
def keyLe : Option Path → Option Path → Bool
  | none, _ => true
  | some _, none => false
  | some p, some q => !docLtB q p

/-- Insertion into a list sorted by key, after equal ones. -/
def insertByKey (k : Option Path) (x : Item F) : List (Option Path × Item F) → List (Option Path × Item F)
  | [] => [(k, x)]
  | (k', y) :: r => if keyLe k' k then (k', y) :: insertByKey k x r else (k, x) :: (k', y) :: r

/-- `selected.sort(key=...)`: stable. -/
def sortByKey (xs : List (Option Path × Item F)) : List (Option Path × Item F) :=
  xs.foldl (fun acc kx => insertByKey kx.1 kx.2 acc) []

/-- `left | right`, `uxml/uxpath/xast.py` 272-280, at a context item, in a tree whose nodes have no numbers from earlier
queries (`Model/DocOrder` models those). -/
def unionRes (x : Item F) (l r : Res F) : Res F :=
  if x.isNode then
    match l.tail, r.tail with
    | .done, .done =>
      match (l.items ++ r.items).mapM fun y => (y.orderKey doc x.isRoot).map fun k => (k, y) with
      | some ks => ⟨(sortByKey ks).map (·.2), .done⟩
      | none => .fail .attribute
    | .done, t => ⟨[], t⟩
    | t, _ => ⟨[], t⟩
  else .fail .attribute

/-- Whether all predicates hold, `uxml/uxpath/xast.py` 541-553, for one of them: its value at the item, and the
item's position. -/
def predHolds (pos : Nat) (r : Res F) : Bool ⊕ Tail :=
  match r.first with
  | .stop t => .inr t
  | .empty => .inl false
  | .got v => match v with
    | .int i => .inl ((pos : Int) == i)
    | .float f => match fo.trunc f with
      | some i => .inl ((pos : Int) == i)
      | none => .inr (.err .value)
    | v => .inl (v.toBool fo doc)

/-- The loop over the items of a predicated expression, `uxml/uxpath/xast.py` 538-556. -/
def predLoop (f : Nat → Item F → Bool ⊕ Tail) (t : Tail) (pos : Nat) : List (Item F) → Res F
  | [] => ⟨[], t⟩
  | x :: r => match f pos x with
    | .inr t => ⟨[], t⟩
    | .inl b =>
      let y := predLoop f t (pos + 1) r
      if b then ⟨x :: y.items, y.tail⟩ else y

/-- `s.startswith(t)`. -/
def pyStartsWith (s t : Str) : Bool := t.isPrefixOf s

/-- `t in s`. -/
def pyContains : Str → Str → Bool
  | [], t => t.isEmpty
  | c :: s, t => t.isPrefixOf (c :: s) || pyContains s t

/-- `s.partition(t)`, first and last part, for a non-empty separator. -/
def pyPartition (t : Str) : Str → Str × Str
  | [] => ([], [])
  | c :: s =>
    if t.isPrefixOf (c :: s) then ([], (c :: s).drop t.length)
    else ((c :: (pyPartition t s).1), (pyPartition t s).2)

/-- A bound of a slice of a string of length `n`. -/
def clampIx (n : Nat) (i : Int) : Nat := if i < 0 then (i + n).toNat else min i.toNat n

/-- `s[a:b]`. -/
def pySlice (s : Str) (a b : Int) : Str :=
  (s.take (clampIx s.length b)).drop (clampIx s.length a)

/-- `string_arg(ctx, obj)`, `uxml/uxpath/functions.py` 34-40: the default for an empty sequence is False, hence
`'False'`. -/
def strArg (a : Res F) (f : Str → Res F) : Res F := a.orDefault (.bool false) fun x => f (x.toStr fo doc)

/-- `int(next(to_number(obj)))` of an argument of `substring`: only a literal can be converted,
`uxml/uxpath/functions.py` 176-177. -/
def intArg (e : Expr F) (f : Int → Res F) : Res F :=
  match e with
  | .lit x => (x.toNum fo doc).need fun v => match v with
    | .int i => f i
    | .bool b => f (if b then 1 else 0)
    | .float g => match fo.trunc g with
      | some i => f i
      | none => .fail .value
    | _ => .fail .runtime
  | _ => .fail .runtime

/-- The strings of `concat`, `uxml/uxpath/functions.py` 115-127. -/
def concatRes (rs : List (Res F)) : Res F :=
  let all := rs.foldr Res.append Res.nil
  match all.tail with
  | .done => .one (.str (all.items.flatMap fun x => x.toStr fo doc))
  | t => ⟨[], t⟩

/-- `name()`, `uxml/uxpath/functions.py` 57-73.  The name of an attribute node is empty: `node.__init__` overwrites
it, `uxml/uxpath/xast.py` 67-69, `uxml/tree.py` 23.  In these functions `x` is the context item, `rs` what the
arguments yield; a wrong number of arguments is TypeError. -/
def Item.nameOf : Item F → Str
  | .node p => match doc.at? p with
    | some z => z.xmlName
    | none => []
  | _ => []

def fnName (x : Item F) (rs : List (Res F)) : Res F :=
  match rs with
  | [] => .one (.str (x.nameOf doc))
  | [a] => a.orDefault (.str []) fun y => .one (.str (y.nameOf doc))
  | _ => .fail .type

/-- A function of no arguments. -/
def fnConst (r : Res F) (rs : List (Res F)) : Res F :=
  match rs with
  | [] => r
  | _ => .fail .type

/-- `count()`, `uxml/uxpath/functions.py` 84-89. -/
def fnCount (rs : List (Res F)) : Res F :=
  match rs with
  | [a] => if a.tail = .done then .one (.int a.items.length) else ⟨[], a.tail⟩
  | _ => .fail .type

/-- `string()`, `uxml/uxpath/functions.py` 92-112. -/
def fnString (x : Item F) (rs : List (Res F)) : Res F :=
  match rs with
  | [] => .one (x.toStrItem fo doc)
  | [a] => a.orDefault (.str []) fun y => .one (y.toStrItem fo doc)
  | _ => .fail .type

/-- A function of two strings: `starts-with()`, `contains()`, `substring-before()`, `substring-after()`,
`uxml/uxpath/functions.py` 130-167. -/
def fnStr2 (f : Str → Str → Res F) (rs : List (Res F)) : Res F :=
  match rs with
  | [a, b] => strArg fo doc a fun s => strArg fo doc b fun t => f s t
  | _ => .fail .type

/-- `substring()`, `uxml/uxpath/functions.py` 170-178. -/
def fnSubstring (args : List (Expr F)) (rs : List (Res F)) : Res F :=
  match args with
  | [_, e1, e2] => match rs with
    | a :: _ => strArg fo doc a fun s => intArg fo doc e1 fun i => intArg fo doc e2 fun k =>
        .one (.str (pySlice s (i - 1) (i - 1 + k)))
    | [] => .fail .type
  | _ => .fail .type

/-- `string-length()`, `uxml/uxpath/functions.py` 181-190. -/
def fnLength (rs : List (Res F)) : Res F :=
  match rs with
  | [] => .fail .attribute
  | [a] => a.orDefault (.str []) fun y => match y.strOf doc with
    | some s => .one (.int s.length)
    | none => .fail .type
  | _ => .fail .type

/-- `boolean()`, `uxml/uxpath/functions.py` 223-238. -/
def fnBoolean (rs : List (Res F)) : Res F :=
  match rs with
  | [a] => a.orDefault (.str []) fun y => .one (.bool (y.toBool fo doc))
  | _ => .fail .type

/-- `not()`, `uxml/uxpath/functions.py` 241-246, with `boolean_arg`, 16-22. -/
def fnNot (rs : List (Res F)) : Res F :=
  match rs with
  | [a] => a.orDefault (.bool false) fun y => .one (.bool (!y.toBool fo doc))
  | _ => .fail .type

/-- `number()`, `uxml/uxpath/functions.py` 265-278. -/
def fnNumber (rs : List (Res F)) : Res F :=
  match rs with
  | [] => .one (.int 0)
  | [a] => a.orDefault (.str []) fun y => y.toNum fo doc
  | _ => .fail .type

/-- `for-each()`, `uxml/uxpath/functions.py` 281-299; `dyn` evaluates an expression given as a string, or says
which exception its parsing raises. -/
def fnForEach (dyn : Str → Except XErr (Item F → Res F)) (x : Item F) (rs : List (Res F)) : Res F :=
  match rs with
  | [a, b] => strArg fo doc b fun s => match dyn s with
    | .ok g => a.bind fun y => g (y.orElse fo doc x)
    | .error e => .fail e
  | _ => .fail .type

/-- A function that takes `k` arguments and raises `NotImplementedError`: `normalize-space`, `translate`,
`same-lang`, `sum`, `floor`, `ceiling`, `round`, `uxml/uxpath/functions.py` 193-220, 318-355. -/
def fnTodo (k : Nat) (rs : List (Res F)) : Res F :=
  if rs.length = k then .fail .notImplemented else .fail .type

/-- A built-in function applied to its arguments, given as expressions and as what they yield,
`function_call.compute`, `uxml/uxpath/xast.py` 711-716, with the table `BUILTIN_FUNCTIONS`. -/
def callFn (dyn : Str → Except XErr (Item F → Res F)) (x : Item F) (name : Str) (args : List (Expr F))
    (rs : List (Res F)) : Res F :=
  if name = "name".toList then fnName doc x rs
  else if name = "last".toList then fnConst (.one (.int (-1))) rs
  else if name = "count".toList then fnCount rs
  else if name = "string".toList then fnString fo doc x rs
  else if name = "concat".toList then concatRes fo doc rs
  else if name = "starts-with".toList then fnStr2 fo doc (fun s t => .one (.bool (pyStartsWith s t))) rs
  else if name = "contains".toList then fnStr2 fo doc (fun s t => .one (.bool (pyContains s t))) rs
  else if name = "substring-before".toList then
    fnStr2 fo doc (fun s t => if t = [] then .fail .value else .one (.str (pyPartition t s).1)) rs
  else if name = "substring-after".toList then
    fnStr2 fo doc (fun s t => if t = [] then .fail .value else .one (.str (pyPartition t s).2)) rs
  else if name = "substring".toList then fnSubstring fo doc args rs
  else if name = "string-length".toList then fnLength doc rs
  else if name = "boolean".toList then fnBoolean fo doc rs
  else if name = "not".toList then fnNot fo doc rs
  else if name = "true".toList then fnConst (.one (.bool true)) rs
  else if name = "false".toList then fnConst (.one (.bool false)) rs
  else if name = "number".toList then fnNumber fo doc rs
  else if name = "for-each".toList then fnForEach fo doc dyn x rs
  else if name = "lookup".toList then fnStr2 fo doc (fun _ _ => .fail .name) rs
  else if name = "normalize-space".toList ∨ name = "sum".toList ∨ name = "floor".toList ∨
      name = "ceiling".toList ∨ name = "round".toList then fnTodo 1 rs
  else if name = "translate".toList ∨ name = "same-lang".toList then fnTodo 2 rs
  else .fail .runtime

/-- `_step_is_just_node`, `uxml/uxpath/xast.py` 386-389. -/
def Expr.isJustNode : Expr F → Bool
  | .step _ .node => true
  | _ => false

mutual
  /-- `compute(ctx)` of an expression at the context item `x`; `vars` are the variables, `n` bounds
  `ancestor-or-self`, `dyn` evaluates strings. -/
  def eval (vars : Str → Option (Item F)) (n : Nat) (dyn : Str → Except XErr (Item F → Res F)) :
      Expr F → Item F → Res F
    | .lit y, _ => .one y                                                     -- xast.py 184-186
    | .neg e, x => match (eval vars n dyn e x).first with                      -- 213-215
      | .stop t => ⟨[], t⟩
      | _ => .fail .type
    | .slash l r, x =>                                                         -- 257-262
      (eval vars n dyn l x).bind fun y => eval vars n dyn r (y.orElse fo doc x)
    | .dslash l r, x =>                                                        -- 263-271
      (eval vars n dyn l x).bind fun y => match r with
        | .step _ t => stepRes fo doc n .descendantOrSelf t (y.orElse fo doc x)
        | r => eval vars n dyn r (y.orElse fo doc x)
    | .union l r, x => unionRes doc x (eval vars n dyn l x) (eval vars n dyn r x)
    | .eq l r, x => eqRes fo doc (eval vars n dyn l x) (eval vars n dyn r x)
    | .ne l r, x =>                                                            -- 296-299
      (eval vars n dyn l x).need fun a => (eval vars n dyn r x).need fun b => .one (.bool (!a.pyEq fo doc b))
    | .rel op l r, x =>                                                        -- 300-315
      (eval vars n dyn l x).need fun a => (eval vars n dyn r x).need fun b => match a.pyRel fo doc op b with
        | some v => .one (.bool v)
        | none => .fail .type
    | .or l r, x =>                                                            -- 316-319
      (eval vars n dyn l x).need fun a => if a.truthy fo doc then .one a else (eval vars n dyn r x).need .one
    | .and l r, x =>                                                           -- 320-327
      (eval vars n dyn l x).need fun a => if a.truthy fo doc then (eval vars n dyn r x).need .one else .one a
    | .arith _ _ _, _ => .fail .notImplemented                                   -- 328-329
    | .abs none, x => x.getRoot doc                                            -- 361-364
    | .abs (some r), x => (x.getRoot doc).bind fun y =>                        -- 366-371
        .append (if r.isJustNode then .one y else .nil) (eval vars n dyn r y)
    | .absAll r, x => (x.getRoot doc).bind fun y =>                            -- 373-383
        .append (if r.isJustNode then .one y else .nil) (.append (eval vars n dyn r y)
          (match Item.below doc y with
            | none => .fail .attribute
            | some ys => Res.bindList (fun z => eval vars n dyn r (z.orElse fo doc x)) .done ys))
    | .step a t, x => stepRes fo doc n a t x
    | .test t, x => ⟨t.compute doc x, .done⟩
    | .pred lhs ps, x =>                                                       -- 536-556
      predLoop (fun pos y => evalPreds vars n dyn pos ps (y.orElse fo doc x)) (eval vars n dyn lhs x).tail 1
        (eval vars n dyn lhs x).items
    | .dot, x => .one x                                                        -- 639-640
    | .dotdot, x => match x.parent with                                        -- 641-647
      | none => .fail .attribute
      | some none => x.getRoot doc
      | some (some y) => .one y
    | .var v, _ => match vars v with                                           -- 676-677
      | some y => .one y
      | none => .fail .key
    | .call f args, x => callFn fo doc dyn x f args (evalArgs vars n dyn args x)
    | .seq es, x => evalSeq vars n dyn es x                                    -- 748-753
  /-- All predicates in turn, 541-553. -/
  def evalPreds (vars : Str → Option (Item F)) (n : Nat) (dyn : Str → Except XErr (Item F → Res F)) (pos : Nat) :
      List (Expr F) → Item F → Bool ⊕ Tail
    | [], _ => .inl true
    | p :: r, x => match predHolds fo doc pos (eval vars n dyn p x) with
      | .inl true => evalPreds vars n dyn pos r x
      | v => v
  def evalArgs (vars : Str → Option (Item F)) (n : Nat) (dyn : Str → Except XErr (Item F → Res F)) :
      List (Expr F) → Item F → List (Res F)
    | [], _ => []
    | e :: r, x => eval vars n dyn e x :: evalArgs vars n dyn r x
  def evalSeq (vars : Str → Option (Item F)) (n : Nat) (dyn : Str → Except XErr (Item F → Res F)) :
      List (Expr F) → Item F → Res F
    | [], _ => .nil
    | e :: r, x => .append (eval vars n dyn e x) (evalSeq vars n dyn r x)
end

/-- Evaluation where `for-each` parses its expression with `parse` and evaluates it in the same way; `n` also
bounds how deep such evaluations nest. -/
def evalN (parse : Str → Except XErr (Expr F)) (vars : Str → Option (Item F)) : Nat → Expr F → Item F → Res F
  | 0 => eval fo doc vars 0 fun s => (parse s).map fun _ _ => ⟨[], .out⟩
  | n + 1 => eval fo doc vars (n + 1) fun s => (parse s).map fun e => evalN parse vars n e

end

end Amara
