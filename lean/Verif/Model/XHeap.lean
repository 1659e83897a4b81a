import Verif.Model.XPath
import Verif.Model.Query
import Verif.Model.DocOrder
/-
The evaluator of MicroXPath expressions (`pylib/uxml/uxpath/xast.py`, `pylib/uxml/uxpath/functions.py`) on objects in memory: where
`Model/XPath` computes with positions in a document that is a value, here the steps follow `xml_parent` and `xml_children` of the objects
as they are in memory, whether or not these form a tree.  `Props/XHeap` (C153) relates the two.

Simplifications: as in `Model/XPath`, but for the first two points there; memory does not change during the evaluation.  The loops that
follow `xml_parent` or `xml_children` (and the recursion of `strval`) are cut off after `k` rounds: in memory the links may run in a
circle.  Nodes have no numbers from earlier unions and root nodes no memory (these are the subjects of `Model/DocOrder` and
`Model/RootCache`).
-/
namespace Amara
namespace Mem

/-- Items of a sequence: the root node made for the topmost element `t` (`uxml/uxpath/xast.py` 33-62), an element or text object, an
attribute node made for an attribute of the element `e` (65-69), and plain values. -/
inductive Item (F : Type) where
  | root (t : Id)
  | obj (i : Id)
  | attr (e : Id) (k v : Str)
  | str (s : Str)
  | int (i : Int)
  | float (f : F)
  | bool (b : Bool)
deriving DecidableEq, Repr

/-- What a generator yields. -/
structure Res (F : Type) where
  items : List (Item F)
  tail : Tail
deriving DecidableEq, Repr

namespace Res
variable {F : Type}

def nil : Res F := ⟨[], .done⟩
def one (x : Item F) : Res F := ⟨[x], .done⟩
def fail (e : XErr) : Res F := ⟨[], .err e⟩

/-- One generator after another: `yield from a; yield from b`. -/
def append (a b : Res F) : Res F :=
  match a.tail with
  | .done => ⟨a.items ++ b.items, b.tail⟩
  | t => ⟨a.items, t⟩

/-- `for x in xs: yield from f(x)`, and then the end `t`. -/
def bindList (f : Item F → Res F) (t : Tail) : List (Item F) → Res F
  | [] => ⟨[], t⟩
  | x :: r => append (f x) (bindList f t r)

/-- `for x in a: yield from f(x)`. -/
def bind (a : Res F) (f : Item F → Res F) : Res F := bindList f a.tail a.items

/-- What `next(a, default)` gives: an item, nothing (the default), or the generator's exception. -/
inductive First (F : Type) where
  | got (x : Item F)
  | empty
  | stop (t : Tail)

def first (a : Res F) : First F :=
  match a.items, a.tail with
  | x :: _, _ => .got x
  | [], .done => .empty
  | [], t => .stop t

end Res

/-- The end of a loop that was or was not cut off. -/
def tailOf (ended : Bool) : Tail := if ended then .done else .out

section
variable {F : Type} (fo : FloatOps F) (h : Heap) (k : Nat)

/-- The value of a literal, `uxml/uxpath/xast.py` 167-186: a string or a number.  (The parser makes no others.) -/
def ofLit : Amara.Item F → Item F
  | .str s => .str s
  | .int i => .int i
  | .float f => .float f
  | .bool b => .bool b
  | _ => .str []

/-- `isinstance(x, element)`. -/
def Item.isElem : Item F → Bool
  | .obj i => h.isElemB i
  | _ => false

/-- The characters of a text node. -/
def Item.textOf : Item F → Option Str
  | .obj i => match h.obj i with
    | some (.text s _) => some s
    | _ => none
  | _ => none

/-- `isinstance(x, str)`: strings and text nodes (`uxml/tree.py` 162-170), with their characters. -/
def Item.strOf : Item F → Option Str
  | .str s => some s
  | x => x.textOf h

/-- `isinstance(x, node)`. -/
def Item.isNode : Item F → Bool
  | .root _ | .obj _ | .attr _ _ _ => true
  | _ => false

/-- `bool(x)`. -/
def Item.truthy (x : Item F) : Bool :=
  match x.strOf h with
  | some s => !s.isEmpty
  | none => match x with
    | .int i => i != 0
    | .float f => !fo.isZero f
    | .bool b => b
    | _ => true

/-- The item of `ctx.copy(item=x)`, `uxml/uxpath/__init__.py` 91-99: `x` unless it is falsy. -/
def Item.orElse (x cur : Item F) : Item F := if x.truthy fo h then x else cur

/-- `x.xml_children`; `none` is AttributeError.  `uxml/uxpath/xast.py` 44, `uxml/tree.py` 75, 183-184. -/
def Item.kids : Item F → Option (List Id)
  | .root t => some [t]
  | .obj i => (h.obj i).map Obj.kids
  | _ => none

/-- `x.xml_parent`; the outer `none` is AttributeError, the inner one None.  `uxml/tree.py` 25-27: also an attribute node only has a weak
reference. -/
def Item.up : Item F → Option (Option Id)
  | .root _ => some none
  | .obj i => some (h.xmlParent i)
  | .attr e _ _ => some (h.deref (some e))
  | _ => none

/-- `root_node.get(x)`, `uxml/uxpath/xast.py` 52-62: up to the element that has no parent. -/
def Item.getRoot (x : Item F) : Res F :=
  match x with
  | .root t => .one (.root t)
  | .obj i => if h.isElemB i then
      match topOf h k i with
      | some t => .one (.root t)
      | none => ⟨[], .out⟩
    else .fail .assertion
  | _ => .fail .assertion

/-- `compute` of a node test on an item: `name_test`, `uxml/uxpath/xast.py` 582-589, `node_type_test`, 617-620. -/
def compute (t : Test) (x : Item F) : List (Item F) :=
  match t with
  | .star => [x]
  | .name n => match x with
    | .obj i => match h.obj i with
      | some (.elem m _ _ _) => if m = n then [x] else []
      | _ => []
    | _ => []
  | .node => if x.isNode || (x.strOf h).isSome then [x] else []
  | .text => if (x.strOf h).isSome then [x] else []

/-- `for c in cs: new_ctx = ctx.copy(item=c); yield from test.compute(new_ctx)`. -/
def visit (t : Test) (cur : Item F) (cs : List (Item F)) : List (Item F) :=
  cs.flatMap fun c => compute h t (c.orElse fo h cur)

/-- The loop `while to_process: child = to_process[0]; to_process = list(child.xml_children) + to_process[1:]`,
`uxml/uxpath/xast.py` 378-383, 445-450, 453-458, 462-467: the objects it goes through, and whether it came to its end. -/
def walk : Nat → List Id → List Id × Bool
  | _, [] => ([], true)
  | 0, _ :: _ => ([], false)
  | n + 1, i :: r => (i :: (walk n (h.children i ++ r)).1, (walk n (h.children i ++ r)).2)

/-- The loop `while parent: ...; parent = parent.xml_parent`, `uxml/uxpath/xast.py` 430-435. -/
def climb : Nat → Option Id → List Id × Bool
  | _, none => ([], true)
  | 0, some _ => ([], false)
  | n + 1, some i => (i :: (climb n (h.xmlParent i)).1, (climb n (h.xmlParent i)).2)

/-- `x.xml_parent.xml_children` and the index of `x` in it. -/
inductive Siblings where
  | noParent
  | at (cs : List Id) (ix : Nat)
  | fail (e : XErr)

/-- `uxml/uxpath/xast.py` 460-461, 469-470, 481-483, 491-493.  `list.index` goes by `==` and raises ValueError; an attribute node is equal
to no child. -/
def Item.siblings : Item F → Siblings
  | .root _ => .noParent
  | .obj i => match h.xmlParent i with
    | none => .noParent
    | some p => match (h.children p).findIdx? (h.pyEq i) with
      | some ix => .at (h.children p) ix
      | none => .fail .value
  | .attr e _ _ => match h.deref (some e) with
    | none => .noParent
    | some _ => .fail .value
  | _ => .fail .attribute

/-- `step.compute`, `uxml/uxpath/xast.py` 414-499, for an axis, a node test and a context item; `n` bounds the
loop of `ancestor-or-self` (440-442), where `parent` does not change. -/
def stepRes (n : Nat) (a : Axis) (t : Test) (x : Item F) : Res F :=
  match a with
  | .self => ⟨compute h t x, .done⟩
  | .child => match x.kids h with
    | none => .fail .attribute
    | some cs => ⟨visit fo h t x ((if t.isName then cs.filter h.isElemB else cs).map .obj), .done⟩
  | .attribute => match x with
    | .obj i => match h.obj i with
      | some (.elem _ as _ _) =>
        ⟨(as.filter fun kv => t.theName = "*".toList ∨ t.theName = kv.1).map fun kv => .attr i kv.1 kv.2, .done⟩
      | _ => .nil
    | _ => .nil
  | .ancestor => match x.up h with
    | none => .fail .attribute
    | some y => .append ⟨visit fo h t x ((climb h k y).1.map .obj), tailOf (climb h k y).2⟩ (x.getRoot h k)
  | .ancestorOrSelf => .append ⟨compute h t x, .done⟩ (match x.up h with
    | none => .fail .attribute
    | some none => .fail .assertion
    | some (some y) => ⟨visit fo h t x (List.replicate n (.obj y)), .out⟩)
  | .descendant => match x.kids h with
    | none => .fail .attribute
    | some cs => ⟨visit fo h t x ((walk h k cs).1.map .obj), tailOf (walk h k cs).2⟩
  | .descendantOrSelf => .append ⟨compute h t x, .done⟩ (match x.kids h with
    | none => .fail .attribute
    | some cs => ⟨visit fo h t x ((walk h k cs).1.map .obj), tailOf (walk h k cs).2⟩)
  | .following => match x.siblings h with
    | .noParent => .nil
    | .fail e => .fail e
    | .at cs i => ⟨visit fo h t x ((walk h k (cs.drop (i + 1))).1.map .obj), tailOf (walk h k (cs.drop (i + 1))).2⟩
  | .followingSibling => match x.siblings h with
    | .noParent => .nil
    | .fail e => .fail e
    | .at cs i => ⟨visit fo h t x ((cs.drop (i + 1)).map .obj), .done⟩
  | .parent => match x.up h with
    | none => .fail .attribute
    | some none => x.getRoot h k
    | some (some y) => ⟨visit fo h t x [.obj y], .done⟩
  | .preceding => match x.siblings h with
    | .noParent => .nil
    | .fail e => .fail e
    | .at _ _ => .nil
  | .precedingSibling => match x.siblings h with
    | .noParent => .nil
    | .fail e => .fail e
    | .at cs i => ⟨visit fo h t x ((cs.take i).reverse.map .obj), .done⟩

/-- `strval(x)`, `uxml/tree.py` 190-203, of an object; empty where it is cut off. -/
def value : Nat → Id → Str
  | 0, _ => []
  | n + 1, i => match h.obj i with
    | some (.text s _) => s
    | some (.elem _ _ cs _) => cs.flatMap (value n)
    | none => []

/-- `strval(x)` of a node. -/
def Item.strval : Item F → Str
  | .obj i => value h k i
  | .attr _ _ v => v
  | _ => []

/-- `to_string(x)` of a single item, as a string, `uxml/uxpath/xast.py` 93-114 (a bool is an int, so `True`
and `False`). -/
def Item.toStr (x : Item F) : Str :=
  match x with
  | .str s => s
  | .int i => (toString i).toList
  | .float f => fo.show_ f
  | .bool b => if b then "True".toList else "False".toList
  | x => x.strval h k

/-- `to_string(x)` as the object it yields: a text node is a string and is yielded itself. -/
def Item.toStrItem (x : Item F) : Item F := if (x.strOf h).isSome then x else .str (x.toStr fo h k)

/-- `to_number(x)` of a single item, `uxml/uxpath/xast.py` 117-137. -/
def Item.toNum (x : Item F) : Res F :=
  match x with
  | .int i => .one (.int i)
  | .float f => .one (.float f)
  | .bool b => .one (.bool b)
  | x => match fo.parse (x.toStr fo h k) with
    | some f => .one (.float f)
    | none => .fail .value

/-- `to_boolean(x)` of a single item, `uxml/uxpath/xast.py` 140-162. -/
def Item.toBool (x : Item F) : Bool :=
  match x with
  | .bool b => b
  | x => match x.strOf h with
    | some s => !s.isEmpty
    | none => match x with
      | .int i => i != 0
      | .float f => !fo.isZero f
      | _ => true

/-- The number an item is in Python, a bool being an int. -/
def Item.num : Item F → Option (F ⊕ Int)
  | .int i => some (.inr i)
  | .float f => some (.inl f)
  | .bool b => some (.inr (if b then 1 else 0))
  | _ => none

/-- Python's `x == y` on items.  Simplification: attribute nodes are objects made anew by each evaluation of a step and
compared by identity; here two of them are equal if they stand for one attribute, which is right where both come from
one object (`. != .`, a variable), while `@a != @a` is True in Python.  Only `!=` compares nodes. -/
def Item.pyEq (x y : Item F) : Bool :=
  match x.num, y.num with
  | some a, some b => cmpNum fo a b == some .eq
  | some _, none => false
  | none, some _ => false
  | none, none => match x.strOf h, y.strOf h with
    | some s, some t => s == t
    | some _, none => false
    | none, some _ => false
    | none, none => match x, y with
      | .root s, .root t => s == t
      | .obj i, .obj j => i == j
      | .attr p a _, .attr q b _ => p == q && a == b
      | _, _ => false

/-- Python's `x < y` and so on; `none` is TypeError. -/
def Item.pyRel (op : Rel) (x y : Item F) : Option Bool :=
  match x.num, y.num with
  | some a, some b => some (op.holds (cmpNum fo a b))
  | _, _ => match x.strOf h, y.strOf h with
    | some s, some t => some (op.holds (some (strCmp s t)))
    | _, _ => none

/-- `x.xml_value if isinstance(x, node) else x`, `uxml/uxpath/xast.py` 290. -/
def Item.atom (x : Item F) : Item F := if x.isNode then .str (x.strval h k) else x

/-- The inner loop of `=`, `uxml/uxpath/xast.py` 289-294, for a left item already replaced by its value: `true`
when equal, otherwise how the right side ends.  A node on the right raises AttributeError (291 asks the left
item, by now a string, for `xml_value`). -/
def eqLoop (i : Item F) (t : Tail) : List (Item F) → Bool ⊕ Tail
  | [] => .inr t
  | j :: r =>
    if j.isNode then .inr (.err .attribute)
    else if i.pyEq fo h j then .inl true else eqLoop i t r

/-- `left = right`, `uxml/uxpath/xast.py` 283-295: the right generator is used up by the first left item. -/
def eqRes (l r : Res F) : Res F :=
  match l.items with
  | [] => if l.tail = .done then .one (.bool false) else ⟨[], l.tail⟩
  | i :: _ =>
    match eqLoop fo h (i.atom h k) r.tail r.items with
    | .inl _ => .one (.bool true)
    | .inr .done => if l.tail = .done then .one (.bool false) else ⟨[], l.tail⟩
    | .inr t => ⟨[], t⟩

/-- An item that `next` must give: an empty generator is StopIteration, which inside a generator becomes
RuntimeError. -/
def Res.need (a : Res F) (f : Item F → Res F) : Res F :=
  match a.first with
  | .got x => f x
  | .empty => .fail .runtime
  | .stop t => ⟨[], t⟩

/-- An item that `next(a, d)` gives. -/
def Res.orDefault (a : Res F) (d : Item F) (f : Item F → Res F) : Res F :=
  match a.first with
  | .got x => f x
  | .empty => f d
  | .stop t => ⟨[], t⟩

/-- `index_docorder(ctx.item)`, `uxml/uxpath/xast.py` 81-89, where no node has a number yet; `none` is AttributeError or a loop that is cut
off. -/
def Item.numbers : Item F → Option Numbers
  | .root t => indexDocorder h t k ⟨none, fun _ => none⟩ .root
  | .obj i => indexDocorder h i k ⟨none, fun _ => none⟩ (.obj i)
  | .attr e _ _ => indexDocorder h e k ⟨none, fun _ => none⟩ (.attr e)
  | _ => none

/-- `y._docorder` after the nodes were numbered from the item `x`; `none` is AttributeError. -/
def Item.order (x : Item F) (m : Numbers) : Item F → Option Nat
  | .root t => match x with
    | .root s => if s = t then m.root else none
    | _ => none
  | .obj i => m.obj i
  | _ => none

/-- `left | right`, `uxml/uxpath/xast.py` 272-280, at a context item. -/
def unionRes (x : Item F) (l r : Res F) : Res F :=
  if x.isNode then
    match x.numbers h k with
    | none => ⟨[], .out⟩
    | some m => match l.tail, r.tail with
      | .done, .done =>
        match (l.items ++ r.items).mapM fun y => (x.order m y).map fun c => (c, y) with
        | some ks => ⟨(ks.foldl (fun acc kx => insertNum kx.1 kx.2 acc) []).map (·.2), .done⟩
        | none => .fail .attribute
      | .done, t => ⟨[], t⟩
      | t, _ => ⟨[], t⟩
  else .fail .attribute

/-- Whether all predicates hold, `uxml/uxpath/xast.py` 541-553, for one of them: its value at the item, and the
item's position. -/
def predHolds (pos : Nat) (r : Res F) : Bool ⊕ Tail :=
  match r.first with
  | .stop t => .inr t
  | .empty => .inl false
  | .got v => match v with
    | .int i => .inl ((pos : Int) == i)
    | .float f => match fo.trunc f with
      | some i => .inl ((pos : Int) == i)
      | none => .inr (.err .value)
    | v => .inl (v.toBool fo h)

/-- The loop over the items of a predicated expression, `uxml/uxpath/xast.py` 538-556. -/
def predLoop (f : Nat → Item F → Bool ⊕ Tail) (t : Tail) (pos : Nat) : List (Item F) → Res F
  | [] => ⟨[], t⟩
  | x :: r => match f pos x with
    | .inr t => ⟨[], t⟩
    | .inl b =>
      let y := predLoop f t (pos + 1) r
      if b then ⟨x :: y.items, y.tail⟩ else y

/-- `string_arg(ctx, obj)`, `uxml/uxpath/functions.py` 34-40: the default for an empty sequence is False, hence
`'False'`. -/
def strArg (a : Res F) (f : Str → Res F) : Res F := a.orDefault (.bool false) fun x => f (x.toStr fo h k)

/-- `int(next(to_number(obj)))` of an argument of `substring`: only a literal can be converted,
`uxml/uxpath/functions.py` 176-177. -/
def intArg (e : Expr F) (f : Int → Res F) : Res F :=
  match e with
  | .lit x => ((ofLit x).toNum fo h k).need fun v => match v with
    | .int i => f i
    | .bool b => f (if b then 1 else 0)
    | .float g => match fo.trunc g with
      | some i => f i
      | none => .fail .value
    | _ => .fail .runtime
  | _ => .fail .runtime

/-- The strings of `concat`, `uxml/uxpath/functions.py` 115-127. -/
def concatRes (rs : List (Res F)) : Res F :=
  let all := rs.foldr Res.append Res.nil
  match all.tail with
  | .done => .one (.str (all.items.flatMap fun x => x.toStr fo h k))
  | t => ⟨[], t⟩

/-- `name()`, `uxml/uxpath/functions.py` 57-73.  The name of an attribute node is empty: `node.__init__` overwrites
it, `uxml/uxpath/xast.py` 67-69, `uxml/tree.py` 23.  In these functions `x` is the context item, `rs` what the
arguments yield; a wrong number of arguments is TypeError. -/
def Item.nameOf : Item F → Str
  | .obj i => match h.obj i with
    | some (.elem m _ _ _) => m
    | some (.text _ _) => "#text".toList
    | none => []
  | _ => []

def fnName (x : Item F) (rs : List (Res F)) : Res F :=
  match rs with
  | [] => .one (.str (x.nameOf h))
  | [a] => a.orDefault (.str []) fun y => .one (.str (y.nameOf h))
  | _ => .fail .type

/-- A function of no arguments. -/
def fnConst (r : Res F) (rs : List (Res F)) : Res F :=
  match rs with
  | [] => r
  | _ => .fail .type

/-- `count()`, `uxml/uxpath/functions.py` 84-89. -/
def fnCount (rs : List (Res F)) : Res F :=
  match rs with
  | [a] => if a.tail = .done then .one (.int a.items.length) else ⟨[], a.tail⟩
  | _ => .fail .type

/-- `string()`, `uxml/uxpath/functions.py` 92-112. -/
def fnString (x : Item F) (rs : List (Res F)) : Res F :=
  match rs with
  | [] => .one (x.toStrItem fo h k)
  | [a] => a.orDefault (.str []) fun y => .one (y.toStrItem fo h k)
  | _ => .fail .type

/-- A function of two strings: `starts-with()`, `contains()`, `substring-before()`, `substring-after()`,
`uxml/uxpath/functions.py` 130-167. -/
def fnStr2 (f : Str → Str → Res F) (rs : List (Res F)) : Res F :=
  match rs with
  | [a, b] => strArg fo h k a fun s => strArg fo h k b fun t => f s t
  | _ => .fail .type

/-- `substring()`, `uxml/uxpath/functions.py` 170-178. -/
def fnSubstring (args : List (Expr F)) (rs : List (Res F)) : Res F :=
  match args with
  | [_, e1, e2] => match rs with
    | a :: _ => strArg fo h k a fun s => intArg fo h k e1 fun i => intArg fo h k e2 fun k =>
        .one (.str (pySlice s (i - 1) (i - 1 + k)))
    | [] => .fail .type
  | _ => .fail .type

/-- `string-length()`, `uxml/uxpath/functions.py` 181-190. -/
def fnLength (rs : List (Res F)) : Res F :=
  match rs with
  | [] => .fail .attribute
  | [a] => a.orDefault (.str []) fun y => match y.strOf h with
    | some s => .one (.int s.length)
    | none => .fail .type
  | _ => .fail .type

/-- `boolean()`, `uxml/uxpath/functions.py` 223-238. -/
def fnBoolean (rs : List (Res F)) : Res F :=
  match rs with
  | [a] => a.orDefault (.str []) fun y => .one (.bool (y.toBool fo h))
  | _ => .fail .type

/-- `not()`, `uxml/uxpath/functions.py` 241-246, with `boolean_arg`, 16-22. -/
def fnNot (rs : List (Res F)) : Res F :=
  match rs with
  | [a] => a.orDefault (.bool false) fun y => .one (.bool (!y.toBool fo h))
  | _ => .fail .type

/-- `number()`, `uxml/uxpath/functions.py` 265-278. -/
def fnNumber (rs : List (Res F)) : Res F :=
  match rs with
  | [] => .one (.int 0)
  | [a] => a.orDefault (.str []) fun y => y.toNum fo h k
  | _ => .fail .type

/-- `for-each()`, `uxml/uxpath/functions.py` 281-299; `dyn` evaluates an expression given as a string, or says
which exception its parsing raises. -/
def fnForEach (dyn : Str → Except XErr (Item F → Res F)) (x : Item F) (rs : List (Res F)) : Res F :=
  match rs with
  | [a, b] => strArg fo h k b fun s => match dyn s with
    | .ok g => a.bind fun y => g (y.orElse fo h x)
    | .error e => .fail e
  | _ => .fail .type

/-- A function that takes `k` arguments and raises `NotImplementedError`: `normalize-space`, `translate`,
`same-lang`, `sum`, `floor`, `ceiling`, `round`, `uxml/uxpath/functions.py` 193-220, 318-355. -/
def fnTodo (k : Nat) (rs : List (Res F)) : Res F :=
  if rs.length = k then .fail .notImplemented else .fail .type

/-- A built-in function applied to its arguments, given as expressions and as what they yield,
`function_call.compute`, `uxml/uxpath/xast.py` 711-716, with the table `BUILTIN_FUNCTIONS`. -/
def callFn (dyn : Str → Except XErr (Item F → Res F)) (x : Item F) (name : Str) (args : List (Expr F))
    (rs : List (Res F)) : Res F :=
  if name = "name".toList then fnName h x rs
  else if name = "last".toList then fnConst (.one (.int (-1))) rs
  else if name = "count".toList then fnCount rs
  else if name = "string".toList then fnString fo h k x rs
  else if name = "concat".toList then concatRes fo h k rs
  else if name = "starts-with".toList then fnStr2 fo h k (fun s t => .one (.bool (pyStartsWith s t))) rs
  else if name = "contains".toList then fnStr2 fo h k (fun s t => .one (.bool (pyContains s t))) rs
  else if name = "substring-before".toList then
    fnStr2 fo h k (fun s t => if t = [] then .fail .value else .one (.str (pyPartition t s).1)) rs
  else if name = "substring-after".toList then
    fnStr2 fo h k (fun s t => if t = [] then .fail .value else .one (.str (pyPartition t s).2)) rs
  else if name = "substring".toList then fnSubstring fo h k args rs
  else if name = "string-length".toList then fnLength h rs
  else if name = "boolean".toList then fnBoolean fo h rs
  else if name = "not".toList then fnNot fo h rs
  else if name = "true".toList then fnConst (.one (.bool true)) rs
  else if name = "false".toList then fnConst (.one (.bool false)) rs
  else if name = "number".toList then fnNumber fo h k rs
  else if name = "for-each".toList then fnForEach fo h k dyn x rs
  else if name = "lookup".toList then fnStr2 fo h k (fun _ _ => .fail .name) rs
  else if name = "normalize-space".toList ∨ name = "sum".toList ∨ name = "floor".toList ∨
      name = "ceiling".toList ∨ name = "round".toList then fnTodo 1 rs
  else if name = "translate".toList ∨ name = "same-lang".toList then fnTodo 2 rs
  else .fail .runtime

mutual
  /-- `compute(ctx)` of an expression at the context item `x`; `vars` are the variables, `n` bounds
  `ancestor-or-self`, `dyn` evaluates strings. -/
  def eval (vars : Str → Option (Item F)) (n : Nat) (dyn : Str → Except XErr (Item F → Res F)) :
      Expr F → Item F → Res F
    | .lit y, _ => .one (ofLit y)                                                    -- xast.py 184-186
    | .neg e, x => match (eval vars n dyn e x).first with                      -- 213-215
      | .stop t => ⟨[], t⟩
      | _ => .fail .type
    | .slash l r, x =>                                                         -- 257-262
      (eval vars n dyn l x).bind fun y => eval vars n dyn r (y.orElse fo h x)
    | .dslash l r, x =>                                                        -- 263-271
      (eval vars n dyn l x).bind fun y => match r with
        | .step _ t => stepRes fo h k n .descendantOrSelf t (y.orElse fo h x)
        | r => eval vars n dyn r (y.orElse fo h x)
    | .union l r, x => unionRes h k x (eval vars n dyn l x) (eval vars n dyn r x)
    | .eq l r, x => eqRes fo h k (eval vars n dyn l x) (eval vars n dyn r x)
    | .ne l r, x =>                                                            -- 296-299
      (eval vars n dyn l x).need fun a => (eval vars n dyn r x).need fun b => .one (.bool (!a.pyEq fo h b))
    | .rel op l r, x =>                                                        -- 300-315
      (eval vars n dyn l x).need fun a => (eval vars n dyn r x).need fun b => match a.pyRel fo h op b with
        | some v => .one (.bool v)
        | none => .fail .type
    | .or l r, x =>                                                            -- 316-319
      (eval vars n dyn l x).need fun a => if a.truthy fo h then .one a else (eval vars n dyn r x).need .one
    | .and l r, x =>                                                           -- 320-327
      (eval vars n dyn l x).need fun a => if a.truthy fo h then (eval vars n dyn r x).need .one else .one a
    | .arith _ _ _, _ => .fail .notImplemented                                   -- 328-329
    | .abs none, x => x.getRoot h k                                            -- 361-364
    | .abs (some r), x => (x.getRoot h k).bind fun y =>                        -- 366-371
        .append (if r.isJustNode then .one y else .nil) (eval vars n dyn r y)
    | .absAll r, x => (x.getRoot h k).bind fun y =>                            -- 373-383
        .append (if r.isJustNode then .one y else .nil) (.append (eval vars n dyn r y)
          (match y.kids h with
            | none => .fail .attribute
            | some cs => Res.bindList (fun z => eval vars n dyn r (z.orElse fo h x)) (tailOf (walk h k cs).2) ((walk h k cs).1.map .obj)))
    | .step a t, x => stepRes fo h k n a t x
    | .test t, x => ⟨compute h t x, .done⟩
    | .pred lhs ps, x =>                                                       -- 536-556
      predLoop (fun pos y => evalPreds vars n dyn pos ps (y.orElse fo h x)) (eval vars n dyn lhs x).tail 1
        (eval vars n dyn lhs x).items
    | .dot, x => .one x                                                        -- 639-640
    | .dotdot, x => match x.up h with                                          -- 641-647
      | none => .fail .attribute
      | some none => x.getRoot h k
      | some (some y) => .one (.obj y)
    | .var v, _ => match vars v with                                           -- 676-677
      | some y => .one y
      | none => .fail .key
    | .call f args, x => callFn fo h k dyn x f args (evalArgs vars n dyn args x)
    | .seq es, x => evalSeq vars n dyn es x                                    -- 748-753
  /-- All predicates in turn, 541-553. -/
  def evalPreds (vars : Str → Option (Item F)) (n : Nat) (dyn : Str → Except XErr (Item F → Res F)) (pos : Nat) :
      List (Expr F) → Item F → Bool ⊕ Tail
    | [], _ => .inl true
    | p :: r, x => match predHolds fo h pos (eval vars n dyn p x) with
      | .inl true => evalPreds vars n dyn pos r x
      | v => v
  def evalArgs (vars : Str → Option (Item F)) (n : Nat) (dyn : Str → Except XErr (Item F → Res F)) :
      List (Expr F) → Item F → List (Res F)
    | [], _ => []
    | e :: r, x => eval vars n dyn e x :: evalArgs vars n dyn r x
  def evalSeq (vars : Str → Option (Item F)) (n : Nat) (dyn : Str → Except XErr (Item F → Res F)) :
      List (Expr F) → Item F → Res F
    | [], _ => .nil
    | e :: r, x => .append (eval vars n dyn e x) (evalSeq vars n dyn r x)
end

/-- Evaluation where `for-each` parses its expression with `parse` and evaluates it in the same way; `n` also
bounds how deep such evaluations nest. -/
def evalN (parse : Str → Except XErr (Expr F)) (vars : Str → Option (Item F)) : Nat → Expr F → Item F → Res F
  | 0 => eval fo h k vars 0 fun s => (parse s).map fun _ _ => ⟨[], .out⟩
  | n + 1 => eval fo h k vars (n + 1) fun s => (parse s).map fun e => evalN parse vars n e

end

/-- The context item: `if force_root and isinstance(item, nodetype): self.item = root_node.get(item)` where
`force_root = not node.xml_parent`, `uxml/uxpath/__init__.py` 80-81, 120-121, `uxml/tree.py` 56, for an element. -/
def contextItem {F : Type} (h : Heap) (e : Id) : Item F :=
  match h.xmlParent e with
  | none => .root e
  | some _ => .obj e

/-- `e.xml_xpath(xpath, vars)`, `uxml/tree.py` 37-65, for an element object. -/
def xmlXPath {F : Type} (fo : FloatOps F) (h : Heap) (k : Nat) (vars : Str → Option (Item F)) (n : Nat) (e : Id) (xp : XPathThing F) : Res F :=
  match xp with
  | .str s => match parseText fo s with
    | .ok g => evalN fo h k (parseText fo) vars n g (contextItem h e)
    | .error er => .fail er
  | .parsed g => evalN fo h k (parseText fo) vars n g (contextItem h e)

end Mem
end Amara
