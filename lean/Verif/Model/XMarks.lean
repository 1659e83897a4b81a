import Verif.Model.XPath
import Verif.Model.DocOrder
/-
The evaluator of MicroXPath with its memory: the order numbers `_docorder` that a union gives to the nodes of the document
(`pylib/uxml/uxpath/xast.py` 81-89, 272-280) stay there when the query is over, and the next union uses them if it finds
one at its context item.  Several queries may be under way: a query is a generator that runs only when it is asked for its
next item, and between two such requests other queries may number the nodes.

What is modelled: `compute` of every class of expression and every built-in function (as in `Model/XPath`), on one document
that does not change meanwhile, as generators that are run step by step and share the order numbers.

Simplifications: as in `Model/XPath` (nodes are positions; one root node object; attribute nodes have no number, a new
object being made each time), except that nothing is assumed about the order numbers.  What a single step, node test or
conversion does is one piece: it reads no order numbers and gives none (`stepRes` and so on are those of `Model/XPath`).
-/
namespace Amara

/-- The `_docorder` attributes there are: of the root node, and of the elements, by position. -/
structure Marks where
  root : Option Nat
  elem : Path → Option Nat

/-- No node has a number: so after parsing. -/
def Marks.fresh : Marks := ⟨none, fun _ => none⟩

section
variable {F : Type}

/-- `x._docorder`, none if there is no such attribute. -/
def Marks.of (m : Marks) : Item F → Option Nat
  | .root => m.root
  | .node p => m.elem p
  | _ => none

/-- `node._docorder = k`. -/
def Marks.put (m : Marks) (p : Path) (k : Nat) : Marks := ⟨m.root, fun q => if q = p then some k else m.elem q⟩

/-- `for node in ...: index += 1; node._docorder = index`, `uxml/uxpath/xast.py` 87-89, with `index` so far. -/
def Marks.putAll (m : Marks) (k : Nat) : List Path → Marks
  | [] => m
  | p :: r => (m.put p (k + 1)).putAll (k + 1) r

/-- `index_docorder(x)`, `uxml/uxpath/xast.py` 81-89: from the root node, whose one child is the document element (44), or
from the document element, the last of the parents of any other node. -/
def indexMarks (doc : Node) (m : Marks) : Item F → Marks
  | .root => Marks.putAll ⟨some 0, m.elem⟩ 0 ([] :: (doc.descendants []).map (·.1))
  | _ => (m.put [] 0).putAll 0 ((doc.descendants []).map (·.1))

/-- `selected.sort(key=operator.attrgetter('_docorder'))`, `uxml/uxpath/xast.py` 279: stable; none is AttributeError. -/
def sortMarked (m : Marks) (xs : List (Item F)) : Option (List (Item F)) :=
  (xs.mapM fun x => (m.of x).map fun k => (k, x)).map fun ks =>
    (ks.foldl (fun acc kx => insertNum kx.1 kx.2 acc) []).map Prod.snd

end

/-- A generator that was not run yet: it ends (by itself or with an exception), or yields an item and goes on when asked
again, or does something to the order numbers and goes on according to what they are then. -/
inductive QGen (F : Type) where
  | stop (t : Tail)
  | yield (x : Item F) (rest : QGen F)
  | act (upd : Marks → Marks) (next : Marks → QGen F)

namespace QGen
variable {F : Type}

/-- A generator that leaves the order numbers alone. -/
def ofList (t : Tail) : List (Item F) → QGen F
  | [] => .stop t
  | x :: r => .yield x (ofList t r)

/-- The same, for what the parts in `Model/XPath` yield. -/
def ofRes (r : Res F) : QGen F := ofList r.tail r.items

def one (x : Item F) : QGen F := .yield x (.stop .done)
def fail (e : XErr) : QGen F := .stop (.err e)

/-- `yield from a; yield from b`. -/
def append : QGen F → QGen F → QGen F
  | .stop .done, b => b
  | .stop t, _ => .stop t
  | .yield x a, b => .yield x (a.append b)
  | .act u k, b => .act u fun m => (k m).append b

/-- `for x in a: yield from f(x)`. -/
def bind (f : Item F → QGen F) : QGen F → QGen F
  | .stop t => .stop t
  | .yield x a => (f x).append (a.bind f)
  | .act u k => .act u fun m => (k m).bind f

/-- `next(a, default)`, and then what follows; the rest of `a` is never run. -/
def first (k : Res.First F → QGen F) : QGen F → QGen F
  | .stop .done => k .empty
  | .stop t => k (.stop t)
  | .yield x _ => k (.got x)
  | .act u g => .act u fun m => (g m).first k

/-- An item that `next` must give; StopIteration inside a generator becomes RuntimeError. -/
def need (a : QGen F) (f : Item F → QGen F) : QGen F :=
  a.first fun
    | .got x => f x
    | .empty => .fail .runtime
    | .stop t => .stop t

/-- An item that `next(a, d)` gives. -/
def orDefault (a : QGen F) (d : Item F) (f : Item F → QGen F) : QGen F :=
  a.first fun
    | .got x => f x
    | .empty => f d
    | .stop t => .stop t

/-- `list(a)`, and then what follows. -/
def toList (k : List (Item F) → QGen F) : QGen F → QGen F
  | .stop .done => k []
  | .stop t => .stop t
  | .yield x a => a.toList fun xs => k (x :: xs)
  | .act u g => .act u fun m => (g m).toList k

/-- `for i in a: pass`, and then `yield False`. -/
def drain : QGen F → QGen F
  | .stop .done => .one (.bool false)
  | .stop t => .stop t
  | .yield _ a => a.drain
  | .act u k => .act u fun m => (k m).drain

end QGen

section
variable {F : Type} (fo : FloatOps F) (doc : Node)

/-- The inner loop of `=`, `uxml/uxpath/xast.py` 289-294, over the right generator, for a left item already replaced by its
value; `rest` is what happens when the right generator is used up. -/
def eqWithG (i : Item F) (rest : QGen F) : QGen F → QGen F
  | .stop .done => rest
  | .stop t => .stop t
  | .yield j r =>
    if j.isNode then .fail .attribute
    else if i.pyEq fo doc j then .one (.bool true) else eqWithG i rest r
  | .act u k => .act u fun m => eqWithG i rest (k m)

/-- `left = right`, `uxml/uxpath/xast.py` 283-295.  The right generator is used up by the first left item, so that the
inner loop does nothing for the others. -/
def eqG (r : QGen F) : QGen F → QGen F
  | .stop .done => .one (.bool false)
  | .stop t => .stop t
  | .yield i l => eqWithG fo doc (i.atom doc) l.drain r
  | .act u k => .act u fun m => eqG r (k m)

/-- `left | right` at the context item `x`, `uxml/uxpath/xast.py` 272-280. -/
def unionG (x : Item F) (l r : QGen F) : QGen F :=
  if x.isNode then
    .act (fun m => if (m.of x).isSome then m else indexMarks doc m x) fun _ =>
      l.toList fun xs => r.toList fun ys => .act id fun m =>
        match sortMarked m (xs ++ ys) with
        | some zs => .ofList .done zs
        | none => .fail .attribute
  else .fail .attribute

/-- What the first item of a predicate means, `uxml/uxpath/xast.py` 541-553. -/
def predFirst (pos : Nat) : Res.First F → Bool ⊕ Tail
  | .stop t => .inr t
  | .empty => .inl false
  | .got v => match v with
    | .int i => .inl ((pos : Int) == i)
    | .float f => match fo.trunc f with
      | some i => .inl ((pos : Int) == i)
      | none => .inr (.err .value)
    | v => .inl (v.toBool fo doc)

/-- The loop over the items of a predicated expression, `uxml/uxpath/xast.py` 538-556. -/
def predLoopG (f : Nat → Item F → (Bool → QGen F) → QGen F) : QGen F → Nat → QGen F
  | .stop t, _ => .stop t
  | .yield x a, pos => f pos x fun b => if b then .yield x (predLoopG f a (pos + 1)) else predLoopG f a (pos + 1)
  | .act u k, pos => .act u fun m => predLoopG f (k m) pos

/-- `string_arg(ctx, obj)`, `uxml/uxpath/functions.py` 34-40. -/
def strArgG (a : QGen F) (f : Str → QGen F) : QGen F := a.orDefault (.bool false) fun x => f (x.toStr fo doc)

/-- `concat()`, `uxml/uxpath/functions.py` 115-127. -/
def concatG (gs : List (QGen F)) : QGen F :=
  (gs.foldr QGen.append (.stop .done)).toList fun xs => .one (.str (xs.flatMap fun x => x.toStr fo doc))

/-- `name()`, `uxml/uxpath/functions.py` 55-73. -/
def fnNameG (x : Item F) (gs : List (QGen F)) : QGen F :=
  match gs with
  | [] => .one (.str (x.nameOf doc))
  | [a] => a.orDefault (.str []) fun y => .one (.str (y.nameOf doc))
  | _ => .fail .type

/-- A function of no arguments. -/
def fnConstG (x : Item F) (gs : List (QGen F)) : QGen F :=
  match gs with
  | [] => .one x
  | _ => .fail .type

/-- `count()`, `uxml/uxpath/functions.py` 84-89. -/
def fnCountG (gs : List (QGen F)) : QGen F :=
  match gs with
  | [a] => a.toList fun xs => .one (.int xs.length)
  | _ => .fail .type

/-- `string()`, `uxml/uxpath/functions.py` 92-112. -/
def fnStringG (x : Item F) (gs : List (QGen F)) : QGen F :=
  match gs with
  | [] => .one (x.toStrItem fo doc)
  | [a] => a.orDefault (.str []) fun y => .one (y.toStrItem fo doc)
  | _ => .fail .type

/-- A function of two strings, `uxml/uxpath/functions.py` 130-167. -/
def fnStr2G (f : Str → Str → Res F) (gs : List (QGen F)) : QGen F :=
  match gs with
  | [a, b] => strArgG fo doc a fun s => strArgG fo doc b fun t => .ofRes (f s t)
  | _ => .fail .type

/-- `substring()`, `uxml/uxpath/functions.py` 170-178. -/
def fnSubstringG (args : List (Expr F)) (gs : List (QGen F)) : QGen F :=
  match args with
  | [_, e1, e2] => match gs with
    | a :: _ => strArgG fo doc a fun s => .ofRes (intArg fo doc e1 fun i => intArg fo doc e2 fun k =>
        .one (.str (pySlice s (i - 1) (i - 1 + k))))
    | [] => .fail .type
  | _ => .fail .type

/-- `string-length()`, `uxml/uxpath/functions.py` 181-190. -/
def fnLengthG (gs : List (QGen F)) : QGen F :=
  match gs with
  | [] => .fail .attribute
  | [a] => a.orDefault (.str []) fun y => match y.strOf doc with
    | some s => .one (.int s.length)
    | none => .fail .type
  | _ => .fail .type

/-- `boolean()`, `uxml/uxpath/functions.py` 223-238. -/
def fnBooleanG (gs : List (QGen F)) : QGen F :=
  match gs with
  | [a] => a.orDefault (.str []) fun y => .one (.bool (y.toBool fo doc))
  | _ => .fail .type

/-- `not()`, `uxml/uxpath/functions.py` 241-246. -/
def fnNotG (gs : List (QGen F)) : QGen F :=
  match gs with
  | [a] => a.orDefault (.bool false) fun y => .one (.bool (!y.toBool fo doc))
  | _ => .fail .type

/-- `number()`, `uxml/uxpath/functions.py` 265-278. -/
def fnNumberG (gs : List (QGen F)) : QGen F :=
  match gs with
  | [] => .one (.int 0)
  | [a] => a.orDefault (.str []) fun y => .ofRes (y.toNum fo doc)
  | _ => .fail .type

/-- `for-each()`, `uxml/uxpath/functions.py` 281-299. -/
def fnForEachG (dyn : Str → Except XErr (Item F → QGen F)) (x : Item F) (gs : List (QGen F)) : QGen F :=
  match gs with
  | [a, b] => strArgG fo doc b fun s => match dyn s with
    | .ok g => a.bind fun y => g (y.orElse fo doc x)
    | .error e => .fail e
  | _ => .fail .type

/-- A function that takes `k` arguments and raises `NotImplementedError`, `uxml/uxpath/functions.py` 193-220, 318-355. -/
def fnTodoG (k : Nat) (gs : List (QGen F)) : QGen F := if gs.length = k then .fail .notImplemented else .fail .type

/-- A built-in function applied to its arguments, `function_call.compute`, `uxml/uxpath/xast.py` 711-716. -/
def callFnG (dyn : Str → Except XErr (Item F → QGen F)) (x : Item F) (name : Str) (args : List (Expr F))
    (gs : List (QGen F)) : QGen F :=
  if name = "name".toList then fnNameG doc x gs
  else if name = "last".toList then fnConstG (.int (-1)) gs
  else if name = "count".toList then fnCountG gs
  else if name = "string".toList then fnStringG fo doc x gs
  else if name = "concat".toList then concatG fo doc gs
  else if name = "starts-with".toList then fnStr2G fo doc (fun s t => .one (.bool (pyStartsWith s t))) gs
  else if name = "contains".toList then fnStr2G fo doc (fun s t => .one (.bool (pyContains s t))) gs
  else if name = "substring-before".toList then
    fnStr2G fo doc (fun s t => if t = [] then .fail .value else .one (.str (pyPartition t s).1)) gs
  else if name = "substring-after".toList then
    fnStr2G fo doc (fun s t => if t = [] then .fail .value else .one (.str (pyPartition t s).2)) gs
  else if name = "substring".toList then fnSubstringG fo doc args gs
  else if name = "string-length".toList then fnLengthG doc gs
  else if name = "boolean".toList then fnBooleanG fo doc gs
  else if name = "not".toList then fnNotG fo doc gs
  else if name = "true".toList then fnConstG (.bool true) gs
  else if name = "false".toList then fnConstG (.bool false) gs
  else if name = "number".toList then fnNumberG fo doc gs
  else if name = "for-each".toList then fnForEachG fo doc dyn x gs
  else if name = "lookup".toList then fnStr2G fo doc (fun _ _ => .fail .name) gs
  else if name = "normalize-space".toList ∨ name = "sum".toList ∨ name = "floor".toList ∨
      name = "ceiling".toList ∨ name = "round".toList then fnTodoG 1 gs
  else if name = "translate".toList ∨ name = "same-lang".toList then fnTodoG 2 gs
  else .fail .runtime

mutual
  /-- `compute(ctx)` of an expression at the context item `x`, as a generator; lines of `uxml/uxpath/xast.py` as in
  `eval`. -/
  def evalG (vars : Str → Option (Item F)) (n : Nat) (dyn : Str → Except XErr (Item F → QGen F)) :
      Expr F → Item F → QGen F
    | .lit y, _ => .one y                                                     -- 184-186
    | .neg e, x => (evalG vars n dyn e x).first fun                            -- 213-215
      | .stop t => .stop t
      | _ => .fail .type
    | .slash l r, x =>                                                         -- 257-262
      (evalG vars n dyn l x).bind fun y => evalG vars n dyn r (y.orElse fo doc x)
    | .dslash l r, x =>                                                        -- 263-271
      (evalG vars n dyn l x).bind fun y => match r with
        | .step _ t => .ofRes (stepRes fo doc n .descendantOrSelf t (y.orElse fo doc x))
        | r => evalG vars n dyn r (y.orElse fo doc x)
    | .union l r, x => unionG doc x (evalG vars n dyn l x) (evalG vars n dyn r x)
    | .eq l r, x => eqG fo doc (evalG vars n dyn r x) (evalG vars n dyn l x)
    | .ne l r, x =>                                                            -- 296-299
      (evalG vars n dyn l x).need fun a => (evalG vars n dyn r x).need fun b => .one (.bool (!a.pyEq fo doc b))
    | .rel op l r, x =>                                                        -- 300-315
      (evalG vars n dyn l x).need fun a => (evalG vars n dyn r x).need fun b => match a.pyRel fo doc op b with
        | some v => .one (.bool v)
        | none => .fail .type
    | .or l r, x =>                                                            -- 316-319
      (evalG vars n dyn l x).need fun a => if a.truthy fo doc then .one a else (evalG vars n dyn r x).need .one
    | .and l r, x =>                                                           -- 320-327
      (evalG vars n dyn l x).need fun a => if a.truthy fo doc then (evalG vars n dyn r x).need .one else .one a
    | .arith _ _ _, _ => .fail .notImplemented                                   -- 328-329
    | .abs none, x => .ofRes (x.getRoot doc)                                   -- 361-364
    | .abs (some r), x => (QGen.ofRes (x.getRoot doc)).bind fun y =>           -- 366-371
        .append (if r.isJustNode then .one y else .stop .done) (evalG vars n dyn r y)
    | .absAll r, x => (QGen.ofRes (x.getRoot doc)).bind fun y =>               -- 373-383
        .append (if r.isJustNode then .one y else .stop .done) (.append (evalG vars n dyn r y)
          (match Item.below doc y with
            | none => .fail .attribute
            | some ys => (QGen.ofList .done ys).bind fun z => evalG vars n dyn r (z.orElse fo doc x)))
    | .step a t, x => .ofRes (stepRes fo doc n a t x)
    | .test t, x => .ofList .done (t.compute doc x)
    | .pred lhs ps, x =>                                                       -- 536-556
      predLoopG (fun pos y k => evalPredsG vars n dyn pos ps (y.orElse fo doc x) k) (evalG vars n dyn lhs x) 1
    | .dot, x => .one x                                                        -- 639-640
    | .dotdot, x => match x.parent with                                        -- 641-647
      | none => .fail .attribute
      | some none => .ofRes (x.getRoot doc)
      | some (some y) => .one y
    | .var v, _ => match vars v with                                           -- 676-677
      | some y => .one y
      | none => .fail .key
    | .call f args, x => callFnG fo doc dyn x f args (evalArgsG vars n dyn args x)
    | .seq es, x => evalSeqG vars n dyn es x                                   -- 748-753
  /-- All predicates in turn, 541-553, and what follows when it is known whether they hold. -/
  def evalPredsG (vars : Str → Option (Item F)) (n : Nat) (dyn : Str → Except XErr (Item F → QGen F)) (pos : Nat) :
      List (Expr F) → Item F → (Bool → QGen F) → QGen F
    | [], _, k => k true
    | p :: r, x, k => (evalG vars n dyn p x).first fun v => match predFirst fo doc pos v with
      | .inl true => evalPredsG vars n dyn pos r x k
      | .inl false => k false
      | .inr t => .stop t
  def evalArgsG (vars : Str → Option (Item F)) (n : Nat) (dyn : Str → Except XErr (Item F → QGen F)) :
      List (Expr F) → Item F → List (QGen F)
    | [], _ => []
    | e :: r, x => evalG vars n dyn e x :: evalArgsG vars n dyn r x
  def evalSeqG (vars : Str → Option (Item F)) (n : Nat) (dyn : Str → Except XErr (Item F → QGen F)) :
      List (Expr F) → Item F → QGen F
    | [], _ => .stop .done
    | e :: r, x => .append (evalG vars n dyn e x) (evalSeqG vars n dyn r x)
end

/-- Evaluation where `for-each` parses its expression, as `evalN`. -/
def evalNG (parse : Str → Except XErr (Expr F)) (vars : Str → Option (Item F)) : Nat → Expr F → Item F → QGen F
  | 0 => evalG fo doc vars 0 fun s => (parse s).map fun _ _ => .stop .out
  | n + 1 => evalG fo doc vars (n + 1) fun s => (parse s).map fun e => evalNG parse vars n e

/-- `next(g)` on a generator: the item, or how it ends (StopIteration or an exception); what is left of it, and the order
numbers afterwards.  A generator that has ended stays so. -/
def QGen.resume : QGen F → Marks → (Item F ⊕ Tail) × QGen F × Marks
  | .stop t, m => (.inr t, .stop .done, m)
  | .yield x g, m => (.inl x, g, m)
  | .act u k, m => (k (u m)).resume (u m)

/-- What a program does with queries: it asks a new one (nothing is run yet, `uxml/tree.py` 37, 64), or asks the `i`-th one
for its next item. -/
inductive QOp (F : Type) where
  | ask (e : Expr F) (x : Item F)
  | next (i : Nat)

/-- What a program sees that asks queries on one document and takes their items in any order: `gs` are the queries so far,
`m` the order numbers. -/
def session (parse : Str → Except XErr (Expr F)) (vars : Str → Option (Item F)) (n : Nat) :
    List (QOp F) → List (QGen F) → Marks → List (Item F ⊕ Tail)
  | [], _, _ => []
  | .ask e x :: r, gs, m => session parse vars n r (gs ++ [evalNG fo doc parse vars n e x]) m
  | .next i :: r, gs, m =>
    match gs[i]? with
    | none => session parse vars n r gs m
    | some g => (g.resume m).1 :: session parse vars n r (gs.set i (g.resume m).2.1) (g.resume m).2.2

end

end Amara
