import Verif.Model.XPath
import Verif.Model.Frames
/-
The evaluator of MicroXPath, `pylib/uxml/uxpath/xast.py` and `pylib/uxml/uxpath/functions.py`, with Python's limit on nested
calls.  The definitions follow those of `Model/XPath`, to which the citations there belong; `k` is the number of nested
calls that are still allowed, the own call of a generator included.  The end `.err .recursion` is RecursionError, which no
code in these files catches.

A generator is entered again for each item, with the same calls around it, so that it needs the same room each time.
How many calls the functions used need depends on the version of Python and is a parameter, `QNeeds`.

Simplifications: those of `Model/XPath`; a step needs its room even if there is no node on the axis, and a call of a function
even if the function does not exist; a union numbers the tree each time, in the code only if the context item has no number
yet (`Model/DocOrderFrames` models that).
-/
namespace Amara

/-- How many nested calls the functions used need: `ctx.copy` (`uxml/uxpath/__init__.py` 91-99); `root_node.get` and the
property `xml_parent` (`uxml/uxpath/xast.py` 52-62, `uxml/tree.py` 25-29); all that a step calls (`uxml/uxpath/xast.py`
414-499); the calls around the evaluation of the argument with this number of a function, and around `strval` of it (the
function itself, `string_arg`, `to_string`, the generators of `concat`; `uxml/uxpath/functions.py`); `parse` of an
expression (`uxml/uxpath/__init__.py` 63-71). -/
structure QNeeds extends Needs where
  copy : Nat
  root : Nat
  step : Axis → Test → Nat
  arg : Str → Nat → Nat
  conv : Str → Nat
  parse : Nat

variable {F : Type} (fo : FloatOps F) (doc : Node)

/-- RecursionError. -/
def Res.tooDeep : Res F := .fail .recursion

/-- A generator that is run with `k` calls, its own included. -/
def callK : Nat → (Nat → Res F) → Res F
  | 0, _ => .tooDeep
  | k + 1, body => body k

/-- Whether `strval(x)` of a node, `uxml/tree.py` 190-203, gets by with `k` calls. -/
def Item.strvalFits (c : Needs) (k : Nat) : Item F → Bool
  | .node p => match doc.at? p with
    | some z => (z.strvalK c k).isSome
    | none => true
  | .root | .attr _ _ _ => 0 < k
  | _ => true

/-- Whether `to_string(x)` (or `to_number(x)`) gets by in a function, `uxml/uxpath/xast.py` 93-137. -/
def Item.convFits (c : QNeeds) (k : Nat) (f : Str) (x : Item F) : Bool :=
  c.conv f ≤ k && ((x.strOf doc).isSome || x.strvalFits doc c.toNeeds (k - c.conv f))

/-- Whether `x.xml_value` gets by, `uxml/tree.py` 109-114. -/
def Item.valueFits (k : Nat) : Item F → Bool
  | .node p => match doc.at? p with
    | some z => (z.xmlValueK k).isSome
    | none => true
  | _ => true

/-- The conversion of the first item, `uxml/uxpath/functions.py` 34-40. -/
def Res.convFirst (c : QNeeds) (k : Nat) (f : Str) (a : Res F) : Res F :=
  match a.items with
  | [] => if a.tail = .done ∧ k < c.conv f then .tooDeep else a
  | x :: _ => if x.convFits doc c k f then a else .tooDeep

/-- The conversion of all items in turn, as in `concat`, `uxml/uxpath/functions.py` 119-127: up to the first one that does
not get by. -/
def convItems (c : QNeeds) (k : Nat) (f : Str) (t : Tail) : List (Item F) → Res F
  | [] => ⟨[], t⟩
  | x :: r => if x.convFits doc c k f then ⟨x :: (convItems c k f t r).items, (convItems c k f t r).tail⟩ else .tooDeep

def Res.convAll (c : QNeeds) (k : Nat) (f : Str) (a : Res F) : Res F := convItems doc c k f a.tail a.items

/-- The functions that convert the first item of each argument to a string or a number. -/
def convFns : List Str :=
  ["string".toList, "starts-with".toList, "contains".toList, "substring-before".toList, "substring-after".toList,
    "substring".toList, "number".toList, "lookup".toList]

/-- What the arguments give to the function once they are converted. -/
def convArgs (c : QNeeds) (k : Nat) (f : Str) (rs : List (Res F)) : List (Res F) :=
  if f = "concat".toList then rs.map (Res.convAll doc c k f)
  else if f = "for-each".toList then
    match rs with
    | [a, b] => [a, b.convFirst doc c k f]
    | rs => rs
  else if f ∈ convFns then rs.map (Res.convFirst doc c k f)
  else rs

/-- `function_call.compute`, `uxml/uxpath/xast.py` 711-716, with `k` calls left in it. -/
def callFnK (c : QNeeds) (k : Nat) (dyn : Str → Except XErr (Nat → Item F → Res F)) (x : Item F) (f : Str) (args : List (Expr F))
    (rs : List (Res F)) : Res F :=
  if k = 0 then .tooDeep
  else if f = "string".toList ∧ rs = [] ∧ x.convFits doc c k f = false then .tooDeep       -- functions.py 106-112
  else callFn fo doc
    (fun s => if k - 1 < c.parse then .error .recursion                                     -- 295
      else (dyn s).map fun g y => if k - 1 < c.copy then .tooDeep else g (k - 1) y)         -- 297-298
    x f args (convArgs doc c k f rs)

/-- `left = right`, `uxml/uxpath/xast.py` 283-295: the value of the first item on the left is asked for if there is one on the
right. -/
def eqResK (k : Nat) (l r : Res F) : Res F :=
  match l.items, r.items with
  | i :: _, _ :: _ => if i.valueFits doc k then eqRes fo doc l r else .tooDeep
  | _, _ => eqRes fo doc l r

/-- Whether `index_docorder`, `uxml/uxpath/xast.py` 81-89, gets by: it goes through `descendants` of the document element, or
of the root node, `uxml/treeutil.py` 13-20. -/
def numberFits (k : Nat) (x : Item F) : Bool :=
  match k with
  | 0 => false
  | k + 1 => !((if x.isRoot then Node.elem [] [] [doc] else doc).descendantsK [] k).2

/-- `left | right`, `uxml/uxpath/xast.py` 272-280. -/
def unionResK (k : Nat) (x : Item F) (l r : Res F) : Res F :=
  if x.isNode && !numberFits doc k x then .tooDeep else unionRes doc x l r

/-- `step.compute`, `uxml/uxpath/xast.py` 414-499, with `k` calls, its own included. -/
def stepResK (c : QNeeds) (n : Nat) (k : Nat) (a : Axis) (t : Test) (x : Item F) : Res F :=
  callK k fun k => if k < c.step a t then .tooDeep else stepRes fo doc n a t x

mutual
  /-- `compute(ctx)` of an expression at the context item `x`, with `k` calls, its own included: `eval` of `Model/XPath`, line
  by line. -/
  def evalK (c : QNeeds) (vars : Str → Option (Item F)) (n : Nat) (dyn : Str → Except XErr (Nat → Item F → Res F)) :
      Expr F → Nat → Item F → Res F
    | .lit y, k, _ => callK k fun _ => .one y
    | .neg e, k, x => callK k fun k => match (evalK c vars n dyn e k x).first with
      | .stop t => ⟨[], t⟩
      | _ => .fail .type
    | .slash l r, k, x => callK k fun k =>
      (evalK c vars n dyn l k x).bind fun y => if k < c.copy then .tooDeep else evalK c vars n dyn r k (y.orElse fo doc x)
    | .dslash l r, k, x => callK k fun k =>
      (evalK c vars n dyn l k x).bind fun y => if k < c.copy then .tooDeep else match r with
        | .step _ t => stepResK fo doc c n k .descendantOrSelf t (y.orElse fo doc x)
        | r => evalK c vars n dyn r k (y.orElse fo doc x)
    | .union l r, k, x => callK k fun k => unionResK doc k x (evalK c vars n dyn l k x) (evalK c vars n dyn r k x)
    | .eq l r, k, x => callK k fun k => eqResK fo doc k (evalK c vars n dyn l k x) (evalK c vars n dyn r k x)
    | .ne l r, k, x => callK k fun k =>
      (evalK c vars n dyn l k x).need fun a => (evalK c vars n dyn r k x).need fun b => .one (.bool (!a.pyEq fo doc b))
    | .rel op l r, k, x => callK k fun k =>
      (evalK c vars n dyn l k x).need fun a => (evalK c vars n dyn r k x).need fun b => match a.pyRel fo doc op b with
        | some v => .one (.bool v)
        | none => .fail .type
    | .or l r, k, x => callK k fun k =>
      (evalK c vars n dyn l k x).need fun a => if a.truthy fo doc then .one a else (evalK c vars n dyn r k x).need .one
    | .and l r, k, x => callK k fun k =>
      (evalK c vars n dyn l k x).need fun a => if a.truthy fo doc then (evalK c vars n dyn r k x).need .one else .one a
    | .arith _ _ _, k, _ => callK k fun _ => .fail .notImplemented
    | .abs none, k, x => callK k fun k => if k < c.root then .tooDeep else x.getRoot doc
    | .abs (some r), k, x => callK k fun k => if k < c.root then .tooDeep else (x.getRoot doc).bind fun y =>
        .append (if r.isJustNode then .one y else .nil) (if k < c.copy then .tooDeep else evalK c vars n dyn r k y)
    | .absAll r, k, x => callK k fun k => if k < c.root then .tooDeep else (x.getRoot doc).bind fun y =>
        .append (if r.isJustNode then .one y else .nil) (if k < c.copy then .tooDeep else .append (evalK c vars n dyn r k y)
          (match Item.below doc y with
            | none => .fail .attribute
            | some ys => Res.bindList (fun z => evalK c vars n dyn r k (z.orElse fo doc x)) .done ys))
    | .step a t, k, x => stepResK fo doc c n k a t x
    | .test t, k, x => callK k fun _ => ⟨t.compute doc x, .done⟩
    | .pred lhs ps, k, x => callK k fun k =>
      predLoop (fun pos y => if k < c.copy then .inr (.err .recursion) else evalPredsK c vars n dyn pos ps k (y.orElse fo doc x))
        (evalK c vars n dyn lhs k x).tail 1 (evalK c vars n dyn lhs k x).items
    | .dot, k, x => callK k fun _ => .one x
    | .dotdot, k, x => callK k fun k => if k < c.root then .tooDeep else match x.parent with
      | none => .fail .attribute
      | some none => x.getRoot doc
      | some (some y) => .one y
    | .var v, k, _ => callK k fun _ => match vars v with
      | some y => .one y
      | none => .fail .key
    | .call f args, k, x => callK k fun k => callFnK fo doc c k dyn x f args (evalArgsK c vars n dyn f 0 args k x)
    | .seq es, k, x => callK k fun k => evalSeqK c vars n dyn es k x
  /-- All predicates in turn, `uxml/uxpath/xast.py` 541-553. -/
  def evalPredsK (c : QNeeds) (vars : Str → Option (Item F)) (n : Nat) (dyn : Str → Except XErr (Nat → Item F → Res F)) (pos : Nat) :
      List (Expr F) → Nat → Item F → Bool ⊕ Tail
    | [], _, _ => .inl true
    | p :: r, k, x => match predHolds fo doc pos (evalK c vars n dyn p k x) with
      | .inl true => evalPredsK c vars n dyn pos r k x
      | v => v
  /-- The arguments of the function `f` from the one with number `i` on. -/
  def evalArgsK (c : QNeeds) (vars : Str → Option (Item F)) (n : Nat) (dyn : Str → Except XErr (Nat → Item F → Res F)) (f : Str) (i : Nat) :
      List (Expr F) → Nat → Item F → List (Res F)
    | [], _, _ => []
    | e :: r, k, x => evalK c vars n dyn e (k - c.arg f i) x :: evalArgsK c vars n dyn f (i + 1) r k x
  /-- `Sequence.compute`, `uxml/uxpath/xast.py` 748-753. -/
  def evalSeqK (c : QNeeds) (vars : Str → Option (Item F)) (n : Nat) (dyn : Str → Except XErr (Nat → Item F → Res F)) :
      List (Expr F) → Nat → Item F → Res F
    | [], _, _ => .nil
    | e :: r, k, x => .append (evalK c vars n dyn e k x) (evalSeqK c vars n dyn r k x)
end

/-- As `evalN` of `Model/XPath`. -/
def evalNK (c : QNeeds) (parse : Str → Except XErr (Expr F)) (vars : Str → Option (Item F)) : Nat → Expr F → Nat → Item F → Res F
  | 0 => evalK fo doc c vars 0 fun s => (parse s).map fun _ _ _ => ⟨[], .out⟩
  | n + 1 => evalK fo doc c vars (n + 1) fun s => (parse s).map fun e k x => evalNK c parse vars n e k x

end Amara
