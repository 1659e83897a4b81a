import Verif.Model.XPath
/-
Evaluation with functions given by the caller: the argument `funcs` of `xml_xpath` and `qquery`.

A function gets the context and the argument expressions, not evaluated (`uxml/uxpath/xast.py` 716), and yields items.  Simplifications:
functions are pure (what they yield depends on what they are given only), they look at no more of the context than the item, and may
evaluate their arguments, and texts, in the context they are given with any item put in (`ctx.copy(item=...)`).
-/
namespace Amara

variable {F : Type}

/-- An argument as a function gets it: the expression, and its `compute` in the current context with some item put in. -/
structure Arg (F : Type) where
  expr : Expr F
  compute : Item F → Res F

/-- A function, applied to the way texts are evaluated in the current context, the context item and the arguments:
`func(ctx, *self.args)`, `uxml/uxpath/xast.py` 715-716. -/
abbrev Fn (F : Type) := (Str → Except XErr (Item F → Res F)) → Item F → List (Arg F) → Res F

/-- `ctx.functions`. -/
abbrev FnTable (F : Type) := Str → Option (Fn F)

section
variable (fo : FloatOps F) (doc : Node)

/-- The keys of `BUILTIN_FUNCTIONS`: the arguments of `@microxpath_function`, `uxml/uxpath/functions.py` 57-355. -/
def builtinNames : List Str :=
  ["name".toList, "last".toList, "count".toList, "string".toList, "concat".toList, "starts-with".toList, "contains".toList,
   "substring-before".toList, "substring-after".toList, "substring".toList, "string-length".toList, "normalize-space".toList,
   "translate".toList, "same-lang".toList, "boolean".toList, "not".toList, "true".toList, "false".toList, "number".toList,
   "for-each".toList, "lookup".toList, "sum".toList, "floor".toList, "ceiling".toList, "round".toList]

/-- A built-in function as an object, `uxml/uxpath/functions.py` 57-355. -/
def builtinFn (name : Str) : Fn F := fun dyn x args =>
  callFn fo doc dyn x name (args.map Arg.expr) (args.map fun a => a.compute x)

/-- The dictionary `BUILTIN_FUNCTIONS`, `uxml/uxpath/functions.py` 43-53. -/
def builtinDict : List (Str × Fn F) := builtinNames.map fun m => (m, builtinFn fo doc m)

/-- `d.get(name)` on a dictionary of functions. -/
def fnLookup (d : List (Str × Fn F)) : FnTable F := fun name => (d.find? fun kv => kv.1 == name).map Prod.snd

/-- `self.functions = functions or BUILTIN_FUNCTIONS`, `uxml/uxpath/__init__.py` 85. -/
def fnTable (funcs : Option (List (Str × Fn F))) : FnTable F :=
  match funcs with
  | none => fnLookup (builtinDict fo doc)
  | some [] => fnLookup (builtinDict fo doc)
  | some d => fnLookup d

mutual
  /-- `compute(ctx)` of an expression at the context item `x`, as `eval` in `Model/XPath` (same lines of `uxml/uxpath/xast.py`), with
  `ctx.functions` being the table `T`. -/
  def evalT (T : FnTable F) (vars : Str → Option (Item F)) (n : Nat) (dyn : Str → Except XErr (Item F → Res F)) :
      Expr F → Item F → Res F
    | .lit y, _ => .one y                                                     -- xast.py 184-186
    | .neg e, x => match (evalT T vars n dyn e x).first with                      -- 213-215
      | .stop t => ⟨[], t⟩
      | _ => .fail .type
    | .slash l r, x =>                                                         -- 257-262
      (evalT T vars n dyn l x).bind fun y => evalT T vars n dyn r (y.orElse fo doc x)
    | .dslash l r, x =>                                                        -- 263-271
      (evalT T vars n dyn l x).bind fun y => match r with
        | .step _ t => stepRes fo doc n .descendantOrSelf t (y.orElse fo doc x)
        | r => evalT T vars n dyn r (y.orElse fo doc x)
    | .union l r, x => unionRes doc x (evalT T vars n dyn l x) (evalT T vars n dyn r x)
    | .eq l r, x => eqRes fo doc (evalT T vars n dyn l x) (evalT T vars n dyn r x)
    | .ne l r, x =>                                                            -- 296-299
      (evalT T vars n dyn l x).need fun a => (evalT T vars n dyn r x).need fun b => .one (.bool (!a.pyEq fo doc b))
    | .rel op l r, x =>                                                        -- 300-315
      (evalT T vars n dyn l x).need fun a => (evalT T vars n dyn r x).need fun b => match a.pyRel fo doc op b with
        | some v => .one (.bool v)
        | none => .fail .type
    | .or l r, x =>                                                            -- 316-319
      (evalT T vars n dyn l x).need fun a => if a.truthy fo doc then .one a else (evalT T vars n dyn r x).need .one
    | .and l r, x =>                                                           -- 320-327
      (evalT T vars n dyn l x).need fun a => if a.truthy fo doc then (evalT T vars n dyn r x).need .one else .one a
    | .arith _ _ _, _ => .fail .notImplemented                                   -- 328-329
    | .abs none, x => x.getRoot doc                                            -- 361-364
    | .abs (some r), x => (x.getRoot doc).bind fun y =>                        -- 366-371
        .append (if r.isJustNode then .one y else .nil) (evalT T vars n dyn r y)
    | .absAll r, x => (x.getRoot doc).bind fun y =>                            -- 373-383
        .append (if r.isJustNode then .one y else .nil) (.append (evalT T vars n dyn r y)
          (match Item.below doc y with
            | none => .fail .attribute
            | some ys => Res.bindList (fun z => evalT T vars n dyn r (z.orElse fo doc x)) .done ys))
    | .step a t, x => stepRes fo doc n a t x
    | .test t, x => ⟨t.compute doc x, .done⟩
    | .pred lhs ps, x =>                                                       -- 536-556
      predLoop (fun pos y => evalPredsT T vars n dyn pos ps (y.orElse fo doc x)) (evalT T vars n dyn lhs x).tail 1
        (evalT T vars n dyn lhs x).items
    | .dot, x => .one x                                                        -- 639-640
    | .dotdot, x => match x.parent with                                        -- 641-647
      | none => .fail .attribute
      | some none => x.getRoot doc
      | some (some y) => .one y
    | .var v, _ => match vars v with                                           -- 676-677
      | some y => .one y
      | none => .fail .key
    | .call f args, x => match T f with                                         -- 711-716
      | none => .fail .runtime
      | some g => g dyn x (evalArgsT T vars n dyn args)
    | .seq es, x => evalSeqT T vars n dyn es x                                    -- 748-753
  /-- All predicates in turn, 541-553. -/
  def evalPredsT (T : FnTable F) (vars : Str → Option (Item F)) (n : Nat) (dyn : Str → Except XErr (Item F → Res F)) (pos : Nat) :
      List (Expr F) → Item F → Bool ⊕ Tail
    | [], _ => .inl true
    | p :: r, x => match predHolds fo doc pos (evalT T vars n dyn p x) with
      | .inl true => evalPredsT T vars n dyn pos r x
      | v => v
  /-- The arguments as the function gets them, 716. -/
  def evalArgsT (T : FnTable F) (vars : Str → Option (Item F)) (n : Nat) (dyn : Str → Except XErr (Item F → Res F)) :
      List (Expr F) → List (Arg F)
    | [] => []
    | e :: r => ⟨e, fun y => evalT T vars n dyn e y⟩ :: evalArgsT T vars n dyn r
  def evalSeqT (T : FnTable F) (vars : Str → Option (Item F)) (n : Nat) (dyn : Str → Except XErr (Item F → Res F)) :
      List (Expr F) → Item F → Res F
    | [], _ => .nil
    | e :: r, x => .append (evalT T vars n dyn e x) (evalSeqT T vars n dyn r x)
end

/-- Evaluation with the functions of `T`, as `evalN` in `Model/XPath`: `for-each` evaluates its texts with the same functions
(`uxml/uxpath/functions.py` 295-298, `ctx.copy`, `uxml/uxpath/__init__.py` 91-99). -/
def evalTN (T : FnTable F) (parse : Str → Except XErr (Expr F)) (vars : Str → Option (Item F)) : Nat → Expr F → Item F → Res F
  | 0 => evalT fo doc T vars 0 fun s => (parse s).map fun _ _ => ⟨[], .out⟩
  | n + 1 => evalT fo doc T vars (n + 1) fun s => (parse s).map fun e => evalTN T parse vars n e

end

end Amara
