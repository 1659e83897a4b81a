import Verif.Model.XFrames
import Verif.Spec.XPath
import Verif.Spec.Frames
/-
Specification for C157: what a query under a limit on nested calls has to do with the query without one, and how many calls a
query needs.
-/
namespace Amara

variable {F : Type}

/-- `r` is `r₀`, or a first part of it that ends in RecursionError. -/
def Res.CutOf (r r₀ : Res F) : Prop := r = r₀ ∨ (r.tail = .err .recursion ∧ r.items <+: r₀.items)

/-- Evaluating `e` with `x` as the context item, and with room for `k` nested calls. -/
def Env.runK (E : Env F) (c : QNeeds) (k n : Nat) (e : Expr F) (x : Item F) : Res F := evalNK E.fo E.doc c E.parse E.vars n e k x

/-- The functions that convert their arguments to strings or numbers. -/
def converts (f : Str) : Bool := f = "concat".toList || f ∈ convFns

/-- Items that are not elements. -/
def Item.plain : Item F → Bool
  | .node _ => false
  | _ => true

mutual
  /-- Expressions that yield no elements: literals, attributes, `text()`, comparisons, functions, and paths that end in one of
  these. -/
  def Expr.noElements : Expr F → Bool
    | .lit y => y.plain
    | .step .attribute _ => true
    | .step _ .text => true
    | .test .text => true
    | .eq _ _ | .ne _ _ | .rel _ _ _ => true
    | .slash _ r => r.noElements
    | .pred l _ => l.noElements
    | .call f _ => f ≠ "for-each".toList
    | .seq es => Expr.noElementsAll es
    | _ => false
  def Expr.noElementsAll : List (Expr F) → Bool
    | [] => true
    | e :: es => e.noElements && Expr.noElementsAll es
end

mutual
  /-- The expression contains a union, or asks for the text in an element: by `=` with a path to elements on the left, or by a
  function that converts an argument that may be an element. -/
  def Expr.asksDepth : Expr F → Bool
    | .lit _ | .abs none | .test _ | .dot | .dotdot | .step _ _ | .var _ | .arith _ _ _ => false
    | .union _ _ => true
    | .eq l r => l.asksDepth || r.asksDepth || !l.noElements
    | .neg e | .abs (some e) | .absAll e => e.asksDepth
    | .slash l r | .dslash l r | .ne l r | .rel _ l r | .or l r | .and l r => l.asksDepth || r.asksDepth
    | .pred l ps => l.asksDepth || Expr.asksDepthAll ps
    | .call f as => Expr.asksDepthAll as || (converts f && (!Expr.noElementsAll as || as.isEmpty))
    | .seq es => Expr.asksDepthAll es
  def Expr.asksDepthAll : List (Expr F) → Bool
    | [] => false
    | e :: es => e.asksDepth || Expr.asksDepthAll es
end

mutual
  /-- The expression does not evaluate strings as expressions. -/
  def Expr.noForEach : Expr F → Bool
    | .lit _ | .abs none | .test _ | .dot | .dotdot | .step _ _ | .var _ => true
    | .neg e | .abs (some e) | .absAll e => e.noForEach
    | .slash l r | .dslash l r | .union l r | .eq l r | .ne l r | .rel _ l r | .or l r | .and l r | .arith _ l r =>
      l.noForEach && r.noForEach
    | .pred l ps => l.noForEach && Expr.noForEachAll ps
    | .call f as => f ≠ "for-each".toList && Expr.noForEachAll as
    | .seq es => Expr.noForEachAll es
  def Expr.noForEachAll : List (Expr F) → Bool
    | [] => true
    | e :: es => e.noForEach && Expr.noForEachAll es
end

mutual
  /-- The number of nested calls in which the expression can be evaluated, if a string value or the numbering for a union takes
  `v`: it depends on the expression only. -/
  def Expr.calls (c : QNeeds) (v : Nat) : Expr F → Nat
    | .lit _ | .test _ | .dot | .var _ | .arith _ _ _ => 1
    | .abs none | .dotdot => 1 + c.root
    | .neg e => 1 + e.calls c v
    | .slash l r => 1 + max (l.calls c v) (max c.copy (r.calls c v))
    | .dslash l r => 1 + max (l.calls c v) (max c.copy (max (r.calls c v) (r.callsDown c)))
    | .union l r | .eq l r => 1 + max v (max (l.calls c v) (r.calls c v))
    | .ne l r | .rel _ l r | .or l r | .and l r => 1 + max (l.calls c v) (r.calls c v)
    | .abs (some r) | .absAll r => 1 + max c.root (max c.copy (r.calls c v))
    | .step a t => 1 + c.step a t
    | .pred l ps => 1 + max (l.calls c v) (max c.copy (Expr.callsAll c v ps))
    | .call f as => 1 + max 1 (max (Expr.callsArgs c v f 0 as) (if converts f then c.conv f + max 1 v else 0))
    | .seq es => 1 + Expr.callsAll c v es
  def Expr.callsAll (c : QNeeds) (v : Nat) : List (Expr F) → Nat
    | [] => 0
    | e :: es => max (e.calls c v) (Expr.callsAll c v es)
  def Expr.callsArgs (c : QNeeds) (v : Nat) (f : Str) (i : Nat) : List (Expr F) → Nat
    | [] => 0
    | e :: es => max (c.arg f i + e.calls c v) (Expr.callsArgs c v f (i + 1) es)
  /-- A step after `//` goes along `descendant-or-self`. -/
  def Expr.callsDown (c : QNeeds) : Expr F → Nat
    | .step _ t => 1 + c.step .descendantOrSelf t
    | _ => 0
end

end Amara
