import Verif.Spec.XPath
/-
Specification for comparisons, variables and the built-in functions of MicroXPath.
-/
namespace Amara

variable {F : Type}

/-- The item is a string: a literal one, or a text node. -/
def Env.IsString (E : Env F) (y : Item F) (s : Str) : Prop :=
  y = .str s ∨ ∃ p, y = .node p ∧ E.doc.at? p = some (.text s)

/-- The item is a number for Python, where booleans are numbers. -/
def Item.IsNumber : Item F → Prop
  | .int _ | .float _ | .bool _ => True
  | _ => False

/-- The first item of a result. -/
def Env.First (E : Env F) (n : Nat) (e : Expr F) (x y : Item F) : Prop := (E.run n e x).items.head? = some y

/-- What an operator says of two things that are ordered. -/
def Rel.Says {α} [LT α] (op : Rel) (a b : α) : Prop :=
  match op with
  | .lt => a < b
  | .gt => b < a
  | .le => ¬ b < a
  | .ge => ¬ a < b

/-- The built-in functions, with the least and the greatest number of arguments they take. -/
def builtins : List (String × Nat × Option Nat) :=
  [("name", 0, some 1), ("last", 0, some 0), ("count", 1, some 1), ("string", 0, some 1), ("concat", 0, none),
   ("starts-with", 2, some 2), ("contains", 2, some 2), ("substring-before", 2, some 2), ("substring-after", 2, some 2),
   ("substring", 3, some 3), ("string-length", 0, some 1), ("normalize-space", 1, some 1), ("translate", 2, some 2),
   ("same-lang", 2, some 2), ("boolean", 1, some 1), ("not", 1, some 1), ("true", 0, some 0), ("false", 0, some 0),
   ("number", 0, some 1), ("for-each", 2, some 2), ("lookup", 2, some 2), ("sum", 1, some 1), ("floor", 1, some 1),
   ("ceiling", 1, some 1), ("round", 1, some 1)]

mutual
  /-- All variables of the expression are in `V`, and it does not evaluate strings. -/
  def Expr.Uses (V : Str → Prop) : Expr F → Prop
    | .lit _ | .abs none | .test _ | .dot | .dotdot | .step _ _ => True
    | .var v => V v
    | .neg e | .abs (some e) | .absAll e => e.Uses V
    | .slash l r | .dslash l r | .union l r | .eq l r | .ne l r | .rel _ l r | .or l r | .and l r | .arith _ l r =>
      l.Uses V ∧ r.Uses V
    | .pred l ps => l.Uses V ∧ Expr.UsesAll V ps
    | .call f as => f ≠ "for-each".toList ∧ Expr.UsesAll V as
    | .seq es => Expr.UsesAll V es
  def Expr.UsesAll (V : Str → Prop) : List (Expr F) → Prop
    | [] => True
    | e :: es => e.Uses V ∧ Expr.UsesAll V es
end

end Amara
