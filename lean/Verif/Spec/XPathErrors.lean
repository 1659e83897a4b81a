import Verif.Spec.XPathFns
/-
Specification: which parts of an expression are needed, and what of them.
-/
namespace Amara

variable {F : Type}

/-- `e` and `e'` begin alike at `x`: with the same item, or both end without any item, and in the same way. -/
def Env.StartAlike (E : Env F) (n : Nat) (x : Item F) (e e' : Expr F) : Prop :=
  (∃ y, E.First n e x y ∧ E.First n e' x y) ∨
  ((E.run n e x).items = [] ∧ (E.run n e' x).items = [] ∧ (E.run n e x).tail = (E.run n e' x).tail)

/-- Evaluating `e` at `x` raises `er`, before anything is yielded. -/
def Env.RaisesAtOnce (E : Env F) (n : Nat) (e : Expr F) (x : Item F) (er : XErr) : Prop :=
  E.run n e x = ⟨[], .err er⟩

/-- The functions of one argument that take its first item. -/
def firstItemFunctions : List String := ["name", "string", "string-length", "boolean", "not", "number"]

/-- The functions of two arguments that take the first item of each as a string. -/
def twoStringFunctions : List String := ["starts-with", "contains", "substring-before", "substring-after", "lookup"]

/-- `C e` is an expression around `e` that, evaluated at `x`, asks for the first item of `e`. -/
inductive Env.TakesFirst (E : Env F) (n : Nat) (x : Item F) : (Expr F → Expr F) → Prop
  | fn {f} : f ∈ firstItemFunctions → TakesFirst E n x fun e => .call f.toList [e]
  | minus : TakesFirst E n x fun e => .neg e
  | neLeft {r} : TakesFirst E n x fun e => .ne e r
  | neRight {l y} : E.First n l x y → TakesFirst E n x fun e => .ne l e
  | relLeft {op r} : TakesFirst E n x fun e => .rel op e r
  | relRight {op l y} : E.First n l x y → TakesFirst E n x fun e => .rel op l e
  | orLeft {r} : TakesFirst E n x fun e => .or e r
  | orRight {l y} : E.First n l x y → ¬ E.Ebv [y] → TakesFirst E n x fun e => .or l e
  | andLeft {r} : TakesFirst E n x fun e => .and e r
  | andRight {l y} : E.First n l x y → E.Ebv [y] → TakesFirst E n x fun e => .and l e
  | fnLeft {f r} : f ∈ twoStringFunctions → TakesFirst E n x fun e => .call f.toList [e, r]
  | fnRight {f l y} : f ∈ twoStringFunctions → E.First n l x y → TakesFirst E n x fun e => .call f.toList [l, e]
  | substring {i k} : TakesFirst E n x fun e => .call "substring".toList [e, i, k]
  | forEach {l} : TakesFirst E n x fun e => .call "for-each".toList [l, e]
  | inside {C D} : TakesFirst E n x C → TakesFirst E n x D → TakesFirst E n x fun e => C (D e)


/-- `C e` is an expression around `e` that, evaluated at `x`, begins with evaluating `e`, or comes to it before it yields
anything. -/
inductive Env.Begins (E : Env F) (n : Nat) (x : Item F) : (Expr F → Expr F) → Prop
  | first {C} : E.TakesFirst n x C → Begins E n x C
  | path {r} : Begins E n x fun e => .slash e r
  | deepPath {r} : Begins E n x fun e => .dslash e r
  | filter {ps} : Begins E n x fun e => .pred e ps
  | eqLeft {r} : Begins E n x fun e => .eq e r
  | eqRight {l y} : E.First n l x y → Begins E n x fun e => .eq l e
  | sequence {es rest} : (∀ e ∈ es, E.Yields n e x []) → Begins E n x fun e => .seq (es ++ e :: rest)
  | count : Begins E n x fun e => .call "count".toList [e]
  | concat {es rest} : (∀ e ∈ es, (E.run n e x).tail = .done) → Begins E n x fun e => .call "concat".toList (es ++ e :: rest)
  | inside {C D} : Begins E n x C → Begins E n x D → Begins E n x fun e => C (D e)

end Amara
