import Verif.Model.UserFns
import Verif.Spec.XPath
/-
What is meant by evaluating with the functions of the caller (C151).
-/
namespace Amara

variable {F : Type}

/-- What evaluation depends on, with the mapping of functions the caller gives (or does not give). -/
structure FEnv (F : Type) extends Env F where
  funcs : Option (List (Str × Fn F))

/-- Evaluating `e` with `x` as the context item. -/
def FEnv.run (E : FEnv F) (n : Nat) (e : Expr F) (x : Item F) : Res F :=
  evalTN E.fo E.doc (fnTable E.fo E.doc E.funcs) E.parse E.vars n e x

/-- Evaluating the expression that is written in a text. -/
def FEnv.runText (E : FEnv F) : Nat → Str → Except XErr (Item F → Res F)
  | 0, s => (E.parse s).map fun _ _ => ⟨[], .out⟩
  | n + 1, s => (E.parse s).map fun e => E.run n e

/-- The function called `m` in a mapping is `g`: the first entry of that name (in a dictionary there is one at most). -/
def GivenAs (d : List (Str × Fn F)) (m : Str) (g : Fn F) : Prop :=
  ∃ a b, d = a ++ (m, g) :: b ∧ ∀ kv ∈ a, kv.1 ≠ m

/-- A function that evaluates no texts. -/
def Fn.NoTexts (g : Fn F) : Prop := ∀ dyn dyn' x args, g dyn x args = g dyn' x args

mutual
  /-- All functions that are called in the expression are in `V`. -/
  def Expr.Calls (V : Str → Prop) : Expr F → Prop
    | .lit _ | .abs none | .test _ | .dot | .dotdot | .step _ _ | .var _ => True
    | .neg e | .abs (some e) | .absAll e => e.Calls V
    | .slash l r | .dslash l r | .union l r | .eq l r | .ne l r | .rel _ l r | .or l r | .and l r | .arith _ l r =>
      l.Calls V ∧ r.Calls V
    | .pred l ps => l.Calls V ∧ Expr.CallsAll V ps
    | .call f as => V f ∧ Expr.CallsAll V as
    | .seq es => Expr.CallsAll V es
  def Expr.CallsAll (V : Str → Prop) : List (Expr F) → Prop
    | [] => True
    | e :: es => e.Calls V ∧ Expr.CallsAll V es
end

end Amara
