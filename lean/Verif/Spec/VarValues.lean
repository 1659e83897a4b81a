import Verif.Spec.QueryText
/-
Specification for C170: the expression with the values of the variables written in.
-/
namespace Amara

variable {F : Type}

mutual
  /-- The expression with every variable that has a value replaced by it. -/
  def Expr.fill (vars : Str → Option (Item F)) : Expr F → Expr F
    | .var v => match vars v with
      | some y => .lit y
      | none => .var v
    | .lit y => .lit y
    | .neg e => .neg (e.fill vars)
    | .slash l r => .slash (l.fill vars) (r.fill vars)
    | .dslash l r => .dslash (l.fill vars) (r.fill vars)
    | .union l r => .union (l.fill vars) (r.fill vars)
    | .eq l r => .eq (l.fill vars) (r.fill vars)
    | .ne l r => .ne (l.fill vars) (r.fill vars)
    | .rel op l r => .rel op (l.fill vars) (r.fill vars)
    | .or l r => .or (l.fill vars) (r.fill vars)
    | .and l r => .and (l.fill vars) (r.fill vars)
    | .arith op l r => .arith op (l.fill vars) (r.fill vars)
    | .abs none => .abs none
    | .abs (some r) => .abs (some (r.fill vars))
    | .absAll r => .absAll (r.fill vars)
    | .step a t => .step a t
    | .test t => .test t
    | .pred l ps => .pred (l.fill vars) (Expr.fillAll vars ps)
    | .dot => .dot
    | .dotdot => .dotdot
    | .call f as => .call f (Expr.fillAll vars as)
    | .seq es => .seq (Expr.fillAll vars es)
  def Expr.fillAll (vars : Str → Option (Item F)) : List (Expr F) → List (Expr F)
    | [] => []
    | e :: es => e.fill vars :: Expr.fillAll vars es
end

/-- A variable. -/
def Expr.isVar : Expr F → Bool
  | .var _ => true
  | _ => false

mutual
  /-- Nowhere is a variable the second or third argument of `substring`. -/
  def Expr.NoVarPosition : Expr F → Prop
    | .lit _ | .abs none | .test _ | .dot | .dotdot | .step _ _ | .var _ => True
    | .neg e | .abs (some e) | .absAll e => e.NoVarPosition
    | .slash l r | .dslash l r | .union l r | .eq l r | .ne l r | .rel _ l r | .or l r | .and l r | .arith _ l r =>
      l.NoVarPosition ∧ r.NoVarPosition
    | .pred l ps => l.NoVarPosition ∧ Expr.NoVarPositions ps
    | .call f as => (f = "substring".toList → ∀ a ∈ as.tail, a.isVar = false) ∧ Expr.NoVarPositions as
    | .seq es => Expr.NoVarPositions es
  def Expr.NoVarPositions : List (Expr F) → Prop
    | [] => True
    | e :: es => e.NoVarPosition ∧ Expr.NoVarPositions es
end

/-- `w'` is `w` with some string and number constants replaced by variables that have their values. -/
inductive Varied (vars : Str → Option (Item F)) : List (X.Tok F) → List (X.Tok F) → Prop where
  | nil : Varied vars [] []
  | same {t : X.Tok F} {w w' : List (X.Tok F)} : Varied vars w w' → Varied vars (t :: w) (t :: w')
  | string {s : Str} {n : X.Tok F} {w w' : List (X.Tok F)} : n.isName → vars n.word = some (.str s) → Varied vars w w' →
      Varied vars (.literal s :: w) (.dollar :: n :: w')
  | number {k : Nat} {n : X.Tok F} {w w' : List (X.Tok F)} : n.isName → vars n.word = some (.int k) → Varied vars w w' →
      Varied vars (.integer k :: w) (.dollar :: n :: w')

/-- `substring` is not called. -/
def NoSubstring (w : List (X.Tok F)) : Prop := ¬ [.name "substring".toList, .lparen] <:+: w

end Amara
