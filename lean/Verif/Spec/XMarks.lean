import Verif.Model.XMarks
import Verif.Spec.XPath
/-
Specification for C158: queries that remember nothing.
-/
namespace Amara

variable {F : Type}

/-- The next item of a query whose items and end are known beforehand. -/
def Res.pop : Res F → (Item F ⊕ Tail) × Res F
  | ⟨x :: r, t⟩ => (.inl x, ⟨r, t⟩)
  | ⟨[], t⟩ => (.inr t, ⟨[], .done⟩)

/-- What a program would see if each query were answered by itself, on a document without a memory: what a query yields is
settled when it is asked (`Env.run`), and handed out item by item. -/
def Env.forgetful (E : Env F) (n : Nat) : List (QOp F) → List (Res F) → List (Item F ⊕ Tail)
  | [], _ => []
  | .ask e x :: r, qs => E.forgetful n r (qs ++ [E.run n e x])
  | .next i :: r, qs =>
    match qs[i]? with
    | none => E.forgetful n r qs
    | some q => q.pop.1 :: E.forgetful n r (qs.set i q.pop.2)

/-- What a program sees. -/
def Env.session (E : Env F) (n : Nat) (ops : List (QOp F)) (m : Marks) : List (Item F ⊕ Tail) :=
  Amara.session E.fo E.doc E.parse E.vars n ops [] m

/-- Order numbers that queries on this document can have left: none at all, or one for each element, ascending in document
order. -/
def Marks.Ordered (doc : Node) (m : Marks) : Prop :=
  (m.root = none ∧ ∀ p, m.elem p = none) ∨
  ((∀ p, (∃ k, m.elem p = some k) ↔ doc.ElemAt p) ∧
    ∀ p q j k, m.elem p = some j → m.elem q = some k → docLt p q → j < k)

/-- Node tests that the root node does not pass. -/
def Test.notRoot : Test → Bool
  | .name _ | .text => true
  | .star | .node => false

/-- Steps that never lead to the root node.  (`ancestor` and `parent` lead there whatever the test; `descendant` from the
root yields the root in place of an empty text node.) -/
def Axis.notRoot (t : Test) : Axis → Bool
  | .ancestor | .parent => false
  | .self | .ancestorOrSelf | .descendant | .descendantOrSelf => t.notRoot
  | _ => true

mutual
  /-- Expressions that never yield the root node (where no variable holds it). -/
  def Expr.rootless : Expr F → Bool
    | .lit x => !x.isRoot
    | .neg _ | .arith _ _ _ | .eq _ _ | .ne _ _ | .rel _ _ _ | .var _ => true
    | .slash _ r => r.rootless
    | .dslash _ (.step _ t) => t.notRoot
    | .dslash _ r => r.rootless
    | .union l r | .or l r | .and l r => l.rootless && r.rootless
    | .abs none => false
    | .abs (some r) | .absAll r => !r.isJustNode && r.rootless
    | .step a t => a.notRoot t
    | .test t => t.notRoot
    | .pred l _ => l.rootless
    | .dot | .dotdot => false
    | .call f _ => f ≠ "for-each".toList
    | .seq es => Expr.rootlessAll es
  def Expr.rootlessAll : List (Expr F) → Bool
    | [] => true
    | e :: es => e.rootless && Expr.rootlessAll es
end

mutual
  /-- Both sides of every union in the expression never yield the root node; `dyn` tells whether it may contain `for-each`,
  which evaluates expressions that are not written in it. -/
  def Expr.plainUnions (dyn : Bool) : Expr F → Bool
    | .lit _ | .abs none | .test _ | .dot | .dotdot | .step _ _ | .var _ | .arith _ _ _ => true
    | .union l r => l.rootless && r.rootless && l.plainUnions dyn && r.plainUnions dyn
    | .neg e | .abs (some e) | .absAll e => e.plainUnions dyn
    | .slash l r | .dslash l r | .eq l r | .ne l r | .rel _ l r | .or l r | .and l r => l.plainUnions dyn && r.plainUnions dyn
    | .pred l ps => l.plainUnions dyn && Expr.plainUnionsAll dyn ps
    | .call f as => (dyn || f ≠ "for-each".toList) && Expr.plainUnionsAll dyn as
    | .seq es => Expr.plainUnionsAll dyn es
  def Expr.plainUnionsAll (dyn : Bool) : List (Expr F) → Bool
    | [] => true
    | e :: es => e.plainUnions dyn && Expr.plainUnionsAll dyn es
end

/-- All queries a program asks have unions of this kind. -/
def QOp.plain (dyn : Bool) : QOp F → Prop
  | .ask e _ => e.plainUnions dyn = true
  | .next _ => True

end Amara
