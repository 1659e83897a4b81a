import Verif.Spec.XPath
import Verif.Spec.Path
/-
Specification for paths of several steps: the routes along a path.
-/
namespace Amara

variable {F : Type}

/-- One step of a path of elements. -/
inductive PathStep (F : Type) where
  /-- `axis::name` -/
  | plain (a : Axis) (m : Str)
  /-- `axis::name[test]` -/
  | tested (a : Axis) (m : Str) (test : Expr F)
  /-- `name` after `//` -/
  | deep (m : Str)

/-- The axis of a step; after `//` it is descendant-or-self (C67). -/
def PathStep.axis : PathStep F → Axis
  | .plain a _ => a
  | .tested a _ _ => a
  | .deep _ => .descendantOrSelf

def PathStep.name : PathStep F → Str
  | .plain _ m => m
  | .tested _ m _ => m
  | .deep m => m

/-- A path and one step more. -/
def PathStep.after (e : Expr F) : PathStep F → Expr F
  | .plain a m => .slash e (.step a (.name m))
  | .tested a m t => .slash e (.pred (.step a (.name m)) [t])
  | .deep m => .dslash e (.step .child (.name m))

/-- `e/s1/s2/...` -/
def pathFrom (e : Expr F) : List (PathStep F) → Expr F
  | [] => e
  | s :: ss => pathFrom (s.after e) ss

/-- `s1/s2/...`: the first step has nothing before it. -/
def relPath (a : Axis) (m : Str) (ss : List (PathStep F)) : Expr F := pathFrom (.step a (.name m)) ss

/-- The axes used in such paths. -/
def ElementAxis (a : Axis) : Prop :=
  a = .self ∨ a = .child ∨ a = .descendant ∨ a = .descendantOrSelf ∨ a = .followingSibling ∨ a = .precedingSibling

/-- The test does not raise at any element, and does not give a number (which would be a position). -/
def Env.TestOk (E : Env F) (n : Nat) (t : Expr F) : Prop :=
  ∀ p, E.doc.ElemAt p → ∃ ys, E.Yields n t (.node p) ys ∧ ∀ y, ys.head? = some y → (∀ i, y ≠ .int i) ∧ ∀ f, y ≠ .float f

/-- The test is true at this element. -/
def Env.TrueAt (E : Env F) (n : Nat) (t : Expr F) (p : Path) : Prop := ∃ ys, E.Yields n t (.node p) ys ∧ E.Ebv ys

/-- The steps considered: along one of these axes, with tests that do not raise. -/
def Env.StepOk (E : Env F) (n : Nat) : PathStep F → Prop
  | .plain a _ => ElementAxis a
  | .tested a _ t => ElementAxis a ∧ E.TestOk n t
  | .deep _ => True

/-- A step leads from `p` to `q`. -/
def Env.Leads (E : Env F) (n : Nat) (s : PathStep F) (p q : Path) : Prop :=
  OnAxis s.axis p q ∧ E.doc.Named s.name q ∧ ∀ a m t, s = .tested a m t → E.TrueAt n t q

/-- A route from `p`: an element for each step, each led to from the one before. -/
def Env.Route (E : Env F) (n : Nat) : List (PathStep F) → Path → List Path → Prop
  | [], _, r => r = []
  | s :: ss, p, r => ∃ q r', r = q :: r' ∧ E.Leads n s p q ∧ E.Route n ss q r'

/-- Where a route ends. -/
def routeEnd (p : Path) (r : List Path) : Path := r.getLast?.getD p

/-- `x` comes before `y` on an axis. -/
def AxisBefore (a : Axis) (x y : Path) : Prop := if a = .precedingSibling then docLt y x else docLt x y

/-- One route comes before another: at the first step at which they differ. -/
def RouteBefore : List (PathStep F) → List Path → List Path → Prop
  | s :: ss, x :: r, y :: r' => AxisBefore s.axis x y ∨ (x = y ∧ RouteBefore ss r r')
  | _, _, _ => False

/-- A step that goes down by a fixed number of levels. -/
def PathStep.Level (s : PathStep F) : Prop := s.axis = .self ∨ s.axis = .child

/-- A step that goes down. -/
def PathStep.Down (s : PathStep F) : Prop :=
  s.axis = .self ∨ s.axis = .child ∨ s.axis = .descendant ∨ s.axis = .descendantOrSelf

end Amara
