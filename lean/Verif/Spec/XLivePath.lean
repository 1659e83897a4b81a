import Verif.Model.XLivePath
import Verif.Spec.XLive
import Verif.Spec.Routes
import Verif.Spec.Edit
/-
Specification for changing a tree while the results of a path of several steps are being read.
-/
namespace Amara

/-- Only the `child` axis. -/
def LivePath.byChildren : LivePath → Bool
  | .step a _ => a == .child
  | .slash l r => l.byChildren && r.byChildren
  | .filter l _ => l.byChildren

/-- Its predicates. -/
def LivePath.preds : LivePath → List (Nat → Heap → Id → Bool)
  | .step _ _ => []
  | .slash l r => l.preds ++ r.preds
  | .filter l p => p :: l.preds

/-- The items for which a predicate holds; they are numbered, from `k + 1`. -/
def holding (h : Heap) (p : Nat → Heap → Id → Bool) : Nat → List Id → List Id
  | _, [] => []
  | k, y :: ys => if p (k + 1) h y then y :: holding h p (k + 1) ys else holding h p (k + 1) ys

/-- A child that the step takes: with a name test or `*`, only elements. -/
def Test.takes (t : Test) (h : Heap) (c : Id) : Bool := (!t.isName || h.isElemB c) && t.live h c

/-- What a path by the `child` axis finds in memory as it is: the children that the step takes; for `l/r` what `r` finds
from each that `l` finds; for `l[p]` those of `l` for which `p` holds. -/
def LivePath.found (h : Heap) : LivePath → Id → List Id
  | .step _ t, e => (h.children e).filter (t.takes h)
  | .slash l r, e => (l.found h e).flatMap (r.found h)
  | .filter l p, e => holding h p 0 (l.found h e)

/-- A caller of a path: asks for results and, whenever it has control, changes memory in a way that `R` allows, given
the results so far. -/
inductive PathRun (R : List Id → Heap → Heap → Prop) : Heap → PathGen → List Id → Heap → PathGen → List Id → Prop
  | refl {h g vs} : PathRun R h g vs h g vs
  | change {h g vs h' g' vs' h''} : PathRun R h g vs h' g' vs' → R vs' h' h'' → PathRun R h g vs h'' g' vs'
  | next {h g vs h' g' vs' y g''} : PathRun R h g vs h' g' vs' → PathNext h' g' (.give y g'') →
      PathRun R h g vs h' g'' (vs' ++ [y])

/-- Only the results given so far are changed, with what is below them: every other node that was below `e` in `h0` keeps
kind, name and child list (its attributes may change, and everything else in memory), and the predicates say of it what
they said. -/
def OnlyResults (h0 : Heap) (e : Id) (P : LivePath) (vs : List Id) (h h' : Heap) : Prop :=
  ∀ i, Reachable h0 [e] i → (∀ y ∈ vs, ¬ Reachable h0 [y] i) →
    SameNode h h' i ∧ ∀ p ∈ P.preds, ∀ k, p k h' i = p k h i

/-- The path in memory and the expression, for the document at `t0`, are the same query: steps `child::name`, `l/r`, and
`l[test]` for a test that says, at every element, what the predicate says. -/
inductive SameQuery {F : Type} (E : Env F) (n : Nat) (h : Heap) (t0 : Id) : LivePath → Expr F → Prop
  | step (m) : SameQuery E n h t0 (.step .child (.name m)) (.step .child (.name m))
  | slash {l r el er} : SameQuery E n h t0 l el → SameQuery E n h t0 r er → SameQuery E n h t0 (.slash l r) (.slash el er)
  | test {l el t p} : SameQuery E n h t0 l el → E.TestOk n t →
      (∀ k q i, E.doc.ElemAt q → h.locate t0 q = some i → (p k h i = true ↔ E.TrueAt n t q)) →
      SameQuery E n h t0 (.filter l p) (.pred el [t])

end Amara
