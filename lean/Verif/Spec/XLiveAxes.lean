import Verif.Spec.XLivePath
/-
Specification for reading a path of `child`, `descendant` and `descendant-or-self` steps while the caller changes
attributes, or memory elsewhere.
-/
namespace Amara

mutual
  /-- What a path finds in memory as it is, in order: the children that the step takes; the nodes below, in document order,
  that it takes; for `l/r` what `r` finds from each that `l` finds; for `l[p]` those of `l` for which `p` holds. -/
  inductive Finds (h : Heap) : LivePath → Id → List Id → Prop
    | child {t e} : Finds h (.step .child t) e ((h.children e).filter (t.takes h))
    | descendant {t e l} : AllBelow h (h.children e) l → Finds h (.step .descendant t) e (l.filter (t.live h))
    | descendantOrSelf {t e l} : AllBelow h (h.children e) l → Finds h (.step .descendantOrSelf t) e ((e :: l).filter (t.live h))
    | slash {l r e ys zs} : Finds h l e ys → FindsEach h r ys zs → Finds h (.slash l r) e zs
    | filter {l p e ys} : Finds h l e ys → Finds h (.filter l p) e (holding h p 0 ys)
  /-- From each of these in turn. -/
  inductive FindsEach (h : Heap) : LivePath → List Id → List Id → Prop
    | nil {r} : FindsEach h r [] []
    | cons {r y ys zs ws} : Finds h r y zs → FindsEach h r ys ws → FindsEach h r (y :: ys) (zs ++ ws)
end

/-- Nothing below `e` gets another kind, name or child list, and the predicates say of it what they said: attributes may
change, and everything else in memory. -/
def Untouched (h0 : Heap) (e : Id) (P : LivePath) (_ : List Id) (h h' : Heap) : Prop :=
  ∀ i, Reachable h0 [e] i → SameNode h h' i ∧ ∀ p ∈ P.preds, ∀ k, p k h' i = p k h i

/-- As `SameQuery`, with all three axes. -/
inductive SameSteps {F : Type} (E : Env F) (n : Nat) (h : Heap) (t0 : Id) : LivePath → Expr F → Prop
  | child (m) : SameSteps E n h t0 (.step .child (.name m)) (.step .child (.name m))
  | descendant (m) : SameSteps E n h t0 (.step .descendant (.name m)) (.step .descendant (.name m))
  | descendantOrSelf (m) : SameSteps E n h t0 (.step .descendantOrSelf (.name m)) (.step .descendantOrSelf (.name m))
  | slash {l r el er} : SameSteps E n h t0 l el → SameSteps E n h t0 r er → SameSteps E n h t0 (.slash l r) (.slash el er)
  | test {l el t p} : SameSteps E n h t0 l el → E.TestOk n t →
      (∀ k q i, E.doc.ElemAt q → h.locate t0 q = some i → (p k h i = true ↔ E.TrueAt n t q)) →
      SameSteps E n h t0 (.filter l p) (.pred el [t])

end Amara
