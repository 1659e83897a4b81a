import Verif.Spec.Meaning
/-
Specification for C162: in which order, and how often, a query yields the places it leads to.  One line for each form of a
path, with lists where `CorePath.Leads` (C156) has sets.
-/
namespace Amara

/-- What each place of a list gives, in the order of the list. -/
def InTurn {α : Type} (R : Spot → List α → Prop) : List Spot → List α → Prop
  | [], vs => vs = []
  | w :: ws, vs => ∃ xs ys, vs = xs ++ ys ∧ R w xs ∧ InTurn R ws ys

/-- The places of a list with a property, in the order of the list. -/
def OnlyThose (P : Spot → Prop) : List Spot → List Spot → Prop
  | [], vs => vs = []
  | w :: ws, vs => (P w ∧ ∃ xs, vs = w :: xs ∧ OnlyThose P ws xs) ∨ (¬ P w ∧ OnlyThose P ws vs)

/-- The positions on an axis with a property, each once, in the order of the axis. -/
def Spot.AxisList (a : CoreAxis) (u : Spot) (P : Path → Prop) (qs : List Path) : Prop :=
  qs.Pairwise (AxisBefore a.axis) ∧ ∀ q, q ∈ qs ↔ u.Reach a q ∧ P q

/-- The item with this number in a list, counted from 1, or nothing. -/
def NumberK (k : Nat) (vs ws : List Spot) : Prop :=
  (∃ l v r, vs = l ++ v :: r ∧ l.length + 1 = k ∧ ws = [v]) ∨ ((k = 0 ∨ vs.length < k) ∧ ws = [])

/-- No place comes after a later one; a place may occur more than once.  (The root does not occur in unions.) -/
def SpotsInOrder (vs : List Spot) : Prop := vs.Pairwise fun v w => ∀ p q, v = .at p → w = .at q → ¬ docLt q p

/-- The list a path gives. -/
def CorePath.Gives (doc : Node) : CorePath → Spot → List Spot → Prop
  | .here, u, vs => vs = [u]
  | .up, u, vs => match u with
    | .root => vs = [.root]
    | .at p => (p = [] ∧ vs = [.root]) ∨ ∃ q i, p = q ++ [i] ∧ vs = [.at q]
  | .step a m, u, vs => ∃ qs : List Path, vs = qs.map .at ∧ u.AxisList a (doc.Named m) qs
  | .children, u, vs => ∃ qs : List Path, vs = qs.map .at ∧ u.AxisList .child doc.ElemAt qs
  | .nth a m k, u, vs => ∃ qs : List Path, u.AxisList a (doc.Named m) qs ∧ NumberK k (qs.map .at) vs
  | .abs p, _, vs => p.Gives doc .root vs
  | .anywhere p, _, vs =>
      -- the root and all elements, in document order
      ∃ es : List Path, es.Pairwise docLt ∧ (∀ q, q ∈ es ↔ doc.ElemAt q) ∧ InTurn (p.Gives doc) (.root :: es.map .at) vs
  | .seq p q, u, vs => ∃ ws, p.Gives doc u ws ∧ InTurn (q.Gives doc) ws vs
  | .deep p m, u, vs => ∃ ws, p.Gives doc u ws ∧
      InTurn (fun w xs => ∃ qs : List Path, xs = qs.map .at ∧ w.AxisList .descendantOrSelf (doc.Named m) qs) ws vs
  | .filter p c, u, vs => ∃ ws, p.Gives doc u ws ∧ OnlyThose (c.Holds doc) ws vs
  | .either p q, u, vs => ∃ xs ys, p.Gives doc u xs ∧ q.Gives doc u ys ∧ vs.Perm (xs ++ ys) ∧ SpotsInOrder vs

end Amara
