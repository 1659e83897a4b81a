import Verif.Spec.Selectors
import Verif.Spec.Filter
import Verif.Spec.Stream
import Verif.Spec.Query
/-
Specification for C176: the records of a stream whose pattern has names and '*', and the queries for the same thing.
-/
namespace Amara

/-- The string in the pattern: `'*'` or `'m'`. -/
def Head.word : Head → Str
  | .all => ['*']
  | .named m => m

/-- The names are names. -/
def Head.Ok : Head → Prop
  | .all => True
  | .named m => IsTestName m

/-- What the stage asks of the element at a position: to be one, or to have the name. -/
def Head.Fits (doc : Node) : Head → Path → Prop
  | .all, p => doc.ElemAt p
  | .named m, p => doc.Named m p

/-- The elements from the document element down to the one at `q`, that one included, are what the stages ask, one stage for each. -/
def Node.Fit (doc : Node) (hs : List Head) (q : Path) : Prop :=
  q.length + 1 = hs.length ∧ ∀ (i : Nat) g, hs[i]? = some g → g.Fits doc (q.take i)

end Amara
