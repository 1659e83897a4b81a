import Verif.Model.MicroxRun
import Verif.Spec.Expat
import Verif.Spec.Path
import Verif.Spec.XPath
/-
Specification for runs of the command line tool.
-/
namespace Amara

/-- The outermost elements with a name: in document order, each once, with their positions, the elements of that name
that are inside no other element of that name. -/
def OutermostNamed (doc : Node) (n : Str) (l : List (Path × Node)) : Prop :=
  InDocOrder l ∧ ∀ q x, (q, x) ∈ l ↔ doc.at? q = some x ∧ doc.Named n q ∧
    ∀ q' i r, q = q' ++ i :: r → ¬ doc.Named n q'

/-- What is printed for several trees, one after the other, up to the first exception. -/
def printedInTurn (process : Node → Printed) : List Node → RunOut
  | [] => ⟨[], .tail .done⟩
  | t :: ts => match process t with
    | ⟨ls, .done⟩ => ⟨ls ++ (printedInTurn process ts).lines, (printedInTurn process ts).end_⟩
    | ⟨ls, e⟩ => ⟨ls, .tail e⟩

/-- The source is a complete document that expat reports without an error. -/
def SourceOf (src : List XCall × Bool) (doc : Node) : Prop :=
  doc.isText = false ∧ Reports src.1 (doc.events []) ∧ src.2 = false

/-- The sources are these documents. -/
inductive SourcesOf : List (List XCall × Bool) → List Node → Prop
  | nil : SourcesOf [] []
  | cons {s d ss ds} : SourceOf s d → SourcesOf ss ds → SourcesOf (s :: ss) (d :: ds)

end Amara
