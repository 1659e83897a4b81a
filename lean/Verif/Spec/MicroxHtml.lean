import Verif.Model.MicroxHtml
import Verif.Spec.MicroxRun
/-
Specification for runs of the command line tool over HTML.
-/
namespace Amara

/-- The first element html5lib gave to the document, after comments and a document type, is the top of this tree. -/
def HtmlOf (s : AnySource) (d : Node) : Prop :=
  ∃ pre i post, s.roots = pre ++ .elem i :: post ∧ (∀ r ∈ pre, ∀ j, r ≠ .elem j) ∧ Rep s.heap none i d

/-- The same tree, read as lax XML: its second child has the element `d` as its first child. -/
def LaxOf (s : AnySource) (d : Node) : Prop :=
  ∃ n as x m bs cs post, HtmlOf s (.elem n as (x :: .elem m bs (d :: cs) :: post)) ∧ d.isText = false

/-- Sources, one after the other, with what they are. -/
inductive AllOf (R : AnySource → Node → Prop) : List AnySource → List Node → Prop
  | nil : AllOf R [] []
  | cons {s d ss ds} : R s d → AllOf R ss ds → AllOf R (s :: ss) (d :: ds)

end Amara
