import Verif.Spec.Prune
import Verif.Spec.QueryText
/-
Specification for C175: a program that takes out of a document what a query with tests finds.

    for e in list(doc.xml_xpath('//m[t]')): e.xml_parent.xml_remove(e)

`RemoveAll` and `Node.cutAt` are those of Spec/Prune.
-/
namespace Amara

/-- The query is for attributes of the context element. -/
def TestedList.ofItself : TestedList → Bool
  | .core (.last (.attr _)) | .core (.last .attrs) => true
  | _ => false

/-- The test looks only at the name and the attributes of the element. -/
def ValueTest.ofItself : ValueTest → Bool
  | .found l | .is l _ | .count l _ _ | .countIs l _ | .contains l _ | .startsWith l _ => l.ofItself
  | .nameIs _ => true
  | .not t => t.ofItself
  | .and t t' | .or t t' => t.ofItself && t'.ofItself

def Tests.ofItself : Tests → Bool
  | .one t => t.ofItself
  | .more t ts => t.ofItself && ts.ofItself

end Amara
