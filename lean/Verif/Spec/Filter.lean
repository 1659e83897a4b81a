import Verif.Spec.StreamTests
import Verif.Spec.Pipe
import Verif.Model.Query
/-
Specification for C174: a program that copies those records of a stream that pass a test.

    def sink():
        while True:
            record = yield
            if list(record.xml_xpath('*[t]')): w.write(record)

`passes` is the condition; what such a program has written at the end is `writtenAtEnd` (Spec/Pipe) of the records that pass.
-/
namespace Amara
variable {F : Type}

/-- `list(record.xml_xpath(s))` is true: not empty. -/
def passes (fo : FloatOps F) (vars : Str → Option (Item F)) (k : Nat) (s : Str) (record : Node) : Bool :=
  !(xmlXPath fo vars k record [] (.str s)).items.isEmpty

end Amara
