import Verif.Spec.XPath
import Verif.Spec.MicroXml
/-
Specification of queries by a path of names.
-/
namespace Amara

/-- A name as it is written in a MicroXPath expression: a MicroXML name without the letters from `À` to `Ö`. -/
def IsTestName (n : Str) : Prop :=
  ∃ c r, n = c :: r ∧ NameStartCode c.toNat ∧ (∀ d ∈ r, MicroNameCode d.toNat) ∧
    ∀ d ∈ n, ¬ (0xC0 ≤ d.toNat ∧ d.toNat ≤ 0xD6)

/-- The text `n/m₁/…/mₖ`. -/
def namePath (n : Str) (ms : List Str) : Str := n ++ ms.flatMap fun m => '/' :: m

/-- The node at `p ++ r` is reached from the one at `p` by going down once for each name, to an element of that name. -/
def Node.Along (doc : Node) (p : Path) (names : List Str) (q : Path) : Prop :=
  ∃ r : Path, q = p ++ r ∧ r.length = names.length ∧
    ∀ i m, names[i]? = some m → doc.Named m (p ++ r.take (i + 1))

end Amara
