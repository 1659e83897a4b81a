import Verif.Spec.Purge
import Verif.Spec.Prune
/-
Specification for C178: a program that moves what a query with tests finds to another tree.

    xs = list(doc.xml_xpath('//m[t]'))
    for x in xs: x.xml_parent.xml_remove(x)
    for x in xs: w.xml_append(x)
-/
namespace Amara

/-- `for x in xs: w.xml_append(x)` runs to its end without an error. -/
inductive AppendAll (w : Id) : Heap → List Id → Heap → Prop
  | nil {h} : AppendAll w h [] h
  | cons {h h1 h' x xs} : h.xmlAppend w (.node x) = .ok h1 → AppendAll w h1 xs h' → AppendAll w h (x :: xs) h'

/-- The trees at the positions `ps` of a document, each without the others. -/
def Node.pieces (d : Node) (ps : List Path) : List Node := ps.filterMap fun p => (d.at? p).map fun x => x.cutAt ps p

end Amara
