import Verif.Spec.Edit
import Verif.Spec.Tree
/-
Specification for C180: a program that copies everything a query with tests finds to another tree.  MicroXML trees have no copy operation: a node
is copied by parsing what it is serialised to.

    xs = list(doc.xml_xpath('//m[t]'))
    for x in xs: w.xml_append(tb.parse(x.xml_encode()))
-/
namespace Amara

/-- The loop runs to its end without an error.  Each round may use another builder `b` (all objects are in its `heap`); the program holds the objects
`held` meanwhile, and the garbage collector may run during each call of `parse`. -/
inductive CopyEach (held : List Id) (w : Id) : Heap → List Id → Heap → Prop
  | nil {h} : CopyEach held w h [] h
  /-- `x` stands for the tree `u`, so that `x.xml_encode()` is `u.encode`; parsing returns the object `i` -/
  | cons {b b' : Builder} {h1 h' x xs q u i} : Rep b.heap q x u → ParseHolding held b u.encode (.returned (some i)) b' →
      b'.heap.xmlAppend w (.node i) = .ok h1 → CopyEach held w h1 xs h' → CopyEach held w b.heap (x :: xs) h'

/-- The trees at some positions of a document, with adjacent texts merged. -/
def Node.copies (d : Node) (ps : List Path) : List Node := ps.filterMap fun p => (d.at? p).map Node.norm

end Amara
