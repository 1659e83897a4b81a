import Verif.Spec.Edit
import Verif.Spec.Selectors
import Verif.Spec.Tree
/-
Specification for C179: a program that adds a child to everything a query with tests finds.

    for e in list(doc.xml_xpath('//m[t]')): e.xml_append(s)
    for e in list(doc.xml_xpath('//m[t]')): e.xml_append(element(n, attrs))
-/
namespace Amara

/-- What is added: a string, or a new element without children. -/
inductive Addition where
  | string (s : Str)
  | element (n : Str) (as : Attrs)

/-- The body of the loop, on objects. -/
def Addition.onHeap (h : Heap) (e : Id) : Addition → Except MutErr Heap
  | .string s => h.xmlAppend e (.str s)
  | .element n as => (h.newElement n as).2.xmlAppend e (.node (h.newElement n as).1)

/-- The loop runs to its end without an error. -/
inductive AddEach (c : Addition) : Heap → List Id → Heap → Prop
  | nil {h} : AddEach c h [] h
  | cons {h h1 h' x xs} : c.onHeap h x = .ok h1 → AddEach c h1 xs h' → AddEach c h (x :: xs) h'

/-- What is added, as a value. -/
def Addition.node : Addition → Node
  | .string s => .text s
  | .element n as => .elem n as []

/-- The attributes added are a dictionary, and the string is not empty. -/
def Addition.Fine : Addition → Prop
  | .string s => s ≠ []
  | .element _ as => as.Pairwise fun a b => a.1 ≠ b.1

mutual
  /-- The tree at position `here` of a document, where each of the elements at the positions `ps` of that document has what is added as one more child,
  after the others. -/
  def Node.growAt (u : Addition) (ps : List Path) (here : Path) : Node → Node
    | .elem n as ts => .elem n as (Node.growList u ps here 0 ts ++ if here ∈ ps then [u.node] else [])
    | .text s => .text s
  /-- The same for children, the first of which is number `k`. -/
  def Node.growList (u : Addition) (ps : List Path) (here : Path) (k : Nat) : List Node → List Node
    | [] => []
    | t :: ts => t.growAt u ps (here ++ [k]) :: Node.growList u ps here (k + 1) ts
end

end Amara
