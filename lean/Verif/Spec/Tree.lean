import Verif.Spec.MicroXml
/-
Specification for serialisation: what an element must satisfy to be written as MicroXML, and its
normal form (adjacent text merged, empty text dropped).
-/
namespace Amara

/-- A value that can be written in an attribute and read back. -/
def AttrValue (v : Str) : Prop := ∀ c ∈ v, Legal c ∧ c ≠ '\t' ∧ c ≠ '\n'

mutual
  /-- Names are names, attribute names are distinct, attribute values satisfy `ok`, text is made of
  legal characters. -/
  def Node.WritableWith (ok : Str → Prop) : Node → Prop
    | .elem n as cs => IsName n ∧ (∀ p ∈ as, IsName p.1 ∧ ok p.2) ∧ (as.map (·.1)).Nodup ∧
        Node.WritableList ok cs
    | .text s => ∀ c ∈ s, Legal c
  def Node.WritableList (ok : Str → Prop) : List Node → Prop
    | [] => True
    | x :: r => Node.WritableWith ok x ∧ Node.WritableList ok r
end

/-- Names are names, attribute names are distinct, attribute values and text are made of legal
characters, and no attribute value contains a tab or a newline. -/
def Node.Writable (e : Node) : Prop := e.WritableWith AttrValue

/-- A value made of legal characters and carriage returns (a carriage return is not legal). -/
def LooseValue (v : Str) : Prop := ∀ c ∈ v, Legal c ∨ c = '\r'

/-- A tab, a newline or a carriage return occurs in the value. -/
def HasControl (v : Str) : Prop := ∃ c ∈ v, c = '\t' ∨ c = '\n' ∨ c = '\r'

/-- The event is not the start of an element with such an attribute value. -/
def CleanStart : Event → Prop
  | .start _ as _ => ∀ p ∈ as, ¬ HasControl p.2
  | _ => True

instance (v : Str) : Decidable (HasControl v) := by unfold HasControl; infer_instance
instance (ev : Event) : Decidable (CleanStart ev) := by
  cases ev <;> (simp only [CleanStart]; infer_instance)

/-- Text `s` in front of a sequence of nodes: merged with a text node at its head, dropped if
empty. -/
def consText (s : Str) (ns : List Node) : List Node :=
  if s = [] then ns
  else match ns with
    | .text t :: r => .text (s ++ t) :: r
    | _ => .text s :: ns

mutual
  /-- The normal form: adjacent text merged and empty text dropped, at every level. -/
  def Node.norm : Node → Node
    | .elem n as cs => .elem n as (Node.normList cs)
    | .text s => .text s
  def Node.normList : List Node → List Node
    | [] => []
    | .text s :: r => consText s (Node.normList r)
    | .elem n as cs :: r => Node.norm (.elem n as cs) :: Node.normList r
end

/-- `Refs refs lit s w`: the text `w` is `s` with each character written either as itself (where `lit`
allows it) or as one of the references in the table `refs`. -/
inductive Refs (refs : List (String × Char)) (lit : Char → Prop) : Str → Str → Prop
  | nil : Refs refs lit [] []
  | lit {c s w} : lit c → Refs refs lit s w → Refs refs lit (c :: s) (c :: w)
  | ref {n c s w} : (n, c) ∈ refs → Refs refs lit s w → Refs refs lit (c :: s) (n.toList ++ w)

/-- The references the serialiser uses in text. -/
def textRefs : List (String × Char) := [("&amp;", '&'), ("&gt;", '>'), ("&lt;", '<')]

/-- The references the serialiser uses in attribute values. -/
def attrRefs : List (String × Char) :=
  textRefs ++ [("&quot;", '"'), ("&#10;", '\n'), ("&#13;", '\r'), ("&#9;", '\t')]

mutual
  /-- All text below a node, in document order. -/
  def Node.texts : Node → List Str
    | .elem _ _ cs => Node.textsList cs
    | .text s => [s]
  def Node.textsList : List Node → List Str
    | [] => []
    | x :: r => Node.texts x ++ Node.textsList r
end

/-- `InsertedAtTags P w w'`: `w'` is `w` with runs satisfying `P` inserted, each directly after a '>'
of `w` that ends a tag. -/
inductive InsertedAtTags (P : Str → Prop) : Str → Str → Prop
  | nil : InsertedAtTags P [] []
  | char {c w w'} : InsertedAtTags P w w' → InsertedAtTags P (c :: w) (c :: w')
  | run {w w' u} : P u → InsertedAtTags P w w' → InsertedAtTags P ('>' :: w) ('>' :: (u ++ w'))

/-- `n` copies of `u`. -/
def copies (n : Nat) (u : Str) : Str := (List.replicate n u).flatten

mutual
  /-- The element with white space text added: a newline and `depth` indents as its first child and
  after each child element, and so on inside its child elements with one indent more. -/
  def Node.withIndent (ind : Str) (depth : Nat) : Node → Node
    | .elem n as cs =>
      .elem n as (.text ('\n' :: copies depth ind) :: Node.withIndents ind depth cs)
    | .text s => .text s
  def Node.withIndents (ind : Str) (depth : Nat) : List Node → List Node
    | [] => []
    | .text s :: r => .text s :: Node.withIndents ind depth r
    | .elem n as cs :: r => Node.withIndent ind (depth + 1) (.elem n as cs) ::
        .text ('\n' :: copies depth ind) :: Node.withIndents ind depth r
end

/-- The characters of an event. -/
def Event.charsOf : Event → Str
  | .chars s => s
  | _ => []

end Amara
