import Verif.Spec.Routes
/-
Specification: the elements of a tree without its text.
-/
namespace Amara

mutual
  /-- The tree without its text nodes: elements, names, attributes. -/
  def Node.bones : Node → Node
    | .elem n as cs => .elem n as (Node.bonesList cs)
    | .text s => .text s
  def Node.bonesList : List Node → List Node
    | [] => []
    | .elem n as cs :: r => .elem n as (Node.bonesList cs) :: Node.bonesList r
    | .text _ :: r => Node.bonesList r
end

/-- How many elements there are in a list. -/
def countElems (cs : List Node) : Nat := cs.countP fun x => !x.isText

/-- A position, counting only elements among the siblings at each level. -/
def Node.among (x : Node) : Path → Path
  | [] => []
  | i :: p => countElems (x.xmlChildren.take i) ::
      match x.xmlChildren[i]? with
      | some y => y.among p
      | none => p

/-- The same text at corresponding elements. -/
def SameTexts (d d' : Node) : Prop :=
  ∀ p p' m as cs m' as' cs', d.at? p = some (.elem m as cs) → d'.at? p' = some (.elem m' as' cs') → d.among p = d'.among p' →
    (Node.elem m as cs).texts.flatten = (Node.elem m' as' cs').texts.flatten

variable {F : Type}

/-- Tests on elements: that there is an element along a path or an attribute, that an attribute has a value, and what
can be said with `not()`, `boolean()`, `and` and `or`.  With `texts`, also that the first element along a path has a text. -/
inductive ElementTest (texts : Prop) : Expr F → Prop
  /-- `b/c[...]//d` -/
  | path {a m ss} : ElementAxis a → (∀ s ∈ ss, ElementAxis s.axis) → (∀ a m t, .tested a m t ∈ ss → ElementTest texts t) →
      ElementTest texts (relPath a m ss)
  /-- `@k` -/
  | attr {k} : ElementTest texts (.step .attribute (.name k))
  /-- `@k = 'v'` -/
  | attrIs {k v} : ElementTest texts (.eq (.step .attribute (.name k)) (.lit (.str v)))
  /-- `b/c[...]//d = 'v'` -/
  | pathIs {a m ss v} : texts → ElementAxis a → (∀ s ∈ ss, ElementAxis s.axis) →
      (∀ a m t, .tested a m t ∈ ss → ElementTest texts t) → ElementTest texts (.eq (relPath a m ss) (.lit (.str v)))
  | boolean {t} : ElementTest texts t → ElementTest texts (.call "boolean".toList [t])
  | not {t} : ElementTest texts t → ElementTest texts (.call "not".toList [t])
  /-- `boolean(t) and boolean(u)` -/
  | both {t u} : ElementTest texts t → ElementTest texts u →
      ElementTest texts (.and (.call "boolean".toList [t]) (.call "boolean".toList [u]))
  /-- `boolean(t) or boolean(u)` -/
  | either {t u} : ElementTest texts t → ElementTest texts u →
      ElementTest texts (.or (.call "boolean".toList [t]) (.call "boolean".toList [u]))

/-- The steps of a path of elements: along these axes, with such tests. -/
def PathStep.OfElements (texts : Prop) (s : PathStep F) : Prop :=
  ElementAxis s.axis ∧ ∀ a m t, s = .tested a m t → ElementTest texts t

end Amara
