import Verif.Model.Gen
import Verif.Spec.Heap
/-
Specification for iterating over a tree while it is changed.
-/
namespace Amara

/-- The elements of a list of nodes and everything below them, in document order. -/
inductive Below (h : Heap) : List Id → List Id → Prop
  | nil : Below h [] []
  | text {c cs l} : h.isElemB c = false → Below h cs l → Below h (c :: cs) l
  | elem {c cs l l'} : h.isElemB c = true → Below h (h.children c) l → Below h cs l' →
      Below h (c :: cs) (c :: (l ++ l'))

/-- The objects are these trees, in this order. -/
inductive Pictures (h : Heap) : List Id → List Node → Prop
  | nil : Pictures h [] []
  | cons {c cs p t ts} : Rep h p c t → Pictures h cs ts → Pictures h (c :: cs) (t :: ts)

/-- A caller of `descendants`: asks for items and, whenever it has control, changes memory in a way that `R` allows,
given the items so far and the generator.  `GenRun R h g vs h' g' ws`: memory, generator and the items so far before
and after. -/
inductive GenRun (R : List Id → DescGen → Heap → Heap → Prop) :
    Heap → DescGen → List Id → Heap → DescGen → List Id → Prop
  | refl {h g vs} : GenRun R h g vs h g vs
  | change {h g vs h' g' vs' h''} : GenRun R h g vs h' g' vs' → R vs' g' h' h'' → GenRun R h g vs h'' g' vs'
  | next {h g vs h' g' vs' y g''} : GenRun R h g vs h' g' vs' → descNext h' g' = some (y, g'') →
      GenRun R h g vs h' g'' (vs' ++ [y])

/-- Nothing changes in the child lists below `e` as they were in `h0`. -/
def TreeKept (h0 : Heap) (e : Id) (_ : List Id) (_ : DescGen) (h h' : Heap) : Prop :=
  ∀ i, Reachable h0 [e] i → h'.children i = h.children i ∧ h'.isElemB i = h.isElemB i

/-- Below `e` as it was in `h0`, nodes are only taken out of child lists. -/
def TreeShrinks (h0 : Heap) (e : Id) (_ : List Id) (_ : DescGen) (h h' : Heap) : Prop :=
  ∀ i, Reachable h0 [e] i → (h'.children i).Sublist (h.children i) ∧ h'.isElemB i = h.isElemB i

/-- No element comes to be where the iteration has already been: not before the present place in a list under way, and
not in a list that is done.  (Taking out a node before the present place moves the next one there.) -/
def NotBehind (e : Id) (vs : List Id) (g : DescGen) (h h' : Heap) : Prop :=
  ∀ x, x = e ∨ x ∈ vs → ∀ c, h'.isElemB c = true →
    (∀ k, (x, k) ∈ g → c ∈ (h'.children x).take k → c ∈ (h.children x).take k ∧ h.isElemB c = true) ∧
    ((∀ k, (x, k) ∉ g) → c ∈ h'.children x → c ∈ h.children x ∧ h.isElemB c = true)

/-- `for x in select_elements(e): if p(x): e.xml_remove(x)`. -/
inductive RemoveLoop (p : Id → Bool) (e : Id) : Heap → SelGen → Heap → Prop
  | done {h g g'} : selElements h g = (none, g') → RemoveLoop p e h g h
  | keep {h g y g' h'} : selElements h g = (some y, g') → p y = false → RemoveLoop p e h g' h' → RemoveLoop p e h g h'
  | remove {h g y g' h1 h'} : selElements h g = (some y, g') → p y = true → h.xmlRemove e y = .ok h1 →
      RemoveLoop p e h1 g' h' → RemoveLoop p e h g h'

/-- `for x in ys: if p(x): e.xml_remove(x)` for a list `ys` made before. -/
inductive RemoveEach (p : Id → Bool) (e : Id) : Heap → List Id → Heap → Prop
  | nil {h} : RemoveEach p e h [] h
  | keep {h y ys h'} : p y = false → RemoveEach p e h ys h' → RemoveEach p e h (y :: ys) h'
  | remove {h y ys h1 h'} : p y = true → h.xmlRemove e y = .ok h1 → RemoveEach p e h1 ys h' →
      RemoveEach p e h (y :: ys) h'

/-- Going through a list and taking out what fits, but passing over what follows something taken out. -/
def takenOut {α} (p : α → Bool) : List α → List α
  | [] => []
  | [x] => if p x then [] else [x]
  | x :: y :: r => if p x then y :: takenOut p r else x :: takenOut p (y :: r)

end Amara
