import Verif.Model.Parser
/-
The value of a finished tree: what `uxml/tree.py`'s `element` (67-105) and `text` (162-184)
objects hold, without object identity and parent links (those are in `Model/Heap`).
-/
namespace Amara

/-- `element(name, attrs)` with its `xml_children`, or `text(value)`; `uxml/tree.py` 67-76, 162-170. -/
inductive Node where
  | elem (name : Str) (attrs : Attrs) (children : List Node)
  | text (s : Str)
deriving Repr, Inhabited

/-- Induction over nodes and lists of nodes together. -/
theorem Node.induct {P : Node → Prop} {Q : List Node → Prop}
    (elem : ∀ n a cs, Q cs → P (.elem n a cs)) (text : ∀ s, P (.text s))
    (nil : Q []) (cons : ∀ x xs, P x → Q xs → Q (x :: xs)) :
    (∀ x, P x) ∧ (∀ xs, Q xs) :=
  have h : ∀ x, P x := fun x => Node.rec (motive_1 := P) (motive_2 := Q) elem text nil cons x
  ⟨h, fun xs => by
    induction xs with
    | nil => exact nil
    | cons x xs ih => exact cons x xs (h x) ih⟩

mutual
  /-- Decidable equality (for the examples). -/
  def Node.decEq : (x y : Node) → Decidable (x = y)
    | .elem n a cs, .elem n' a' cs' =>
      match _root_.decEq n n', _root_.decEq a a', Node.decEqs cs cs' with
      | isTrue h1, isTrue h2, isTrue h3 => isTrue (by subst h1 h2 h3; rfl)
      | isFalse h, _, _ => isFalse (by intro h'; cases h'; exact h rfl)
      | _, isFalse h, _ => isFalse (by intro h'; cases h'; exact h rfl)
      | _, _, isFalse h => isFalse (by intro h'; cases h'; exact h rfl)
    | .text s, .text s' =>
      match _root_.decEq s s' with
      | isTrue h => isTrue (by subst h; rfl)
      | isFalse h => isFalse (by intro h'; cases h'; exact h rfl)
    | .elem .., .text _ => isFalse (by intro h; cases h)
    | .text _, .elem .. => isFalse (by intro h; cases h)
  def Node.decEqs : (x y : List Node) → Decidable (x = y)
    | [], [] => isTrue rfl
    | [], _ :: _ => isFalse (by intro h; cases h)
    | _ :: _, [] => isFalse (by intro h; cases h)
    | x :: xs, y :: ys =>
      match Node.decEq x y, Node.decEqs xs ys with
      | isTrue h1, isTrue h2 => isTrue (by subst h1 h2; rfl)
      | isFalse h, _ => isFalse (by intro h'; cases h'; exact h rfl)
      | _, isFalse h => isFalse (by intro h'; cases h'; exact h rfl)
end

instance : DecidableEq Node := Node.decEq

end Amara
