import Verif.Model.Pattern
/-
Specification: what it means that a path of elements matches a pattern.
-/
namespace Amara

variable {α : Type} (look : α → Option Str)

/-- A stage other than '**' accepts one element: a name that name, '*' any element, a tuple what one of its
members accepts. -/
def Stage.Accepts (x : α) : Stage α → Prop
  | .name n => look x = some n
  | .star => ∃ n, look x = some n
  | .dstar => False
  | .oneOf subs => ∃ s ∈ subs, match s with
    | .name n => look x = some n
    | .fn f => f x = true

/-- The stages can be laid along the path; '**' covers any number of elements, also none. -/
inductive Lays : List (Stage α) → List α → Prop
  | nil : Lays [] []
  | one {s p x xs} : s.Accepts look x → Lays p xs → Lays (s :: p) (x :: xs)
  | skip {p xs} : Lays p xs → Lays (.dstar :: p) xs
  | more {p n x xs} : look x = some n → Lays (.dstar :: p) xs → Lays (.dstar :: p) (x :: xs)

/-- The path matches, and no shorter path on the way does. -/
def Outermost (p : List (Stage α)) (xs : List α) : Prop :=
  Lays look p xs ∧ ∀ ys, ys <+: xs → ys ≠ xs → ¬ Lays look p ys

/-- How the stages are laid along the path if every '**' ends at the first element that the stage after it
accepts: what is done in place of `Lays`.  Several '**' in a row are as one. -/
inductive LaysFirst : List (Stage α) → List α → Prop
  | nil : LaysFirst [] []
  | one {s p x xs} : s.Accepts look x → LaysFirst p xs → LaysFirst (s :: p) (x :: xs)
  | upto {s p u x xs} : s ≠ .dstar → (∀ y ∈ u, ¬ s.Accepts look y) → s.Accepts look x → LaysFirst p xs →
      LaysFirst (.dstar :: s :: p) (u ++ x :: xs)
  | again {p xs} : LaysFirst (.dstar :: p) xs → LaysFirst (.dstar :: .dstar :: p) xs

/-- No '**' in the pattern. -/
def NoDstar (p : List (Stage α)) : Prop := ∀ s ∈ p, s ≠ .dstar

mutual
  /-- After a '**' there is another stage, and every later stage that does not directly follow a '**' is '*'
  or '**'. -/
  def Safe : List (Stage α) → Prop
    | [] => True
    | .dstar :: r => SafeAfter r
    | _ :: r => Safe r
  /-- Directly after a '**'. -/
  def SafeAfter : List (Stage α) → Prop
    | [] => False
    | .dstar :: r => SafeAfter r
    | _ :: r => SafeRest r
  /-- Later. -/
  def SafeRest : List (Stage α) → Prop
    | [] => True
    | .star :: r => SafeRest r
    | .dstar :: r => SafeAfter r
    | _ :: _ => False
end

/-- A state that can be called without a TypeError: not the matched one, and '**' is not last. -/
def Callable : List (Stage α) → Prop
  | [] => False
  | [s] => s ≠ .dstar
  | _ :: r => Callable r

end Amara
