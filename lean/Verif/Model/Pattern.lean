import Verif.Model.Node
/-
The element patterns of `pylib/uxml/treeutil.py` 84-138 and `pylib/uxml/treeiter.py` 66-111: both modules
compile a tuple of stages, from the end backwards, into nested closures.  A closure is determined by the
stages it still has to see, so a state is a list of stages; `MATCHED_STATE` is the empty list.
-/
namespace Amara

/-- A member of a tuple stage: a name or a function called with what is being matched (a node for
`treeutil`, an event for `treeiter`). -/
inductive Sub (α : Type) where
  | name (n : Str)
  | fn (f : α → Bool)

/-- A stage of a pattern. -/
inductive Stage (α : Type) where
  | name (n : Str)
  | star
  | dstar
  | oneOf (subs : List (Sub α))

/-- What a state returns when called: None, the next state, or a TypeError because `MATCHED_STATE` (a plain
object) was called. -/
inductive PatRes (α : Type) where
  | none
  | to (st : List (Stage α))
  | typeError

/-- A member of a tuple stage as a test.  `look x` is the name of `x` if `x` is an element (a start-element
event), else `none`. -/
def Sub.test {α} (look : α → Option Str) (x : α) : Sub α → Bool
  | .name n => look x == some n
  | .fn f => f x

/-- Calling a state.  `name`: `name_test`, `uxml/treeutil.py` 94-98, `_only_name`, `uxml/treeiter.py` 66-70.
`star`: `elem_test`, 100-104, `_any_name`, 72-76.  `dstar`: `any_until`, 106-113, `_any_until`, 78-85.
`oneOf`: `any_`, 115-119, `_any`, 87-91 (the members are called whatever the node is). -/
def patStep {α} (look : α → Option Str) : List (Stage α) → α → PatRes α
  | [], _ => .typeError
  | .name n :: r, x => if look x = some n then .to r else .none
  | .star :: r, x => if (look x).isSome then .to r else .none
  | .oneOf fs :: r, x => if fs.any (Sub.test look x) then .to r else .none
  | .dstar :: r, x =>
    if (look x).isSome then
      match patStep look r x with
      | .none => .to (.dstar :: r)
      | .to s => .to s
      | .typeError => .typeError
    else .to (.dstar :: r)

end Amara
