import Verif.Spec.Down
import Verif.Model.MicroxRun
/-
Queries asked of the records of a stream, one after the other (C159).
-/
namespace Amara

variable {F : Type}

/-- The results of a query asked of one record after the other: all items in turn, up to the first exception. -/
def inTurn (f : Path × Node → Res F) : List (Path × Node) → Res F
  | [] => ⟨[], .done⟩
  | r :: rs => match f r with
    | ⟨xs, .done⟩ => ⟨xs ++ (inTurn f rs).items, (inTurn f rs).tail⟩
    | stopped => stopped

/-- The pattern `(n, m₁, …, mₖ)` given to a tree sender as a tuple of strings. -/
def stringPattern (names : List Str) : List (Stage Event) := names.map stageOf

end Amara
