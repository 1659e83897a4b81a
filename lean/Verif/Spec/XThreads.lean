import Verif.Model.XThreads
import Verif.Spec.XTokens
/-
Specification: schedules of calls of `uxpath.parse`.
-/
namespace Amara.X

variable {F : Type}

/-- Any schedule. -/
inductive XSteps (fo : FloatOps F) : XWorld F → XWorld F → Prop
  | refl {w} : XSteps fo w w
  | step {w w'} (k : Nat) : XSteps fo w w' → XSteps fo w (w'.step fo k)

/-- Schedules that run no other call than `k`. -/
inductive XAlone (fo : FloatOps F) (k : Nat) : XWorld F → XWorld F → Prop
  | refl {w} : XAlone fo k w w
  | step {w w'} : XAlone fo k w w' → XAlone fo k w (w'.step fo k)

/-- Schedules in which a call that reads tokens is not interrupted by another one that does: only calls that have ended or
not begun may be changed over to. -/
inductive XSerial (fo : FloatOps F) : XWorld F → XWorld F → Prop
  | refl {w} : XSerial fo w w
  | call {w w' w'' : XWorld F} (k : Nat) {c c' : PCall F} {r} : XSerial fo w w' → w'.calls[k]? = some c → c.phase = .fresh →
      XAlone fo k w' w'' → w''.calls[k]? = some c' → c'.phase = .done r → XSerial fo w w''

/-- How a call has ended. -/
def EndedWith (w : XWorld F) (k : Nat) (r : Except XErr (Expr F)) : Prop :=
  ∃ c, w.calls[k]? = some c ∧ c.phase = .done r

/-- The token is written somewhere in one of the texts. -/
def WrittenIn (fo : FloatOps F) (texts : List Str) (t : Tok F) : Prop :=
  ∃ s ∈ texts, ∃ u v x, s = u ++ v ++ x ∧ SpellsTok fo t v

end Amara.X
