import Verif.Model.Handlers
/-
Specification for handlers that end.
-/
namespace Amara

/-- The handler, sent these events one after the other, goes on after each of them. -/
def TakesAll (does : List (Option Event) → HandlerDoes) (seen : List (Option Event)) (evs : List Event) : Prop :=
  ∀ k, k < evs.length → does (seen ++ (evs.take (k + 1)).map some) = .takes

/-- The handler goes on after each of the first `k` events and ends at the next one, by returning or by raising. -/
def EndsAt (does : List (Option Event) → HandlerDoes) (seen : List (Option Event)) (evs : List Event) (k : Nat)
    (how : HandlerDoes) : Prop :=
  k < evs.length ∧ TakesAll does seen (evs.take k) ∧ does (seen ++ (evs.take (k + 1)).map some) = how ∧ how ≠ .takes

/-- A handler that ends by returning once it has got `n` events, whatever they are. -/
def wants (n : Nat) (seen : List (Option Event)) : HandlerDoes :=
  if (seen.filterMap id).length < n then .takes else .returns

end Amara
