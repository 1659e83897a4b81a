import Verif.Model.TreeIter
import Verif.Spec.Path
import Verif.Spec.Pattern
import Verif.Spec.MicroXml
/-
Specification for the tree sender.
-/
namespace Amara

mutual
  /-- The events of a node at position `p`, each end event marked with the position and the element it
  ends. -/
  def Node.marks (p : Path) (anc : List Str) : Node → List (Event × Option (Path × Node))
    | .elem n as cs => (.start n as anc, none) ::
        (Node.marksList p 0 (anc ++ [n]) cs ++ [(.stop n anc, some (p, .elem n as cs))])
    | .text s => [(.chars s, none)]
  def Node.marksList (p : Path) (i : Nat) (anc : List Str) : List Node → List (Event × Option (Path × Node))
    | [] => []
    | x :: r => Node.marks (p ++ [i]) anc x ++ Node.marksList p (i + 1) anc r
end

/-- The start events of the elements from the node down to a position, both included. -/
def Node.opened (anc : List Str) : Node → Path → Option (List Event)
  | .elem n as _, [] => some [.start n as anc]
  | .elem n as cs, i :: p =>
    match cs[i]? with
    | some y => (Node.opened (anc ++ [n]) y p).map (Event.start n as anc :: ·)
    | none => none
  | .text _, _ => none

/-- With each event exactly this is sent: at the end of an element at a position satisfying `F` that element,
otherwise nothing. -/
inductive Delivers (F : Path → Prop) : List (Event × Option (Path × Node)) → List (List Node) → Prop
  | nil : Delivers F [] []
  | inside {ev ms os} : Delivers F ms os → Delivers F ((ev, none) :: ms) ([] :: os)
  | match_ {ev q x ms os} : F q → Delivers F ms os → Delivers F ((ev, some (q, x)) :: ms) ([x] :: os)
  | other {ev q x ms os} : ¬ F q → Delivers F ms os → Delivers F ((ev, some (q, x)) :: ms) ([] :: os)

/-- What is sent to sink `k`. -/
def sentTo (k : Nat) (os : List SOut) : List Node :=
  os.filterMap fun o => match o with
    | .send j x => if j = k then some x else none
    | .stray _ _ => none

/-- What is appended to elements outside the subtrees. -/
def strays (os : List SOut) : List (Nat × Id) :=
  os.filterMap fun o => match o with
    | .send _ _ => none
    | .stray j f => some (j, f)

/-- The stages that sink number `k` goes by: those of its own pattern, then those of the pattern before it, and so on back
to the first. -/
def GoesBy (pats : List (List (Stage Event))) (k : Nat) (st : List (Stage Event)) : Prop :=
  k < pats.length ∧ st = (pats.take (k + 1)).reverse.flatten

/-- The path as pattern number `k` of `n` sees it: every element `n` times, the last one `k + 1` times. -/
def stretched (n k : Nat) : List Event → List Event
  | [] => []
  | [x] => List.replicate (k + 1) x
  | x :: xs => List.replicate n x ++ stretched n k xs

/-- The events without anything done by the sinks. -/
def quiet (evs : List Event) : List (Event × (Nat → Option Id)) := evs.map fun ev => (ev, fun _ => none)

/-- Only start-element events. -/
def AllStarts (t : List Event) : Prop := ∀ x ∈ t, ∃ n, Event.look x = some n

/-- A sequence matches, or begins with a part that does. -/
def Reaches (p : List (Stage Event)) (t : List Event) : Prop := ∃ zs, zs <+: t ∧ Lays Event.look p zs

/-- The same with every '**' laid up to the first fit. -/
def ReachesFirst (p : List (Stage Event)) (t : List Event) : Prop :=
  ∃ zs, zs <+: t ∧ LaysFirst Event.look p zs

/-- Documents parsed one after the other by one sender: what can be observed of each. -/
def Sender.parseAll (s : Sender) : List Str → List (List (List SOut)) × Option Sender
  | [] => ([], some s)
  | w :: r =>
    match s.parse w with
    | (o, none) => ([o], none)
    | (o, some s') => (o :: (s'.parseAll r).1, (s'.parseAll r).2)

end Amara
