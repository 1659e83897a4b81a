import Verif.Model.TreeIter
/-
`treeiter.sender` with sinks that may end or raise: `pylib/uxml/treeiter.py` 123-170.

A sink is a coroutine, or an object with a `send` method of its own (`__init__` only primes what is iterable); what it does
with an element may depend on all it has received so far.  The exceptions of the
sender itself (a pattern it cannot call, an end event too many) and of the parser leave no sender, as in
`Model/TreeIter`.  Sinks attach nothing to trees of their own here.
-/
namespace Amara

/-- What a sink does with an element: wait for the next one, return, raise (and be over, as coroutines then are), or
refuse it: raise, and be ready for another one (an object that is not a coroutine). -/
inductive SinkDoes where
  | waits | returns | raises | refuses
deriving DecidableEq, Repr

/-- What comes out of `_handler`: the StopIteration of a sink that has returned becomes a RuntimeError, because it
passes through a generator (PEP 479); another exception of the sink stays what it is. -/
inductive SinkExn where
  | runtime | own
deriving DecidableEq, Repr

/-- The sinks: what each has received, and whether it is over. -/
structure Sinks where
  got : Nat → List Node
  over : Nat → Bool

/-- `self._sinks[ix].send(parent)`, `uxml/treeiter.py` 157; a coroutine that is over raises StopIteration and receives
nothing. -/
def Sinks.send (does : Nat → List Node → SinkDoes) (k : Sinks) (ix : Nat) (x : Node) : Sinks × Option SinkExn :=
  if k.over ix then (k, some .runtime)
  else
    let got : Nat → List Node := fun j => if j = ix then k.got ix ++ [x] else k.got j
    let over : Nat → Bool := fun j => if j = ix then true else k.over j
    match does ix (k.got ix ++ [x]) with
    | .waits => (⟨got, k.over⟩, none)
    | .returns => (⟨got, over⟩, some .runtime)
    | .raises => (⟨got, over⟩, some .own)
    | .refuses => (⟨got, k.over⟩, some .own)

/-- The body of the loop over the patterns, `uxml/treeiter.py` 126-160.  If the sink raises (157) the depth is already
stored (154) and the event stack popped (151), but `_parents[ix]` (160) is still the element that was sent, here called
`self`. -/
def handleOneS (does : Nat → List Node → SinkDoes) (st : List (Stage Event)) (ix : Nat) (self : Id) (stack : List Event)
    (b : Building) (ev : Event) (k : Sinks) : List SOut × Sinks × Option ((List Event × Building) × Option SinkExn) :=
  match handleOne st ix none stack b ev with
  | (o, none) => (o, k, none)
  | ([.send _ x], some (stack', b')) =>
    match k.send does ix x with
    | (k', none) => ([.send ix x], k', some ((stack', b'), none))
    | (k', some e) => ([.send ix x], k', some ((stack', { b' with base := some self }), some e))
  | (o, some (stack', b')) => (o, k, some ((stack', b'), none))

/-- The loop over the patterns, `uxml/treeiter.py` 126-160: an exception leaves the patterns after it as they were. -/
def handlePatsS (does : Nat → List Node → SinkDoes) (self : Id) (ev : Event) : Nat → List Event →
    List (List (Stage Event) × Building) → Sinks →
    List SOut × Sinks × Option ((List Event × List (List (Stage Event) × Building)) × Option SinkExn)
  | _, stack, [], k => ([], k, some ((stack, []), none))
  | ix, stack, (st, b) :: r, k =>
    match handleOneS does st ix self stack b ev k with
    | (o, k', none) => (o, k', none)
    | (o, k', some ((stack', b'), some e)) => (o, k', some ((stack', (st, b') :: r), some e))
    | (o, k', some ((stack', b'), none)) =>
      match handlePatsS does self ev (ix + 1) stack' r k' with
      | (o', k'', none) => (o ++ o', k'', none)
      | (o', k'', some ((stack'', r'), e)) => (o ++ o', k'', some ((stack'', (st, b') :: r'), e))

/-- How it went: what was sent or attached, the sinks, the sender (if it and the parser raised nothing themselves), and
the exception that came from a sink. -/
structure SinkRun where
  outs : List SOut
  sinks : Sinks
  sender : Option Sender
  exn : Option SinkExn

/-- A sequence of events, up to an exception. -/
def Sender.runS (does : Nat → List Node → SinkDoes) (self : Id) (s : Sender) (k : Sinks) : List Event → SinkRun
  | [] => ⟨[], k, some s, none⟩
  | ev :: r =>
    match handlePatsS does self ev 0 s.stack s.pats k with
    | (o, k', none) => ⟨o, k', none, none⟩
    | (o, k', some ((stack, pats), some e)) => ⟨o, k', some ⟨stack, pats⟩, some e⟩
    | (o, k', some ((stack, pats), none)) =>
      let x := Sender.runS does self ⟨stack, pats⟩ k' r
      ⟨o ++ x.outs, x.sinks, x.sender, x.exn⟩

/-- `parse(doc)`, `uxml/treeiter.py` 165-170: an exception of the handler comes out of `p.send`. -/
def Sender.parseS (does : Nat → List Node → SinkDoes) (self : Id) (s : Sender) (k : Sinks) (doc : Str) : SinkRun :=
  let x := Sender.runS does self s k (drive doc).1
  if x.exn = none ∧ (drive doc).2 ≠ .returned then { x with sender := none } else x

/-- Sinks just started (`uxml/treeiter.py` 58-62). -/
def Sinks.new : Sinks := ⟨fun _ => [], fun _ => false⟩

end Amara
