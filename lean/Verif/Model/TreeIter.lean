import Verif.Model.Heap
import Verif.Model.Pattern
import Verif.Model.Expat
/-
`treeiter.sender`, `pylib/uxml/treeiter.py` 17-170: sends a sink the subtrees that match a pattern.

Simplifications.  The subtree being built is kept as the list of its open elements with their children so far
(innermost first), without object identities: the memory behaviour of the same assignments is the subject of
`Model/Heap`.  Sinks are coroutines that neither end nor raise; what a sink may do to the element it receives is
attach it to an element of its own, which then stays alive.  Patterns are given as a list of patterns, as many
as there are sinks, each a list of stages (a stage that is neither a string nor a tuple, a ValueError, is not
modelled).
-/
namespace Amara

/-- The name in a start-element event, `ev[0] == event.start_element`. -/
def Event.look : Event → Option Str
  | .start n _ _ => some n
  | _ => none

/-- An open element: name, attributes, children so far. -/
abbrev OpenElem := Str × Attrs × List Node

/-- What the sender keeps for one pattern: `_building_depths[ix]` and `_parents[ix]`, `uxml/treeiter.py` 54, 57:
the open elements of the subtree being built, and the element outside it (if any) that its top was created
under. -/
structure Building where
  depth : Nat
  open_ : List OpenElem
  base : Option Id
deriving DecidableEq

/-- The sender: the event stack, one list shared by all patterns because of `[[]] * n` (56), and for each
pattern its first state (`_stateses[ix]`) and what it is building. -/
structure Sender where
  stack : List Event
  pats : List (List (Stage Event) × Building)

/-- What can be observed: a subtree is sent to sink `ix`, or a new element of pattern `ix` is appended to the
children of an element `f` that does not belong to the subtree. -/
inductive SOut where
  | send (ix : Nat) (x : Node)
  | stray (ix : Nat) (f : Id)
deriving DecidableEq

/-- `_prep_patterns`, `uxml/treeiter.py` 93-111: `next_state` is not reset from one pattern to the next, so
the first state of each pattern goes on with the states of the pattern before it. -/
def prepPatterns : List (Stage Event) → List (List (Stage Event)) → List (List (Stage Event))
  | _, [] => []
  | prev, p :: r => (p ++ prev) :: prepPatterns (p ++ prev) r

/-- Nothing being built. -/
def Building.idle : Building := ⟨0, [], none⟩

/-- `sender(patterns, sinks)`, `uxml/treeiter.py` 33-64. -/
def newSender (patterns : List (List (Stage Event))) : Sender :=
  ⟨[], (prepPatterns [] patterns).map fun st => (st, .idle)⟩

/-- `_match_state(ix)`, `uxml/treeiter.py` 113-121; `none` is a TypeError. -/
def matchState (st : List (Stage Event)) : List Event → Option Bool
  | [] => some false
  | ev :: r =>
    match patStep Event.look st ev with
    | .to [] => some true
    | .to st' => matchState st' r
    | .none => some false
    | .typeError => none

/-- A new element inside the innermost open one, `uxml/treeiter.py` 138-146. -/
def Building.push (b : Building) (n : Str) (as : Attrs) : Building :=
  { b with depth := b.depth + 1, open_ := (n, as, []) :: b.open_ }

/-- A child of the innermost open element. -/
def addChild (x : Node) : List OpenElem → List OpenElem
  | (n, as, ts) :: r => (n, as, ts ++ [x]) :: r
  | [] => []

/-- The body of the loop over the patterns in `_handler`, `uxml/treeiter.py` 126-160, for pattern `ix`: what
can be observed, and the new event stack and building state, or `none` for an exception.  `moved` is the
element the sink attaches what it receives to, if it does. -/
def handleOne (st : List (Stage Event)) (ix : Nat) (moved : Option Id) (stack : List Event) (b : Building) :
    Event → List SOut × Option (List Event × Building)
  | .start n as anc =>
    let stack := stack ++ [.start n as anc]
    if b.depth > 0 then ([], some (stack, b.push n as))
    else
      match matchState st stack with
      | none => ([], none)
      | some false => ([], some (stack, b))
      | some true => ((b.base.map (SOut.stray ix)).toList, some (stack, b.push n as))
  | .chars s =>
    if b.depth > 0 then ([], some (stack, { b with open_ := addChild (.text s) b.open_ }))
    else ([], some (stack, b))
  | .stop _ _ =>
    if stack = [] then ([], none)
    else
      let stack := stack.dropLast
      match b.depth, b.open_ with
      | d + 1, (m, as, ts) :: r =>
        if d = 0 then ([.send ix (.elem m as ts)], some (stack, ⟨0, r, moved.or b.base⟩))
        else ([], some (stack, { b with depth := d, open_ := addChild (.elem m as ts) r }))
      | _, _ => ([], some (stack, b))

/-- The loop over the patterns, `uxml/treeiter.py` 126-160; `moves` tells what the sinks do. -/
def handlePats (moves : Nat → Option Id) (ev : Event) : Nat → List Event → List (List (Stage Event) × Building) →
    List SOut × Option (List Event × List (List (Stage Event) × Building))
  | _, stack, [] => ([], some (stack, []))
  | ix, stack, (st, b) :: r =>
    match handleOne st ix (moves ix) stack b ev with
    | (o, none) => (o, none)
    | (o, some (stack', b')) =>
      match handlePats moves ev (ix + 1) stack' r with
      | (o', none) => (o ++ o', none)
      | (o', some (stack'', r')) => (o ++ o', some (stack'', (st, b') :: r'))

/-- One event, `uxml/treeiter.py` 124-160. -/
def Sender.handle (s : Sender) (moves : Nat → Option Id) (ev : Event) : List SOut × Option Sender :=
  match handlePats moves ev 0 s.stack s.pats with
  | (o, some (stack, pats)) => (o, some ⟨stack, pats⟩)
  | (o, none) => (o, none)

/-- A sequence of events, each with what the sinks do while it is handled: what can be observed for each event
(up to an exception). -/
def Sender.run (s : Sender) : List (Event × (Nat → Option Id)) → List (List SOut) × Option Sender
  | [] => ([], some s)
  | (ev, mv) :: r =>
    match s.handle mv ev with
    | (o, none) => ([o], none)
    | (o, some s') =>
      let x := s'.run r
      (o :: x.1, x.2)

/-- `parse(doc)`, `uxml/treeiter.py` 165-170, when no sink attaches anything: what can be observed for each
event, and the sender if the parser and the handler raise nothing. -/
def Sender.parse (s : Sender) (doc : Str) : List (List SOut) × Option Sender :=
  match s.run ((drive doc).1.map fun ev => (ev, fun _ => none)) with
  | (o, none) => (o, none)
  | (o, some s') => (o, if (drive doc).2 = .returned then some s' else none)

/-- `xmliter.sender.parse(source)` on a new expat parser, `uxml/xmliter.py` 37-54, when expat makes the
callbacks `cbs` and reports no error and no sink attaches anything. -/
def Sender.xmlParse (s : Sender) (cbs : List XCall) : List (List SOut) × Option Sender :=
  match s.run ((expatEvents [] cbs).1.map fun ev => (ev, fun _ => none)) with
  | (o, none) => (o, none)
  | (o, some s') => (o, if (expatEvents [] cbs).2 then none else some s')

end Amara
