import Verif.Model.SenderMem
/-
`treeiter.sender` with several patterns in memory: the loop over the patterns in `_handler`, `pylib/uxml/treeiter.py` 123-163,
one assignment at a time, with the garbage collector and the rest of the program at work in between.

Simplifications: sinks neither end nor raise; the local variables `ev`, `evstack` and `building_depth` refer to no nodes; the
local variable `parent` and `self._parents[ix]` are assigned together (128, 142, 160).
-/
namespace Amara

/-- The sender's references to nodes: `_roots`, `_parents` (`uxml/treeiter.py` 53-54), one of each for every pattern, and the
local variables `new_element`, `new_text` of the handler, which all patterns share; and what the sinks have been sent so far,
in the order of the calls, with memory as it was then. -/
structure MMem where
  heap : Heap
  roots : Nat → Option Id
  parents : Nat → Option Id
  newElement : Option Id
  newText : Option Id
  sent : List (Nat × Id × Heap)

/-- What the body of the loop works with for pattern `ix`, `uxml/treeiter.py` 126-128. -/
def MMem.turn (s : MMem) (ix : Nat) : SMem := ⟨⟨s.heap, s.roots ix, s.parents ix, s.newElement, s.newText⟩, []⟩

/-- One assignment in the body of the loop for pattern `ix`, `uxml/treeiter.py` 138-160 (see `SOp`). -/
def MMem.exec (s : MMem) (ix : Nat) (o : SOp) : MMem :=
  let r := o.exec (s.turn ix)
  { heap := r.mem.heap
    roots := fun j => if j = ix then r.mem.root else s.roots j
    parents := fun j => if j = ix then r.mem.parent else s.parents j
    newElement := r.mem.newElement
    newText := r.mem.newText
    sent := s.sent ++ r.sent.map (ix, ·) }

/-- The nodes that are referred to: by a sender with `n` patterns, and by the sinks if they keep what they are sent. -/
def MMem.refs (n : Nat) (keep : Bool) (s : MMem) : List Id :=
  s.newElement.toList ++ s.newText.toList ++ (List.range n).flatMap (fun j => (s.roots j).toList ++ (s.parents j).toList) ++
    if keep then s.sent.map (·.2.1) else []

/-- Executions of the assignments for pattern `ix`, with something else happening at any point in between. -/
inductive MRuns (D : List Id → Heap → Heap → Prop) (n : Nat) (keep : Bool) (ix : Nat) : List SOp → MMem → MMem → Prop
  | done {s} : MRuns D n keep ix [] s s
  | other {ops s h s'} : D (s.refs n keep) s.heap h → MRuns D n keep ix ops { s with heap := h } s' →
      MRuns D n keep ix ops s s'
  | op {o ops s s'} : MRuns D n keep ix ops (s.exec ix o) s' → MRuns D n keep ix (o :: ops) s s'

/-- The first states and building depths of the patterns, `uxml/treeiter.py` 55, 57. -/
abbrev Depths := List (List (Stage Event) × Nat)

/-- The loop over the patterns for one event, from pattern `ix` on, `uxml/treeiter.py` 126-160: all executions. The event
stack is one list, shared by all patterns (56). `none`: it raised. -/
inductive PatternLoop (D : List Id → Heap → Heap → Prop) (n : Nat) (keep : Bool) (ev : Event) :
    Nat → List Event → Depths → MMem → MMem → Option (List Event × Depths) → Prop
  | done {ix stack s} : PatternLoop D n keep ev ix stack [] s s (some (stack, []))
  | raise {ix stack st d r s} : senderOps st (stack, d) ev = none → PatternLoop D n keep ev ix stack ((st, d) :: r) s s none
  | next {ix stack st d r s ops stack' d' s₁ s' res} : senderOps st (stack, d) ev = some (ops, (stack', d')) →
      MRuns D n keep ix ops s s₁ → PatternLoop D n keep ev (ix + 1) stack' r s₁ s' res →
      PatternLoop D n keep ev ix stack ((st, d) :: r) s s' (res.map fun x => (x.1, (st, d') :: x.2))

/-- The sender handles events, `uxml/treeiter.py` 123-163: all executions. -/
inductive SendersRun (D : List Id → Heap → Heap → Prop) (n : Nat) (keep : Bool) :
    List Event × Depths → List Event → MMem → MMem → Option (List Event × Depths) → Prop
  | done {c s s'} : MRuns D n keep 0 [] s s' → SendersRun D n keep c [] s s' (some c)
  | event {c ev evs s s₁ s' c' res} : PatternLoop D n keep ev 0 c.1 c.2 s s₁ (some c') →
      SendersRun D n keep c' evs s₁ s' res → SendersRun D n keep c (ev :: evs) s s' res
  | raise {c ev evs s s'} : PatternLoop D n keep ev 0 c.1 c.2 s s' none → SendersRun D n keep c (ev :: evs) s s' none

/-- A new sender, `uxml/treeiter.py` 53-57: no nodes yet. -/
def MMem.new (h : Heap) : MMem := ⟨h, fun _ => none, fun _ => none, none, none, []⟩

/-- Its event stack and building depths, `uxml/treeiter.py` 55-57, 93-111. -/
def newDepths (patterns : List (List (Stage Event))) : List Event × Depths := ([], (prepPatterns [] patterns).map fun st => (st, 0))

end Amara
