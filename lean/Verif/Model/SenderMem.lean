import Verif.Model.TreeIter
import Verif.Model.Heap
/-
`treeiter.sender` in memory: the assignments of `_handler`, `pylib/uxml/treeiter.py` 123-163, one at a time, with the
garbage collector and the rest of the program at work in between.

Simplifications: one pattern and one sink, which neither ends nor raises; the local variables `ev`, `evstack` and
`building_depth` refer to no nodes; the local variable `parent` and `self._parents[0]` are assigned together (128, 142, 160).
-/
namespace Amara

/-- The sender's references to nodes: `_roots[0]`, `_parents[0]` (`uxml/treeiter.py` 53-54) and the local variables
`new_element`, `new_text` of the handler; and what the sink has been sent so far, with memory as it was then. -/
structure SMem where
  mem : Builder
  sent : List (Id × Heap)

/-- The assignments: those of the tree builder (see `Op`) that are the same here, and two that differ. -/
inductive SOp where
  | make (n : Str) (as : Attrs)   -- 138
  | link                          -- 141
  | down                          -- 142
  | setRoot                       -- 145
  | makeText (s : Str)            -- 148
  | linkText                      -- 149
  | send                          -- 157
  | up                            -- 159-160

/-- One assignment. -/
def SOp.exec (s : SMem) : SOp → SMem
  | .make n as => { s with mem := Op.exec s.mem (.makeElement n as) }
  | .link => { s with mem := Op.exec s.mem .linkElement }
  | .down => { s with mem := Op.exec s.mem .moveDown }
  | .setRoot => { s with mem := { s.mem with root := s.mem.newElement } }
  | .makeText t => { s with mem := Op.exec s.mem (.makeText t) }
  | .linkText => { s with mem := Op.exec s.mem .linkText }
  | .send =>
    match s.mem.parent with
    | some p => { s with sent := s.sent ++ [(p, s.mem.heap)] }
    | none => s
  | .up => { s with mem := Op.exec s.mem .moveUp }

/-- Event stack and building depth, `uxml/treeiter.py` 56-57, with one pattern. -/
abbrev SControl := List Event × Nat

/-- What the handler does for an event, `uxml/treeiter.py` 127-160: the assignments to nodes, and the new event stack and
depth; `none` for an exception. -/
def senderOps (st : List (Stage Event)) : SControl → Event → Option (List SOp × SControl)
  | (stack, depth), .start n as anc =>
    let stack := stack ++ [.start n as anc]
    if depth > 0 then some ([.make n as, .link, .down], (stack, depth + 1))
    else
      match matchState st stack with
      | none => none
      | some false => some ([], (stack, depth))
      | some true => some ([.make n as, .link, .down, .setRoot], (stack, 1))
  | (stack, depth), .chars s =>
    if depth > 0 then some ([.makeText s, .linkText], (stack, depth)) else some ([], (stack, depth))
  | (stack, depth), .stop _ _ =>
    if stack = [] then none
    else
      match depth with
      | 0 => some ([], (stack.dropLast, 0))
      | 1 => some ([.send, .up], (stack.dropLast, 0))
      | d + 1 => some ([.up], (stack.dropLast, d))

/-- The nodes that are referred to: by the sender, and by the sink if it keeps what it is sent. -/
def SMem.roots (keep : Bool) (s : SMem) : List Id :=
  s.mem.roots ++ if keep then s.sent.map (·.1) else []

/-- Executions of a list of assignments, with something else happening at any point in between. -/
inductive SRuns (D : List Id → Heap → Heap → Prop) (keep : Bool) : List SOp → SMem → SMem → Prop
  | done {s} : SRuns D keep [] s s
  | other {ops s h s'} : D (s.roots keep) s.mem.heap h → SRuns D keep ops { s with mem := { s.mem with heap := h } } s' →
      SRuns D keep ops s s'
  | op {o ops s s'} : SRuns D keep ops (o.exec s) s' → SRuns D keep (o :: ops) s s'

/-- The sender handles events: all executions. `none`: an event raised. -/
inductive SenderRun (D : List Id → Heap → Heap → Prop) (keep : Bool) (st : List (Stage Event)) :
    SControl → List Event → SMem → SMem → Option SControl → Prop
  | done {c s s'} : SRuns D keep [] s s' → SenderRun D keep st c [] s s' (some c)
  | event {c ev evs ops c' s s₁ s' r} : senderOps st c ev = some (ops, c') → SRuns D keep ops s s₁ →
      SenderRun D keep st c' evs s₁ s' r → SenderRun D keep st c (ev :: evs) s s' r
  | raise {c ev evs s} : senderOps st c ev = none → SenderRun D keep st c (ev :: evs) s s none

/-- A new sender, `uxml/treeiter.py` 53-57: no nodes yet. -/
def SMem.new (h : Heap) : SMem := ⟨Builder.new h, []⟩

end Amara
