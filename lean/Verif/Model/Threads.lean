import Verif.Model.Heap
/-
Calls of `treebuilder.parse` in several threads that share one memory: `pylib/uxml/tree.py` 206-254 and
`pylib/uxml/__init__.py` 16-17.  Every assignment of a call is one step and the scheduler may switch after each.
-/
namespace Amara

/-- A tree builder object: `_root` and `_parent`, `uxml/tree.py` 207-209. -/
structure BuilderObj where
  root : Option Id
  parent : Option Id
deriving DecidableEq, Repr

/-- The assignments of a call of `treebuilder.parse`, `uxml/tree.py` 230-238: resetting `_root` (232) and `_parent`
(233), making the handler (234), the assignments of the handler (235-237), and leaving, with the result or the
exception of the parser (238). The parser is made by the call (235) and is shared with no other, so what it does
between the assignments of the handler is not seen by other calls and is left out. -/
inductive CallOp where
  | clearRoot
  | clearParent
  | newHandler
  | handle (o : Op)
  | finish (r : SendRes)
deriving DecidableEq, Repr

/-- What `treebuilder.parse(doc)` does, `uxml/tree.py` 230-238. -/
def parseOps (doc : Str) : List CallOp :=
  [.clearRoot, .clearParent, .newHandler] ++ ((drive doc).1.flatMap Event.ops).map .handle ++ [.finish (drive doc).2]

/-- A call of `treebuilder.parse`: the builder it is a method of, the local variables of its handler
(`uxml/tree.py` 215, 223), what it has still to do, and, once it has ended, how. -/
structure ParseCall where
  self : Nat
  newElement : Option Id
  newText : Option Id
  todo : List CallOp
  result : Option ParseRes

/-- Memory, the builder objects, those held by a module (`TB`, `uxml/__init__.py` 16), and the calls, each made by
some thread. -/
structure World where
  heap : Heap
  objs : Nat → BuilderObj
  held : List Nat
  calls : List ParseCall

/-- What a call sees. -/
def World.view (w : World) (c : ParseCall) : Builder :=
  ⟨w.heap, (w.objs c.self).root, (w.objs c.self).parent, c.newElement, c.newText⟩

/-- One assignment of a call, `uxml/tree.py` 230-238. -/
def CallOp.exec (b : Builder) : CallOp → Builder
  | .clearRoot => { b with root := none }                                  -- 232
  | .clearParent => { b with parent := none }                              -- 233
  | .newHandler => { b with newElement := none, newText := none }          -- 234
  | .handle o => o.exec b                                                  -- 235-237
  | .finish _ => { b with newElement := none, newText := none }            -- 238

/-- How the call ends with this step, `uxml/tree.py` 238: `return self._root`, or the exception of the parser. -/
def CallOp.outcome (b : Builder) : CallOp → Option ParseRes
  | .finish .returned => some (.returned b.root)
  | .finish (.raised e) => some (.raised e)
  | .finish .stopIteration => some .stopIteration
  | .finish .never => some .never
  | _ => none

/-- Call number `k` makes its next assignment. -/
def World.step (w : World) (k : Nat) : World :=
  match w.calls[k]? with
  | some c =>
    match c.todo with
    | o :: rest =>
      let b := o.exec (w.view c)
      { w with
        heap := b.heap
        objs := fun j => if j = c.self then ⟨b.root, b.parent⟩ else w.objs j
        calls := w.calls.set k
          { c with newElement := b.newElement, newText := b.newText, todo := rest, result := o.outcome (w.view c) } }
    | [] => w
  | none => w

/-- What a call keeps alive: while it runs, what its builder and its handler refer to; afterwards its result. -/
def ParseCall.roots (w : World) (c : ParseCall) : List Id :=
  match c.result with
  | none => (w.view c).roots
  | some (.returned r) => r.toList
  | some _ => []

/-- Everything referred to strongly. -/
def World.roots (w : World) : List Id :=
  w.held.flatMap (fun j => (w.objs j).root.toList ++ (w.objs j).parent.toList) ++ w.calls.flatMap (ParseCall.roots w)

/-- The scheduler lets some call make its next assignment, or the collector runs. -/
inductive Step : World → World → Prop
  | call {w} (k : Nat) : Step w (w.step k)
  | collect {w h} : Collected w.roots w.heap h → Step w { w with heap := h }

/-- Any number of steps. -/
inductive Steps : World → World → Prop
  | refl {w} : Steps w w
  | tail {w w1 w2} : Steps w w1 → Step w1 w2 → Steps w w2

/-- A call that has not begun. -/
def ParseCall.new (self : Nat) (doc : Str) : ParseCall := ⟨self, none, none, parseOps doc, none⟩

/-- `amara3.uxml.tree.parse(doc)`, `uxml/tree.py` 253-254, for each of the texts: every call makes its own builder. -/
def World.ofTreeParse (h : Heap) (docs : List Str) : World :=
  ⟨h, fun _ => ⟨none, none⟩, [], docs.mapIdx fun k doc => ParseCall.new k doc⟩

/-- `amara3.uxml.parse(doc)`, `uxml/__init__.py` 16-17, for each of the texts: the method of the one builder `TB`,
which is in some state. -/
def World.ofUxmlParse (h : Heap) (tb : BuilderObj) (docs : List Str) : World :=
  ⟨h, fun _ => tb, [0], docs.map fun doc => ParseCall.new 0 doc⟩

end Amara
