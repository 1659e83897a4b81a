import Verif.Model.DocOrder
/-
Unions evaluated by several threads over one tree in memory, `pylib/uxml/uxpath/xast.py` 81-89 and 272-280.  The threads
share the node objects and with them the numbers.

Simplifications: those of `Model/DocOrder`; nobody changes the tree meanwhile; what the two sides yield is given.  The
scheduler may switch before each test, each assignment and each reading of a number.
-/
namespace Amara

/-- Where the evaluation of a union is. -/
inductive UPhase where
  /-- before `if not hasattr(ctx.item, '_docorder')`, `uxml/uxpath/xast.py` 274 -/
  | fresh
  /-- in `while node.xml_parent`, 83-84, at this node -/
  | climb (i : Id)
  /-- before `node._docorder = index`, 86, for the root node -/
  | atRoot
  /-- in `for node in descendants(node)`, 87, before the one child of the root -/
  | docElem
  /-- in the same loop, with the rest of the descendants and the index so far -/
  | number (g : DescGen) (k : Nat)
  /-- in `selected.sort(...)`, 279: the keys still to be read and those that have been -/
  | read (rest : List ONode) (got : List (Nat × ONode))
  /-- the nodes yielded, or none for AttributeError -/
  | done (res : Option (List ONode))

/-- The evaluation of `left | right` at a node: the node, what `left` and `right` yield, and where it is,
`uxml/uxpath/xast.py` 272-280. -/
structure UCall where
  ctx : ONode
  sel : List ONode
  phase : UPhase

/-- An evaluation that has not begun. -/
def UCall.new (ctx : ONode) (sel : List ONode) : UCall := ⟨ctx, sel, .fresh⟩

/-- Where `index_docorder` begins, `uxml/uxpath/xast.py` 81-84.  An attribute node's parent is its element. -/
def UPhase.start : ONode → UPhase
  | .root => .atRoot
  | .obj i => .climb i
  | .attr e => .climb e

/-- One step of an evaluation, `uxml/uxpath/xast.py` 81-89 and 272-280: the numbers and the evaluation after it.  `d` is
the document element. -/
def UCall.step (h : Heap) (d : Id) (m : Numbers) (c : UCall) : Numbers × UCall :=
  match c.phase with
  | .fresh => (m, ⟨c.ctx, c.sel, if (m.of c.ctx).isSome then .read c.sel [] else .start c.ctx⟩)
  | .climb i =>
    match h.xmlParent i with
    | some p => (m, ⟨c.ctx, c.sel, .climb p⟩)
    | none => (m.put i 0, ⟨c.ctx, c.sel, .number (descGen i) 0⟩)
  | .atRoot => (⟨some 0, m.obj⟩, ⟨c.ctx, c.sel, .docElem⟩)
  | .docElem => (m.put d 1, ⟨c.ctx, c.sel, .number (descGen d) 1⟩)
  | .number g k =>
    match descNext h g with
    | some (y, g') => (m.put y (k + 1), ⟨c.ctx, c.sel, .number g' (k + 1)⟩)
    | none => (m, ⟨c.ctx, c.sel, .read c.sel []⟩)
  | .read (x :: rest) got =>
    match m.of x with
    | some k => (m, ⟨c.ctx, c.sel, .read rest (got ++ [(k, x)])⟩)
    | none => (m, ⟨c.ctx, c.sel, .done none⟩)
  | .read [] got =>
    (m, ⟨c.ctx, c.sel, .done (some ((got.foldl (fun acc kx => insertNum kx.1 kx.2 acc) []).map Prod.snd))⟩)
  | .done _ => (m, c)

/-- The numbers, and the evaluations, each by some thread. -/
structure UWorld where
  nums : Numbers
  calls : List UCall

/-- Evaluation number `k` makes its next step. -/
def UWorld.step (h : Heap) (d : Id) (w : UWorld) (k : Nat) : UWorld :=
  match w.calls[k]? with
  | some c => ⟨(c.step h d w.nums).1, w.calls.set k (c.step h d w.nums).2⟩
  | none => w

/-- A schedule: which evaluation makes the next step, time after time. -/
def UWorld.run (h : Heap) (d : Id) (sched : List Nat) (w : UWorld) : UWorld := sched.foldl (UWorld.step h d) w

end Amara
