import Verif.Model.XLive
/-
Paths of several steps as what they are: generators around generators (`pylib/uxml/uxpath/xast.py` 255-271, 536-556), on
objects in memory, so that the caller of `xml_xpath` may change the tree between two results.  The steps are those of
`Model/XLive` with the axes `child`, `descendant` and `descendant-or-self` (into which `//` is rewritten, 262).
-/
namespace Amara

/-- The axes. -/
inductive LiveAxis where
  | child | descendant | descendantOrSelf
deriving DecidableEq, Repr

/-- A path of steps, `l/r`, and predicates, `l[p]`.  Simplification: what `next(pred.compute(new_ctx), False)` and the
test of its result come to (`uxml/uxpath/xast.py` 538-553) is any function of the position, of memory at the time, and
of the item. -/
inductive LivePath where
  | step (a : LiveAxis) (t : Test)
  | slash (l r : LivePath)
  | filter (l : LivePath) (p : Nat → Heap → Id → Bool)

/-- A suspended path. -/
inductive PathGen where
  /-- a step, `uxml/uxpath/xast.py` 414-499 -/
  | step (t : Test) (g : AxisGen)
  /-- `for item in selected`, 260, 269: about to ask the left operand for an item -/
  | left (l : PathGen) (r : LivePath)
  /-- `yield from self.right.compute(new_ctx)`, 262, 271 -/
  | right (l : PathGen) (r : LivePath) (g : PathGen)
  /-- `for pos, item in enumerate(...)`, 538; the number of items so far -/
  | filter (g : PathGen) (p : Nat → Heap → Id → Bool) (k : Nat)

/-- A step not yet started, `uxml/uxpath/xast.py` 418, 444, 451. -/
def LiveAxis.start (a : LiveAxis) (e : Id) : AxisGen :=
  match a with
  | .child => .child e 0
  | .descendant => .start e
  | .descendantOrSelf => .self e

/-- `path.compute(ctx)` with this context item, not yet started. -/
def LivePath.start : LivePath → Id → PathGen
  | .step a t, e => .step t (a.start e)
  | .slash l r, e => .left (l.start e) r
  | .filter l p, e => .filter (l.start e) p 0

/-- What one round of the innermost loop does. -/
inductive PathOut where
  | finished
  | raised
  | pass (g : PathGen)
  | give (y : Id) (g : PathGen)

/-- One round, `uxml/uxpath/xast.py` 255-271 (`/` and `//`), 536-556 (predicates: all of them hold, so one function
stands for the list). -/
def pathRound (h : Heap) : PathGen → PathOut
  | .step t g => match axisRound t h g with
    | .finished => .finished
    | .raised => .raised
    | .pass g' => .pass (.step t g')
    | .give y g' => .give y (.step t g')
  | .left l r => match pathRound h l with
    | .finished => .finished
    | .raised => .raised
    | .pass l' => .pass (.left l' r)
    | .give y l' => .pass (.right l' r (r.start y))
  | .right l r g => match pathRound h g with
    | .finished => .pass (.left l r)
    | .raised => .raised
    | .pass g' => .pass (.right l r g')
    | .give y g' => .give y (.right l r g')
  | .filter g p k => match pathRound h g with
    | .finished => .finished
    | .raised => .raised
    | .pass g' => .pass (.filter g' p k)
    | .give y g' => if p (k + 1) h y then .give y (.filter g' p (k + 1)) else .pass (.filter g' p (k + 1))

/-- `next(g)`: rounds until there is a result, or the end. -/
inductive PathNext (h : Heap) : PathGen → PathOut → Prop
  | give {g y g'} : pathRound h g = .give y g' → PathNext h g (.give y g')
  | finished {g} : pathRound h g = .finished → PathNext h g .finished
  | raised {g} : pathRound h g = .raised → PathNext h g .raised
  | pass {g g' r} : pathRound h g = .pass g' → PathNext h g' r → PathNext h g r

end Amara
