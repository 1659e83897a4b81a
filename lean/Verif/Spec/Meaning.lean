import Verif.Spec.Routes
/-
Specification for C156: what queries mean, said once for a whole language of queries.  A path is a relation between
places in a document, a test is a property of a place; each form of a path or test is one line below.

Left out, because the evaluator does something else there (see the theorems named): `*` along other axes than `child` (C47),
the axes `parent`, `ancestor`, `ancestor-or-self`, `following` and `preceding` (C46, C127), operands of `and` and `or` that
may be empty (C57), comparison of several items (C52), unions with the root (C51).
-/
namespace Amara

/-- The axes of the language. -/
inductive CoreAxis where
  | self | child | descendant | descendantOrSelf | followingSibling | precedingSibling
deriving DecidableEq, Repr

/-- How the axis is written. -/
def CoreAxis.axis : CoreAxis → Axis
  | .self => .self
  | .child => .child
  | .descendant => .descendant
  | .descendantOrSelf => .descendantOrSelf
  | .followingSibling => .followingSibling
  | .precedingSibling => .precedingSibling

mutual
  /-- Paths. -/
  inductive CorePath where
    /-- `.` -/
    | here
    /-- `..` -/
    | up
    /-- `axis::m` -/
    | step (a : CoreAxis) (m : Str)
    /-- `*` -/
    | children
    /-- `axis::m[k]` -/
    | nth (a : CoreAxis) (m : Str) (k : Nat)
    /-- `/p` -/
    | abs (p : CorePath)
    /-- `//p` -/
    | anywhere (p : CorePath)
    /-- `p/q` -/
    | seq (p q : CorePath)
    /-- `p//m` -/
    | deep (p : CorePath) (m : Str)
    /-- `p[c]` -/
    | filter (p : CorePath) (c : CoreTest)
    /-- `p | q` -/
    | either (p q : CorePath)
  /-- Tests. -/
  inductive CoreTest where
    /-- a path: `[p]` -/
    | found (p : CorePath)
    /-- `@k` -/
    | attr (k : Str)
    /-- `p/@k` -/
    | foundAttr (p : CorePath) (k : Str)
    /-- `@k = 'v'` -/
    | attrIs (k v : Str)
    /-- `. = 's'` -/
    | valueIs (s : Str)
    /-- `contains(., 's')` -/
    | contains (s : Str)
    /-- `starts-with(., 's')` -/
    | startsWith (s : Str)
    /-- `not(c)` -/
    | not (c : CoreTest)
    /-- `c and d` -/
    | and (c d : CoreTest)
    /-- `c or d` -/
    | or (c d : CoreTest)
    /-- `true()` -/
    | yes
    /-- `false()` -/
    | no
end

/-- Tests that may yield nothing: as operands of `and` and `or` they are written with `boolean()` around. -/
def CoreTest.mayBeEmpty : CoreTest → Bool
  | .found _ | .attr _ | .foundAttr _ _ => true
  | _ => false

mutual
  /-- The expression of a path. -/
  def CorePath.expr {F : Type} : CorePath → Expr F
    | .here => .dot
    | .up => .dotdot
    | .step a m => .step a.axis (.name m)
    | .children => .step .child .star
    | .nth a m k => .pred (.step a.axis (.name m)) [.lit (.int k)]
    | .abs p => .abs (some p.expr)
    | .anywhere p => .absAll p.expr
    | .seq p q => .slash p.expr q.expr
    | .deep p m => .dslash p.expr (.step .child (.name m))
    | .filter p c => .pred p.expr [c.expr]
    | .either p q => .union p.expr q.expr
  /-- The expression of a test. -/
  def CoreTest.expr {F : Type} : CoreTest → Expr F
    | .found p => p.expr
    | .attr k => .step .attribute (.name k)
    | .foundAttr p k => .slash p.expr (.step .attribute (.name k))
    | .attrIs k v => .eq (.step .attribute (.name k)) (.lit (.str v))
    | .valueIs s => .eq .dot (.lit (.str s))
    | .contains s => .call "contains".toList [.dot, .lit (.str s)]
    | .startsWith s => .call "starts-with".toList [.dot, .lit (.str s)]
    | .not c => .call "not".toList [c.expr]
    | .and c d => .and (if c.mayBeEmpty then .call "boolean".toList [c.expr] else c.expr)
        (if d.mayBeEmpty then .call "boolean".toList [d.expr] else d.expr)
    | .or c d => .or (if c.mayBeEmpty then .call "boolean".toList [c.expr] else c.expr)
        (if d.mayBeEmpty then .call "boolean".toList [d.expr] else d.expr)
    | .yes => .call "true".toList []
    | .no => .call "false".toList []
end

/-- A place: the root node, above the document element, or a position in the document. -/
inductive Spot where
  | root
  | at (p : Path)
deriving DecidableEq, Repr

/-- The item at a place. -/
def Spot.item {F : Type} : Spot → Item F
  | .root => .root
  | .at p => .node p

/-- The root, or the place of an element. -/
def Node.Place (doc : Node) : Spot → Prop
  | .root => True
  | .at p => doc.ElemAt p

/-- The positions on an axis.  The root has one child, the document element, and no siblings. -/
def Spot.Reach (a : CoreAxis) : Spot → Path → Prop
  | .at p, q => OnAxis a.axis p q
  | .root, q => match a with
    | .child => q = []
    | .descendant | .descendantOrSelf => True
    | .self | .followingSibling | .precedingSibling => False

/-- The element at this place has this attribute. -/
def Node.AttrAt (doc : Node) : Spot → Str → Str → Prop
  | .at p, k, v => ∃ m as cs, doc.at? p = some (.elem m as cs) ∧ (k, v) ∈ as
  | .root, _, _ => False

/-- The text in the element at this place; the root node has none (C70). -/
def Node.valueAt (doc : Node) : Spot → Str
  | .at p => match doc.at? p with
    | some x => x.texts.flatten
    | none => []
  | .root => []

mutual
  /-- The places a path leads to. -/
  def CorePath.Leads (doc : Node) : CorePath → Spot → Spot → Prop
    | .here, u, v => v = u
    | .up, u, v => match u with
      | .root => v = .root                                   -- the root is taken for its own parent (C127)
      | .at p => (p = [] ∧ v = .root) ∨ ∃ q i, p = q ++ [i] ∧ v = .at q
    | .step a m, u, v => ∃ q, v = .at q ∧ u.Reach a q ∧ doc.Named m q
    | .children, u, v => ∃ q, v = .at q ∧ u.Reach .child q ∧ doc.ElemAt q
    | .nth a m k, u, v => ∃ q, v = .at q ∧ u.Reach a q ∧ doc.Named m q ∧
        -- k - 1 elements of that name are on the axis before it
        ∃ ws : List Path, ws.Nodup ∧ ws.length + 1 = k ∧ ∀ w, w ∈ ws ↔ u.Reach a w ∧ doc.Named m w ∧ AxisBefore a.axis w q
    | .abs p, _, v => p.Leads doc .root v
    | .anywhere p, _, v => ∃ w, doc.Place w ∧ p.Leads doc w v
    | .seq p q, u, v => ∃ w, p.Leads doc u w ∧ q.Leads doc w v
    | .deep p m, u, v => ∃ w, p.Leads doc u w ∧ ∃ q, v = .at q ∧ w.Reach .descendantOrSelf q ∧ doc.Named m q
    | .filter p c, u, v => p.Leads doc u v ∧ c.Holds doc v
    | .either p q, u, v => p.Leads doc u v ∨ q.Leads doc u v
  /-- The places where a test is true. -/
  def CoreTest.Holds (doc : Node) : CoreTest → Spot → Prop
    | .found p, u => ∃ v, p.Leads doc u v
    | .attr k, u => ∃ v, doc.AttrAt u k v
    | .foundAttr p k, u => ∃ w, p.Leads doc u w ∧ ∃ v, doc.AttrAt w k v
    | .attrIs k v, u => doc.AttrAt u k v
    | .valueIs s, u => doc.valueAt u = s
    | .contains s, u => ∃ a b, doc.valueAt u = a ++ s ++ b
    | .startsWith s, u => ∃ b, doc.valueAt u = s ++ b
    | .not c, u => ¬ c.Holds doc u
    | .and c d, u => c.Holds doc u ∧ d.Holds doc u
    | .or c d, u => c.Holds doc u ∨ d.Holds doc u
    | .yes, _ => True
    | .no, _ => False
end

/-- The path yields no root node, from wherever it starts. -/
def CorePath.neverRoot : CorePath → Bool
  | .here | .up => false
  | .step _ _ | .children | .nth _ _ _ | .deep _ _ => true
  | .abs p => p.neverRoot
  | .anywhere p => p.neverRoot
  | .seq _ q => q.neverRoot
  | .filter p _ => p.neverRoot
  | .either p q => p.neverRoot && q.neverRoot

/-- The first step of the path goes down (or stays, with a name), so that there is nothing to find from a text node. -/
def CorePath.startsDown : CorePath → Bool
  | .step a _ | .nth a _ _ => a != .followingSibling && a != .precedingSibling
  | .children => true
  | .seq p _ => p.startsDown
  | .deep p _ => p.startsDown
  | .filter p _ => p.startsDown
  | .here | .up | .abs _ | .anywhere _ | .either _ _ => false

mutual
  /-- `*` is not the name of an attribute, the sides of `|` do not yield the root, and a path after `//` begins with a step
  down. -/
  def CorePath.Ok : CorePath → Prop
    | .abs p => p.Ok
    | .anywhere p => p.Ok ∧ p.startsDown = true
    | .seq p q => p.Ok ∧ q.Ok
    | .deep p _ => p.Ok
    | .filter p c => p.Ok ∧ c.Ok
    | .either p q => p.Ok ∧ q.Ok ∧ p.neverRoot = true ∧ q.neverRoot = true
    | _ => True
  def CoreTest.Ok : CoreTest → Prop
    | .found p => p.Ok
    | .attr k => k ≠ ['*']
    | .foundAttr p k => p.Ok ∧ k ≠ ['*']
    | .attrIs k _ => k ≠ ['*']
    | .not c => c.Ok
    | .and c d => c.Ok ∧ d.Ok
    | .or c d => c.Ok ∧ d.Ok
    | _ => True
end

/-- No element has two attributes of one name. -/
def Node.Dicts (doc : Node) : Prop := ∀ p m as cs, doc.at? p = some (.elem m as cs) → as.Pairwise (fun a b => a.1 ≠ b.1)

end Amara
