import Verif.Spec.QueryText
import Verif.Spec.Stream
/-
Specification for C172: queries with tests (C166) asked of the records of a stream.

`down` singles out the queries that only look down, `under` puts a path in front of a query as one does in writing: `p/q` for a
query `q` without a slash in front, where a bracket at the end of `q` stays at the end.
-/
namespace Amara

mutual
  /-- All steps go to the context node and to what is in it. -/
  def CorePath.down : CorePath → Bool
    | .here | .children => true
    | .step a _ | .nth a _ _ => a != .followingSibling && a != .precedingSibling
    | .up | .abs _ | .anywhere _ => false
    | .deep p _ => p.down
    | .seq p q | .either p q => p.down && q.down
    | .filter p c => p.down && c.down
  def CoreTest.down : CoreTest → Bool
    | .found p | .foundAttr p _ => p.down
    | .attr _ | .attrIs _ _ | .valueIs _ | .contains _ | .startsWith _ | .yes | .no => true
    | .not c => c.down
    | .and c d | .or c d => c.down && d.down
end

def CoreList.down : CoreList → Bool
  | .path p | .after p _ | .allTexts p => p.down
  | .last _ => true
  | .abs _ | .anywhere _ => false

mutual
  def TestedPath.down : TestedPath → Bool
    | .core p => p.down
    | .seq p q => p.down && q.down
    | .deep p _ | .number p _ => p.down
    | .filter p ts | .numberThen p _ ts => p.down && ts.down
  def TestedList.down : TestedList → Bool
    | .path p => p.down
    | .core l => l.down
    | .seq p l => p.down && l.down
  def Tests.down : Tests → Bool
    | .one t => t.down
    | .more t ts => t.down && ts.down
  def ValueTest.down : ValueTest → Bool
    | .found l | .is l _ | .count l _ _ | .countIs l _ | .contains l _ | .startsWith l _ => l.down
    | .nameIs _ => true
    | .not t => t.down
    | .and t t' | .or t t' => t.down && t'.down
end

/-- `p.under pre` is `pre/p`. -/
def CorePath.under : CorePath → CorePath → CorePath
  | .seq p q, pre => .seq (p.under pre) q
  | .deep p m, pre => .deep (p.under pre) m
  | .filter p c, pre => .filter (p.under pre) c
  | p, pre => .seq pre p

def CoreList.under (pre : CorePath) : CoreList → CoreList
  | .path p => .path (p.under pre)
  | .last e => .after pre e
  | .after p e => .after (p.under pre) e
  | .allTexts p => .allTexts (p.under pre)
  | l => l

def TestedPath.under (pre : CorePath) : TestedPath → TestedPath
  | .core p => .core (p.under pre)
  | .seq p q => .seq (p.under pre) q
  | .deep p m => .deep (p.under pre) m
  | .filter p ts => .filter (p.under pre) ts
  | .number p k => .number (p.under pre) k
  | .numberThen p k ts => .numberThen (p.under pre) k ts

def TestedList.under (pre : CorePath) : TestedList → TestedList
  | .path p => .path (p.under pre)
  | .core l => .core (l.under pre)
  | .seq p l => .seq (p.under pre) l

/-- The query has no number in brackets that counts, with a path in front of the query, what is found behind all the places of that path
together (numbers in tests do not). -/
def TestedPath.countsNothing : TestedPath → Bool
  | .core _ => true
  | .seq p _ | .deep p _ | .filter p _ => p.countsNothing
  | .number _ _ | .numberThen _ _ _ => false

def TestedList.countsNothing : TestedList → Bool
  | .path p | .seq p _ => p.countsNothing
  | .core _ => true

/-- The path `n/m₁/…/mₖ`. -/
def CorePath.names (n : Str) (ms : List Str) : CorePath := ms.foldl (fun p m => .seq p (.step .child m)) (.step .child n)

/-- What was found in a record, as something found in the document that has the record at position `p`. -/
def Found.moved (p : Path) : Found → Found
  | .node (.at q) => .node (.at (p ++ q))
  | .node .root => .node .root
  | .attr q k v => .attr (p ++ q) k v

end Amara
