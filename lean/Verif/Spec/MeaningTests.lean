import Verif.Spec.MeaningValues
import Verif.Spec.XPathFns
/-
Specification for C166: queries with tests on what other queries find, such as `//book[author = 'X']/title`,
`//a[count(b) > 2]`, `//a[contains(b/@class, 'x')]/@href`, one inside the other to any depth.  The innermost paths are those
of C156, in the order of C162; queries for texts and attributes are those of C164.

Two things are said here as the code has them, not as in XPath: a comparison looks at the first thing found only (C52), and
nothing found counts as the text `False` for `contains` and `starts-with` (C55).
-/
namespace Amara

variable {F : Type}

mutual
  /-- Paths. -/
  inductive TestedPath where
    /-- a path of C156 -/
    | core (p : CorePath)
    /-- `p/q` -/
    | seq (p q : TestedPath)
    /-- `p//m` -/
    | deep (p : TestedPath) (m : Str)
    /-- `p[t]`, `p[t][t']` and so on -/
    | filter (p : TestedPath) (ts : Tests)
    /-- `p[k]`: number `k` of everything before -/
    | number (p : TestedPath) (k : Nat)
    /-- `p[k][t]` and so on (for `p[t][k]` see C68) -/
    | numberThen (p : TestedPath) (k : Nat) (ts : Tests)
  /-- Queries for nodes and attributes. -/
  inductive TestedList where
    | path (p : TestedPath)
    /-- `@k`, `b/@k`, `//b/text()`, ... : a query of C164 -/
    | core (l : CoreList)
    /-- `p/l`: `p/@k`, `p/b/text()`, ... -/
    | seq (p : TestedPath) (l : CoreList)
  /-- One or more tests, each in brackets. -/
  inductive Tests where
    | one (t : ValueTest)
    | more (t : ValueTest) (ts : Tests)
  /-- Tests. -/
  inductive ValueTest where
    /-- a query: `[l]` -/
    | found (l : TestedList)
    /-- `l = 's'` -/
    | is (l : TestedList) (s : Str)
    /-- `count(l) < k` and the like -/
    | count (l : TestedList) (op : Rel) (k : Nat)
    /-- `count(l) = k` -/
    | countIs (l : TestedList) (k : Nat)
    /-- `contains(l, 's')` -/
    | contains (l : TestedList) (s : Str)
    /-- `starts-with(l, 's')` -/
    | startsWith (l : TestedList) (s : Str)
    /-- `name() = 'm'` -/
    | nameIs (m : Str)
    /-- `not(t)` -/
    | not (t : ValueTest)
    /-- `t and t'` -/
    | and (t t' : ValueTest)
    /-- `t or t'` -/
    | or (t t' : ValueTest)
end

/-- Tests that may yield nothing: as operands of `and` and `or` they are written with `boolean()` around (C57). -/
def ValueTest.mayBeEmpty : ValueTest → Bool
  | .found _ => true
  | _ => false

mutual
  /-- The expression of a path. -/
  def TestedPath.expr : TestedPath → Expr F
    | .core p => p.expr
    | .seq p q => .slash p.expr q.expr
    | .deep p m => .dslash p.expr (.step .child (.name m))
    | .filter p ts => .pred p.expr ts.exprs
    | .number p k => .pred p.expr [.lit (.int k)]
    | .numberThen p k ts => .pred p.expr (.lit (.int k) :: ts.exprs)
  def TestedList.expr : TestedList → Expr F
    | .path p => p.expr
    | .core l => l.expr
    | .seq p l => .slash p.expr l.expr
  def Tests.exprs : Tests → List (Expr F)
    | .one t => [t.expr]
    | .more t ts => t.expr :: ts.exprs
  /-- The expression of a test. -/
  def ValueTest.expr : ValueTest → Expr F
    | .found l => l.expr
    | .is l s => .eq l.expr (.lit (.str s))
    | .count l op k => .rel op (.call "count".toList [l.expr]) (.lit (.int k))
    | .countIs l k => .eq (.call "count".toList [l.expr]) (.lit (.int k))
    | .contains l s => .call "contains".toList [l.expr, .lit (.str s)]
    | .startsWith l s => .call "starts-with".toList [l.expr, .lit (.str s)]
    | .nameIs m => .eq (.call "name".toList []) (.lit (.str m))
    | .not t => .call "not".toList [t.expr]
    | .and t t' => .and (if t.mayBeEmpty then .call "boolean".toList [t.expr] else t.expr)
        (if t'.mayBeEmpty then .call "boolean".toList [t'.expr] else t'.expr)
    | .or t t' => .or (if t.mayBeEmpty then .call "boolean".toList [t.expr] else t.expr)
        (if t'.mayBeEmpty then .call "boolean".toList [t'.expr] else t'.expr)
end

/-- The text `contains` and `starts-with` look at: that of the first thing found. -/
def Node.argText (doc : Node) : List Found → Str
  | [] => "False".toList
  | f :: _ => doc.valueOf f

mutual
  /-- The list a path gives, in order. -/
  def TestedPath.Gives (doc : Node) : TestedPath → Spot → List Spot → Prop
    | .core p, u, vs => p.Gives doc u vs
    | .seq p q, u, vs => ∃ ws, p.Gives doc u ws ∧ InTurn (q.Gives doc) ws vs
    | .deep p m, u, vs => ∃ ws, p.Gives doc u ws ∧
        InTurn (fun w xs => ∃ qs : List Path, xs = qs.map .at ∧ w.AxisList .descendantOrSelf (doc.Named m) qs) ws vs
    | .filter p ts, u, vs => ∃ ws, p.Gives doc u ws ∧ OnlyThose (ts.Hold doc) ws vs
    | .number p k, u, vs => ∃ ws, p.Gives doc u ws ∧ NumberK k ws vs
    | .numberThen p k ts, u, vs => ∃ ws xs, p.Gives doc u ws ∧ NumberK k ws xs ∧ OnlyThose (ts.Hold doc) xs vs
  def TestedList.Gives (doc : Node) : TestedList → Spot → List Found → Prop
    | .path p, u, fs => ∃ vs, p.Gives doc u vs ∧ fs = vs.map .node
    | .core l, u, fs => l.Gives doc u fs
    | .seq p l, u, fs => ∃ vs, p.Gives doc u vs ∧ InTurn (l.Gives doc) vs fs
  /-- The places where all tests are true. -/
  def Tests.Hold (doc : Node) : Tests → Spot → Prop
    | .one t, u => t.Holds doc u
    | .more t ts, u => t.Holds doc u ∧ ts.Hold doc u
  /-- The places where a test is true. -/
  def ValueTest.Holds (doc : Node) : ValueTest → Spot → Prop
    | .found l, u => ∃ f fs, l.Gives doc u (f :: fs)
    | .is l s, u => ∃ f fs, l.Gives doc u (f :: fs) ∧ doc.valueOf f = s
    | .count l op k, u => ∃ fs, l.Gives doc u fs ∧ op.Says fs.length k
    | .countIs l k, u => ∃ fs, l.Gives doc u fs ∧ fs.length = k
    | .contains l s, u => ∃ fs, l.Gives doc u fs ∧ ∃ a b, doc.argText fs = a ++ s ++ b
    | .startsWith l s, u => ∃ fs, l.Gives doc u fs ∧ ∃ b, doc.argText fs = s ++ b
    | .nameIs m, u => doc.NameAt u m
    | .not t, u => ¬ t.Holds doc u
    | .and t t', u => t.Holds doc u ∧ t'.Holds doc u
    | .or t t', u => t.Holds doc u ∨ t'.Holds doc u
end

mutual
  /-- The paths of C156 and the queries of C164 in it are of those languages. -/
  def TestedPath.Ok : TestedPath → Prop
    | .core p => p.Ok
    | .seq p q => p.Ok ∧ q.Ok
    | .deep p _ => p.Ok
    | .filter p ts => p.Ok ∧ ts.Ok
    | .number p _ => p.Ok
    | .numberThen p _ ts => p.Ok ∧ ts.Ok
  def TestedList.Ok : TestedList → Prop
    | .path p => p.Ok
    | .core l => l.Ok
    | .seq p l => p.Ok ∧ l.Ok
  def Tests.Ok : Tests → Prop
    | .one t => t.Ok
    | .more t ts => t.Ok ∧ ts.Ok
  def ValueTest.Ok : ValueTest → Prop
    | .found l | .is l _ | .count l _ _ | .countIs l _ | .contains l _ | .startsWith l _ => l.Ok
    | .nameIs _ => True
    | .not t => t.Ok
    | .and t t' | .or t t' => t.Ok ∧ t'.Ok
end

end Amara
