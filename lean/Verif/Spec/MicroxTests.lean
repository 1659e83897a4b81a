import Verif.Spec.QueryText
import Verif.Spec.XTokens
/-
Specification for C169: what the command line tool prints for the queries of C166, from the text on the command line.
-/
namespace Amara
open X (Tok Written)

variable {F : Type}

/-- Queries. -/
inductive TestedQuery where
  | list (l : TestedList)
  /-- `count(l)` -/
  | count (l : TestedList)
  /-- `string(l)` -/
  | string (l : TestedList)
  /-- `name(p)` -/
  | name (p : TestedPath)

def TestedQuery.expr : TestedQuery → Expr F
  | .list l => l.expr
  | .count l => .call "count".toList [l.expr]
  | .string l => .call "string".toList [l.expr]
  | .name p => .call "name".toList [p.expr]

/-- How they are written. -/
inductive WritesQuery : List (Tok F) → TestedQuery → Prop where
  | list {b : Bool} {w : List (Tok F)} {l : TestedList} : WritesTestedList b w l → WritesQuery w (.list l)
  | count {b : Bool} {w : List (Tok F)} {l : TestedList} : WritesTestedList b w l →
      WritesQuery (.name "count".toList :: .lparen :: (w ++ [.rparen])) (.count l)
  | string {b : Bool} {w : List (Tok F)} {l : TestedList} : WritesTestedList b w l →
      WritesQuery (.name "string".toList :: .lparen :: (w ++ [.rparen])) (.string l)
  | name {k : EndsIn} {w : List (Tok F)} {p : TestedPath} : WritesTested k w p →
      WritesQuery (.name "name".toList :: .lparen :: (w ++ [.rparen])) (.name p)

/-- The path does not lead to the root node. -/
def TestedPath.neverRoot : TestedPath → Bool
  | .core p => p.neverRoot
  | .seq _ q => q.neverRoot
  | .deep _ _ => true
  | .filter p _ | .number p _ | .numberThen p _ _ => p.neverRoot

/-- The query does not yield the root node, which cannot be printed. -/
def TestedList.neverRoot : TestedList → Bool
  | .path p => p.neverRoot
  | .core l | .seq _ l => l.neverRoot

def TestedQuery.Fine : TestedQuery → Prop
  | .list l => l.Ok ∧ l.neverRoot = true
  | .count l | .string l => l.Ok
  | .name p => p.Ok

/-- The lines for a query asked at a place. -/
def TestedQuery.Prints (doc : Node) : TestedQuery → Spot → List Str → Prop
  | .list l, u, ls => ∃ fs, l.Gives doc u fs ∧ doc.LinesOf fs ls
  | .count l, u, ls => ∃ fs, l.Gives doc u fs ∧ ls = [(toString fs.length).toList]
  | .string l, u, ls => ∃ fs, l.Gives doc u fs ∧ ls = [doc.firstValue fs]
  | .name p, u, ls => ∃ vs, p.Gives doc u vs ∧ ∃ m, ls = [m] ∧ doc.FirstName vs m

/-- What is asked on the command line. -/
inductive AskTested where
  /-- `--expr=q` -/
  | expr (q : TestedQuery)
  /-- `--match=q` -/
  | every (q : TestedQuery)
  /-- `--expr=p --foreach=q` -/
  | exprEach (p : TestedPath) (q : TestedQuery)
  /-- `--match=p --foreach=q` -/
  | everyEach (p : TestedPath) (q : TestedQuery)

/-- `s` is a text of the query, with any blanks between the tokens. -/
def TextOfQuery (fo : FloatOps F) (s : Str) (q : TestedQuery) : Prop := ∃ w : List (Tok F), WritesQuery w q ∧ Written fo w s

/-- `s` is a text of the path. -/
def TextOfPath (fo : FloatOps F) (s : Str) (p : TestedPath) : Prop := ∃ (k : EndsIn) (w : List (Tok F)), WritesTested k w p ∧ Written fo w s

/-- The command line says this; an empty `--foreach` counts as none. -/
def AskTested.SaidBy (fo : FloatOps F) (a : MicroxArgs) : AskTested → Prop
  | .expr q => ∃ s, a.command = .expr s ∧ TextOfQuery fo s q ∧ (a.foreach = none ∨ a.foreach = some [])
  | .every q => ∃ s, a.command = .match_ s ∧ TextOfQuery fo s q ∧ (a.foreach = none ∨ a.foreach = some [])
  | .exprEach p q => ∃ s t, a.command = .expr s ∧ TextOfPath fo s p ∧ a.foreach = some t ∧ TextOfQuery fo t q
  | .everyEach p q => ∃ s t, a.command = .match_ s ∧ TextOfPath fo s p ∧ a.foreach = some t ∧ TextOfQuery fo t q

def AskTested.Fine : AskTested → Prop
  | .expr q | .every q => q.Fine
  | .exprEach p q | .everyEach p q => p.Ok ∧ q.Fine

/-- The lines for a document. -/
def AskTested.Lines (doc : Node) : AskTested → List Str → Prop
  | .expr q, ls => q.Prints doc .root ls
  | .every q, ls => ∃ es, doc.AllElements es ∧ InTurn (q.Prints doc) (es.map .at) ls
  | .exprEach p q, ls => ∃ ws, p.Gives doc .root ws ∧ InTurn (q.Prints doc) ws ls
  | .everyEach p q, ls => ∃ es ws, doc.AllElements es ∧ InTurn (p.Gives doc) (es.map .at) ws ∧ InTurn (q.Prints doc) ws ls

/-- The lines for several documents, one after the other. -/
def AskTested.AllLines (k : AskTested) : List Node → List Str → Prop
  | [], ls => ls = []
  | d :: ds, ls => ∃ l ls', ls = l ++ ls' ∧ k.Lines d l ∧ k.AllLines ds ls'

end Amara
