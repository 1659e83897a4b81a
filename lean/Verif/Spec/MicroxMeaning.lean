import Verif.Spec.MeaningList
import Verif.Spec.MicroxRun
/-
Specification for C163: what the command line tool prints for paths, said by the lists the paths give (C162).
-/
namespace Amara

variable {F : Type}

/-- What is asked on the command line, as paths. -/
inductive Ask where
  /-- `--expr=p` -/
  | expr (p : CorePath)
  /-- `--match=p` -/
  | every (p : CorePath)
  /-- `--expr=p --foreach=q` -/
  | exprEach (p q : CorePath)
  /-- `--match=p --foreach=q` -/
  | everyEach (p q : CorePath)

/-- The command line says this; an empty `--foreach` counts as none. -/
def Ask.SaidBy (fo : FloatOps F) (a : MicroxArgs) : Ask → Prop
  | .expr p => ∃ s, a.command = .expr s ∧ X.xparse fo s = some (.ok p.expr) ∧ (a.foreach = none ∨ a.foreach = some [])
  | .every p => ∃ s, a.command = .match_ s ∧ X.xparse fo s = some (.ok p.expr) ∧ (a.foreach = none ∨ a.foreach = some [])
  | .exprEach p q => ∃ s t, a.command = .expr s ∧ X.xparse fo s = some (.ok p.expr) ∧ a.foreach = some t ∧ t ≠ [] ∧
      X.xparse fo t = some (.ok q.expr)
  | .everyEach p q => ∃ s t, a.command = .match_ s ∧ X.xparse fo s = some (.ok p.expr) ∧ a.foreach = some t ∧ t ≠ [] ∧
      X.xparse fo t = some (.ok q.expr)

/-- The paths are of the language, and what is printed is not the root (which cannot be printed, C63). -/
def Ask.Fine : Ask → Prop
  | .expr p | .every p => p.Ok ∧ p.neverRoot = true
  | .exprEach p q | .everyEach p q => p.Ok ∧ q.Ok ∧ q.neverRoot = true

/-- All elements, in document order. -/
def Node.AllElements (doc : Node) (es : List Path) : Prop := es.Pairwise docLt ∧ ∀ q, q ∈ es ↔ doc.ElemAt q

/-- The places asked for, in order. -/
def Ask.Places (doc : Node) : Ask → List Spot → Prop
  | .expr p, vs => p.Gives doc .root vs
  | .every p, vs => ∃ es, doc.AllElements es ∧ InTurn (p.Gives doc) (es.map .at) vs
  | .exprEach p q, vs => ∃ ws, p.Gives doc .root ws ∧ InTurn (q.Gives doc) ws vs
  | .everyEach p q, vs => ∃ es ws, doc.AllElements es ∧ InTurn (p.Gives doc) (es.map .at) ws ∧ InTurn (q.Gives doc) ws vs

/-- For each of the elements in turn, what `xml_encode` returns for it. -/
def Node.MarkupLines (doc : Node) : List Spot → List Str → Prop
  | [], ls => ls = []
  | v :: vs, ls => ∃ q x l ls', v = .at q ∧ doc.at? q = some x ∧ l = x.encode ∧ ls = l :: ls' ∧ doc.MarkupLines vs ls'

/-- The lines for a document. -/
def Ask.Lines (k : Ask) (doc : Node) (ls : List Str) : Prop := ∃ vs, k.Places doc vs ∧ doc.MarkupLines vs ls

/-- The lines for several documents, one after the other. -/
def Ask.AllLines (k : Ask) : List Node → List Str → Prop
  | [], ls => ls = []
  | d :: ds, ls => ∃ l ls', ls = l ++ ls' ∧ k.Lines d l ∧ k.AllLines ds ls'

end Amara
