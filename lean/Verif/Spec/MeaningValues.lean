import Verif.Spec.MicroxMeaning
/-
Specification for C164: what queries for values yield -- texts, attributes, counts, strings and names -- and what the
command line tool prints for them.  The paths in front are those of C156 and C162.
-/
namespace Amara

variable {F : Type}

/-- Something found: a node, or an attribute of the element at a position, with its value. -/
inductive Found where
  | node (v : Spot)
  | attr (p : Path) (k v : Str)
deriving DecidableEq, Repr

/-- The item found. -/
def Found.item : Found → Item F
  | .node v => v.item
  | .attr p k v => .attr p k v

/-- There is a text at this position. -/
def Node.TextAt (doc : Node) (q : Path) : Prop := ∃ s, doc.at? q = some (.text s)

/-- A last step to values. -/
inductive CoreEnd where
  /-- `text()` -/
  | texts
  /-- `node()` -/
  | nodes
  /-- `@k` -/
  | attr (k : Str)
  /-- `@*` -/
  | attrs

def CoreEnd.expr : CoreEnd → Expr F
  | .texts => .step .child .text
  | .nodes => .step .child .node
  | .attr k => .step .attribute (.name k)
  | .attrs => .step .attribute .star

/-- What a last step gives from a place. -/
def CoreEnd.Gives (doc : Node) : CoreEnd → Spot → List Found → Prop
  | .texts, u, fs => ∃ qs : List Path, fs = qs.map (fun q => .node (.at q)) ∧ u.AxisList .child doc.TextAt qs
  | .nodes, u, fs => ∃ qs : List Path, fs = qs.map (fun q => .node (.at q)) ∧ u.AxisList .child doc.Has qs
  | .attr k, u, fs => (∃ p v, u = .at p ∧ doc.AttrAt u k v ∧ fs = [.attr p k v]) ∨ ((∀ v, ¬ doc.AttrAt u k v) ∧ fs = [])
  | .attrs, u, fs => match u with
    | .root => fs = []
    | .at p => ∃ m as cs, doc.at? p = some (.elem m as cs) ∧ fs = as.map fun kv => .attr p kv.1 kv.2

/-- Queries for nodes and attributes. -/
inductive CoreList where
  /-- `p` -/
  | path (p : CorePath)
  /-- the last step alone: `child::text()`, `@k` (for `text()` see C165) -/
  | last (e : CoreEnd)
  /-- `p/text()`, `p/@k` -/
  | after (p : CorePath) (e : CoreEnd)
  /-- `p//text()` -/
  | allTexts (p : CorePath)
  /-- `/l`: `/p/@k` is `/` in front of `p/@k` -/
  | abs (l : CoreList)
  /-- `//l`: `//text()`, and `//p/@k` is `//` in front of `p/@k` -/
  | anywhere (l : CoreList)

def CoreList.expr : CoreList → Expr F
  | .path p => p.expr
  | .last e => e.expr
  | .after p e => .slash p.expr e.expr
  | .allTexts p => .dslash p.expr (.step .child .text)
  | .abs l => .abs (some l.expr)
  | .anywhere l => .absAll l.expr

/-- The list such a query gives. -/
def CoreList.Gives (doc : Node) : CoreList → Spot → List Found → Prop
  | .path p, u, fs => ∃ vs, p.Gives doc u vs ∧ fs = vs.map .node
  | .last e, u, fs => e.Gives doc u fs
  | .after p e, u, fs => ∃ vs, p.Gives doc u vs ∧ InTurn (e.Gives doc) vs fs
  | .allTexts p, u, fs => ∃ vs, p.Gives doc u vs ∧
      InTurn (fun w xs => ∃ qs : List Path, xs = qs.map (fun q => .node (.at q)) ∧ w.AxisList .descendantOrSelf doc.TextAt qs) vs fs
  | .abs l, _, fs => l.Gives doc .root fs
  | .anywhere l, _, fs => ∃ es, doc.AllElements es ∧ InTurn (l.Gives doc) (.root :: es.map .at) fs

def CoreEnd.Ok : CoreEnd → Prop
  | .attr k => k ≠ ['*']
  | _ => True

/-- From a text node the query yields nothing. -/
def CoreList.startsDown : CoreList → Bool
  | .path p | .after p _ | .allTexts p => p.startsDown
  | .last _ => true
  | .abs _ | .anywhere _ => false

/-- The query is not just `node()`. -/
def CoreList.notJustNode : CoreList → Bool
  | .last .nodes => false
  | _ => true

/-- The query does not yield the root node. -/
def CoreList.neverRoot : CoreList → Bool
  | .path p => p.neverRoot
  | .abs l | .anywhere l => l.neverRoot
  | _ => true

/-- The path is of the language, `*` is not the name of an attribute, and what follows `/` or `//` is not just `node()` (C67). -/
def CoreList.Ok : CoreList → Prop
  | .path p => p.Ok
  | .last e => e.Ok
  | .after p e => p.Ok ∧ e.Ok
  | .allTexts p => p.Ok
  | .abs l => l.Ok ∧ l.notJustNode = true
  | .anywhere l => l.Ok ∧ l.startsDown = true ∧ l.notJustNode = true

/-- Queries. -/
inductive CoreQuery where
  | list (l : CoreList)
  /-- `count(l)` -/
  | count (l : CoreList)
  /-- `string(l)` -/
  | string (l : CoreList)
  /-- `name(p)` -/
  | name (p : CorePath)

def CoreQuery.expr : CoreQuery → Expr F
  | .list l => l.expr
  | .count l => .call "count".toList [l.expr]
  | .string l => .call "string".toList [l.expr]
  | .name p => .call "name".toList [p.expr]

/-- The text of what was found: the value of an attribute, the text in a node; the root node has none (C70). -/
def Node.valueOf (doc : Node) : Found → Str
  | .node v => doc.valueAt v
  | .attr _ _ v => v

/-- The name of the element at a place; the root has none. -/
def Node.NameAt (doc : Node) : Spot → Str → Prop
  | .root, m => m = []
  | .at q, m => doc.Named m q

/-- The text of the first thing found; the empty string if nothing is found. -/
def Node.firstValue (doc : Node) : List Found → Str
  | [] => []
  | f :: _ => doc.valueOf f

/-- The name of the first place found; the empty string if nothing is found. -/
def Node.FirstName (doc : Node) : List Spot → Str → Prop
  | [], m => m = []
  | v :: _, m => doc.NameAt v m

/-- What the command line tool prints for what was found: markup for an element, the characters of a text, the value
of an attribute in `{="..."}`.  The root node cannot be printed. -/
def Node.LineOf (doc : Node) : Found → Str → Prop
  | .node .root, _ => False
  | .node (.at q), l => doc.at? q = some (.text l) ∨ ∃ m as cs, doc.at? q = some (.elem m as cs) ∧ l = (Node.elem m as cs).encode
  | .attr _ _ v, l => l = "{=\"".toList ++ v ++ "\"}".toList

/-- One line for each thing found, in turn. -/
def Node.LinesOf (doc : Node) : List Found → List Str → Prop
  | [], ls => ls = []
  | f :: fs, ls => ∃ l ls', ls = l :: ls' ∧ doc.LineOf f l ∧ doc.LinesOf fs ls'

/-- The lines for a query asked at a place. -/
def CoreQuery.Prints (doc : Node) : CoreQuery → Spot → List Str → Prop
  | .list l, u, ls => ∃ fs, l.Gives doc u fs ∧ doc.LinesOf fs ls
  | .count l, u, ls => ∃ fs, l.Gives doc u fs ∧ ls = [(toString fs.length).toList]
  | .string l, u, ls => ∃ fs, l.Gives doc u fs ∧ ls = [doc.firstValue fs]
  | .name p, u, ls => ∃ vs, p.Gives doc u vs ∧ ∃ m, ls = [m] ∧ doc.FirstName vs m

/-- The query is of the language and does not yield the root node. -/
def CoreQuery.Fine : CoreQuery → Prop
  | .list l => l.Ok ∧ l.neverRoot = true
  | .count l | .string l => l.Ok
  | .name p => p.Ok

/-- What is asked on the command line. -/
inductive AskValue where
  /-- `--expr=q` -/
  | expr (q : CoreQuery)
  /-- `--match=q` -/
  | every (q : CoreQuery)
  /-- `--expr=p --foreach=q` -/
  | exprEach (p : CorePath) (q : CoreQuery)
  /-- `--match=p --foreach=q` -/
  | everyEach (p : CorePath) (q : CoreQuery)

/-- The command line says this; an empty `--foreach` counts as none. -/
def AskValue.SaidBy (fo : FloatOps F) (a : MicroxArgs) : AskValue → Prop
  | .expr q => ∃ s, a.command = .expr s ∧ X.xparse fo s = some (.ok q.expr) ∧ (a.foreach = none ∨ a.foreach = some [])
  | .every q => ∃ s, a.command = .match_ s ∧ X.xparse fo s = some (.ok q.expr) ∧ (a.foreach = none ∨ a.foreach = some [])
  | .exprEach p q => ∃ s t, a.command = .expr s ∧ X.xparse fo s = some (.ok p.expr) ∧ a.foreach = some t ∧ t ≠ [] ∧
      X.xparse fo t = some (.ok q.expr)
  | .everyEach p q => ∃ s t, a.command = .match_ s ∧ X.xparse fo s = some (.ok p.expr) ∧ a.foreach = some t ∧ t ≠ [] ∧
      X.xparse fo t = some (.ok q.expr)

def AskValue.Fine : AskValue → Prop
  | .expr q | .every q => q.Fine
  | .exprEach p q | .everyEach p q => p.Ok ∧ q.Fine

/-- The lines for a document. -/
def AskValue.Lines (doc : Node) : AskValue → List Str → Prop
  | .expr q, ls => q.Prints doc .root ls
  | .every q, ls => ∃ es, doc.AllElements es ∧ InTurn (q.Prints doc) (es.map .at) ls
  | .exprEach p q, ls => ∃ ws, p.Gives doc .root ws ∧ InTurn (q.Prints doc) ws ls
  | .everyEach p q, ls => ∃ es ws, doc.AllElements es ∧ InTurn (p.Gives doc) (es.map .at) ws ∧ InTurn (q.Prints doc) ws ls

/-- The lines for several documents, one after the other. -/
def AskValue.AllLines (k : AskValue) : List Node → List Str → Prop
  | [], ls => ls = []
  | d :: ds, ls => ∃ l ls', ls = l ++ ls' ∧ k.Lines d l ∧ k.AllLines ds ls'

end Amara
