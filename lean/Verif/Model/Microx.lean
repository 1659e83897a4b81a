import Verif.Model.XPath
/-
The command line tool `exec/microx`.

What is modelled: `run` from the moment the source has been parsed, and `xpath_to`.  The lines printed are kept
as a list of strings (without the newline `print` adds), together with how the run ends.

Simplifications: one source; the options `--partition` (see `Model/TreeIter`), `--html` and `--lax` (see
`Model/Html5`) only decide which tree is searched; `--limit` is accepted and never used (129-212).  Expressions
are given parsed (142-147).
-/
namespace Amara

variable {F : Type}

/-- What was printed, and how the run ended. -/
structure Printed where
  lines : List Str
  tail : Tail
deriving DecidableEq, Repr

/-- One part of a run after another. -/
def Printed.append (a b : Printed) : Printed :=
  match a.tail with
  | .done => ⟨a.lines ++ b.lines, b.tail⟩
  | t => ⟨a.lines, t⟩

/-- `print_item(item)`, `exec/microx` 149-153: `none` is NotImplementedError, from `node.xml_encode`,
`uxml/tree.py` 31-32, which `root_node` does not override.  `attribute_node.xml_encode` is
`uxml/uxpath/xast.py` 74-75; its name is always empty (67-69 with `uxml/tree.py` 23). -/
def Item.printed (fo : FloatOps F) (doc : Node) (x : Item F) : Option Str :=
  match x with
  | .root => none
  | .node p => match doc.at? p with
    | some y => some y.encode
    | none => some []
  | .attr _ _ v => some ('{' :: '=' :: '"' :: (v ++ ['"', '}']))
  | .str s => some s
  | .int i => some (toString i).toList
  | .float f => some (fo.show_ f)
  | .bool b => some (if b then "True".toList else "False".toList)

/-- `for item in result: print_item(item)`, `exec/microx` 160-167. -/
def printAll (fo : FloatOps F) (doc : Node) (t : Tail) : List (Item F) → Printed
  | [] => ⟨[], t⟩
  | x :: r => match x.printed fo doc with
    | none => ⟨[], .err .notImplemented⟩
    | some s => .append ⟨[s], .done⟩ (printAll fo doc t r)

/-- The loop over the items when there is `--foreach`, `exec/microx` 160-165: `context(item, force_root=False)`
makes every item the context item, even a falsy one. -/
def printForeach (fo : FloatOps F) (doc : Node) (inner : Item F → Res F) (t : Tail) : List (Item F) → Printed
  | [] => ⟨[], t⟩
  | x :: r => .append (printAll fo doc (inner x).tail (inner x).items) (printForeach fo doc inner t r)

/-- `exec/microx` 160-167 and 174-181. -/
def printResult (fo : FloatOps F) (doc : Node) (inner : Option (Item F → Res F)) (r : Res F) : Printed :=
  match inner with
  | none => printAll fo doc r.tail r.items
  | some g => printForeach fo doc g r.tail r.items

/-- `chain([root], descendants(root))`, `exec/microx` 171, 185. -/
def Node.everyElement (doc : Node) : List (Path × Node) := ([], doc) :: doc.descendants []

/-- `--expr`, `exec/microx` 156-167; `e` evaluates the expression and `inner` that of `--foreach`. -/
def runExpr (fo : FloatOps F) (doc : Node) (e : Item F → Res F) (inner : Option (Item F → Res F)) : Printed :=
  printResult fo doc inner (e .root)

/-- The loop of `--match`, `exec/microx` 171-181. -/
def matchLoop (fo : FloatOps F) (doc : Node) (e : Item F → Res F) (inner : Option (Item F → Res F)) :
    List (Path × Node) → Printed
  | [] => ⟨[], .done⟩
  | (p, _) :: r => .append (printResult fo doc inner (e (.node p))) (matchLoop fo doc e inner r)

/-- `--match`, `exec/microx` 169-181. -/
def runMatch (fo : FloatOps F) (doc : Node) (e : Item F → Res F) (inner : Option (Item F → Res F)) : Printed :=
  matchLoop fo doc e inner doc.everyElement

/-- The attribute tests in a step, `exec/microx` 118-120. -/
def showAttrs (attrs : List Str) (as : Attrs) : Str :=
  attrs.flatMap fun k => match as.get k with
    | none => []
    | some v => '[' :: '@' :: (k ++ '=' :: '"' :: (v ++ ['"', ']']))

/-- `'/'.join(steps)`. -/
def joinSlash : List Str → Str
  | [] => []
  | [s] => s
  | s :: r => s ++ '/' :: joinSlash r

/-- `xpath_to(node, show_attrs)`, `exec/microx` 113-126, for the element at a position: the loop starts at the
parent. -/
def xpathTo (doc : Node) (attrs : List Str) (p : Path) : Str :=
  joinSlash (((ancestorsOf p).map fun q => match doc.at? q with
    | some x => x.xmlName ++ showAttrs attrs x.xmlAttributes
    | none => []).reverse)

/-- `--find-text`, `exec/microx` 183-189. -/
def runFindText (doc : Node) (attrs : List Str) (s : Str) : List Str :=
  doc.everyElement.flatMap fun pe => pe.2.xmlChildren.flatMap fun c => match c with
    | .text t => if pyContains t s then [xpathTo doc attrs pe.1] else []
    | .elem _ _ _ => []

end Amara
