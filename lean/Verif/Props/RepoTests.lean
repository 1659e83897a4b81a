import Verif.Props.XSender
import Verif.Props.Query
import Verif.Model.Writer
/-
The model against the project's own tests in `test/uxml`: what they assert of the program holds of the model, by
evaluation in the kernel.  These are checks of the model, not theorems about the program.

Left out: `test_html5.py`, which needs html5lib; the reference counts in `test_treegc.py`; the case `$a1.2` of
`test_uxpath.py`, whose variable is an element of another document.
-/
namespace Amara.RepoTests

/-! ### `test_parser.py` -/

/-- `test_feed_frags1`: for each way of cutting the document, the events. -/
def parserCases : List (List (List Str) × List Event) := [
  ([["<spam>eggs</spam>".toList],
    [" <spam>eggs</spam> ".toList],
    ["  <spam>eggs</spam>  ".toList],
    ["<".toList, "spam>eggs</spam>".toList],
    ["< ".toList, "spam".toList, ">eggs</spam>".toList],
    ["< ".toList, "spam".toList, ">".toList, "eggs</spam>".toList],
    ["< ".toList, "spam".toList, ">eggs".toList, "</spam>".toList],
    ["< ".toList, "spam".toList, ">eggs".toList, "<".toList, "/spam>".toList],
    ["< ".toList, "spam".toList, ">eggs".toList, "<".toList, "/".toList, "spam>".toList],
    ["< ".toList, "spam".toList, ">eggs".toList, "<".toList, "/".toList, "spam".toList, ">".toList],
    ["<s".toList, "pam>eggs</spam>".toList],
    ["<spa".toList, "m>eggs</spam>".toList],
    ["<spam".toList, ">eggs</spam>".toList],
    ["<spam>eggs</spam>".toList]],
   [.start "spam".toList [] [], .chars "eggs".toList, .stop "spam".toList []]),
  ([["<spam x='y'>eggs</spam>".toList],
    ["<spam x='y'>eggs</spam>".toList]],
   [.start "spam".toList [("x".toList, "y".toList)] [], .chars "eggs".toList, .stop "spam".toList []]),
  ([["<spam><a>b</a>eggs</spam>".toList],
    ["<spam><a>b</a".toList, ">eggs</spam>".toList],
    ["<spam>".toList, "<a>b</a>eggs<".toList, "/spam>".toList],
    ["<spam>".toList, "<a>b</a>eggs</spam>".toList],
    ["<spam><a>".toList, "b</a>eggs</spam>".toList],
    ["<spam><a>".toList, "b</a".toList, ">eggs</spam>".toList],
    ["<spam><a>b<".toList, "/a>eggs</spam>".toList],
    ["<spam><a>b<".toList, "/a>eggs</spam>".toList],
    ["<spam><a>b</a>".toList, "eggs</spam>".toList],
    ["<spam><a>b</a>".toList, "eggs</sp".toList, "am>".toList],
    ["<sp".toList, "am><a>b</a>".toList, "eggs</spam>".toList],
    ["<".toList, "spam".toList, "><a>b</a>eggs".toList, "<".toList, "/spam>".toList],
    ["<".toList, "sp".toList, "am".toList, "><a>b</a>eggs".toList, "<".toList, "/spam>".toList],
    ["<sp".toList, "am><a>b</a>eggs".toList, "<".toList, "/spam>".toList],
    ["< ".toList, "spam ".toList, " ><a>b</a>eggs".toList, "<".toList, " / spam > ".toList],
    ["<spam><a>b</a>eggs</spam>".toList]],
   [.start "spam".toList [] [], .start "a".toList [] ["spam".toList], .chars "b".toList, .stop "a".toList ["spam".toList], .chars "eggs".toList, .stop "spam".toList []]),
  ([["<spam x='y' zz='zzz'><a>b</a>eggs</spam>".toList],
    ["<spam x='y' zz='zzz'><a>b</a>eggs</spam>".toList]],
   [.start "spam".toList [("x".toList, "y".toList), ("zz".toList, "zzz".toList)] [], .start "a".toList [] ["spam".toList], .chars "b".toList, .stop "a".toList ["spam".toList], .chars "eggs".toList, .stop "spam".toList []]),
  ([["<spam x='&lt;y&#x3E;' zz='zzz'><a>b</a>eggs</spam>".toList],
    ["<spam x='&lt;y&#x3E;' zz='zzz'><a>b</a>eggs</spam>".toList]],
   [.start "spam".toList [("x".toList, "<y>".toList), ("zz".toList, "zzz".toList)] [], .start "a".toList [] ["spam".toList], .chars "b".toList, .stop "a".toList ["spam".toList], .chars "eggs".toList, .stop "spam".toList []]),
  ([["<spam x='&lt;y&#x3E;' zz='zzz'><a> &lt;boo!&#x3E; </a>eggs</spam>".toList],
    ["<spam x='&lt;y&#x3E;' zz='zzz'><a> &lt;boo!&#x3E; </a>eggs</spam>".toList]],
   [.start "spam".toList [("x".toList, "<y>".toList), ("zz".toList, "zzz".toList)] [], .start "a".toList [] ["spam".toList], .chars " <boo!> ".toList, .stop "a".toList ["spam".toList], .chars "eggs".toList, .stop "spam".toList []])]

example : parserCases.all (fun c => c.1.all fun frags => decide ((sendAll newParser frags).1 = c.2 ∧ (sendAll newParser frags).2.1 = .returned)) = true := by
  decide +kernel

/-! ### `test_tree.py`, `test_treeiter.py`, `test_treeutil.py` -/

/-- An element without attributes. -/
def e (n : String) (cs : List Node) : Node := .elem n.toList [] cs
def t (s : String) : Node := .text s.toList

def doc1 : Node := e "a" [e "b" [t "1"], e "b" [t "2"], e "b" [t "3"]]
def doc2 : Node := e "a" [e "b" [t "1"], e "c" [t "2"], e "d" [t "3"]]
def doc3 : Node := e "a" [e "b" [e "x" [t "1"]], e "c" [e "x" [t "2"], e "d" [e "x" [t "3"]]], e "x" [t "4"]]
def doc4 : Node := e "a" [e "b" [e "x" [t "1"]], e "c" [e "x" [t "2"], e "d" [e "x" [t "3"]]], e "x" [t "4"], e "y" [t "5"]]
def doc5 : Node := e "a" [e "b" [e "x" [t "1"]], e "b" [e "x" [t "2"]], e "b" [e "x" [t "3"]], e "b" [e "x" [t "4"]]]

example : doc1.encode = "<a><b>1</b><b>2</b><b>3</b></a>".toList ∧ doc2.encode = "<a><b>1</b><c>2</c><d>3</d></a>".toList ∧
    doc3.encode = "<a><b><x>1</x></b><c><x>2</x><d><x>3</x></d></c><x>4</x></a>".toList ∧
    doc4.encode = "<a><b><x>1</x></b><c><x>2</x><d><x>3</x></d></c><x>4</x><y>5</y></a>".toList ∧
    doc5.encode = "<a><b><x>1</x></b><b><x>2</x></b><b><x>3</x></b><b><x>4</x></b></a>".toList := by decide +kernel

/-- Parsing them gives the events of these trees. -/
example : [doc1, doc2, doc3, doc4, doc5].all (fun d => decide (drive d.encode = (Node.events [] d, .returned))) = true := by
  decide +kernel

/-- The values a sink gets. -/
def values (pat : List (Stage Event)) (d : Node) : List Str :=
  ((newSender [pat]).parse d.encode).1.flatMap fun os => (sentTo 0 os).map Node.xmlValue

/-- `test_ts_basics`, `test_ts_gc`. -/
example :
    values [.name ['a'], .name ['b']] doc1 = [['1'], ['2'], ['3']] ∧
    values [.name ['a'], .star] doc1 = [['1'], ['2'], ['3']] ∧
    values [.name ['a'], .oneOf [.name ['b'], .name ['c']]] doc2 = [['1'], ['2']] ∧
    values [.name ['a'], .dstar, .name ['x']] doc3 = [['1'], ['2'], ['3'], ['4']] ∧
    values [.star, .dstar, .name ['x']] doc3 = [['1'], ['2'], ['3'], ['4']] ∧
    values [.name ['a'], .dstar, .name ['x']] doc4 = [['1'], ['2'], ['3'], ['4']] ∧
    values [.star, .dstar, .name ['x']] doc4 = [['1'], ['2'], ['3'], ['4']] ∧
    values [.star, .star] doc3 = [['1'], ['2', '3'], ['4']] ∧
    values [.name ['a'], .name ['b']] doc5 = [['1'], ['2'], ['3'], ['4']] := by decide +kernel

/-- `test_make_pretty`. -/
example : (doc4.makePretty 0 "  ".toList).encode =
    "<a>\n  <b>\n    <x>1</x>\n  </b>\n  <c>\n    <x>2</x>\n    <d>\n      <x>3</x>\n    </d>\n  </c>\n  <x>4</x>\n  <y>5</y>\n</a>".toList := by
  decide +kernel

/-- `doc1` in memory, without the texts. -/
def heap1 : Heap := ⟨4, fun i => match i with
  | 0 => some (.elem ['a'] [] [1, 2, 3] none)
  | 1 | 2 | 3 => some (.elem ['b'] [] [] (some 0))
  | _ => none⟩

/-- `test_add_remove`, `test_basic_mutate`. -/
example :
    let p := heap1.newElement "dee".toList [(['a'], ['1'])]
    let q := p.2.newElement "dum".toList [(['a'], ['2'])]
    (match q.2.xmlAppend 0 (.node p.1) with
     | .error _ => false
     | .ok h => decide (h.children 0 = [1, 2, 3, p.1]) && (match h.xmlInsert 0 (.node q.1) 0 with
        | .error _ => false
        | .ok h' => decide (h'.children 0 = [q.1, 1, 2, 3, p.1] ∧ h'.xmlParent p.1 = some 0 ∧ h'.xmlParent q.1 = some 0)) &&
       (match h.xmlRemove 0 p.1 with
        | .error _ => false
        | .ok h' => decide (h'.children 0 = [1, 2, 3] ∧ h'.xmlParent p.1 = none ∧ h'.obj p.1 = some (.elem "dee".toList [(['a'], ['1'])] [] none)))) = true := by
  decide +kernel

example : (Node.elem "dee".toList [(['a'], ['1'])] []).encode = "<dee a=\"1\"></dee>".toList := by decide +kernel

/-! ### `test_writer.py`, `test_chunk_parse_write.py` -/

def spam (as : Attrs) : List Call := [.start "spam".toList as false, .text "eggs".toList, .stop "spam".toList]

example : ((Writer.raw [] 0).calls (spam [])).map (·.out) = some "<spam>eggs</spam>".toList ∧
    ((Writer.raw [] 0).calls (spam [(['a'], ['"']), (['b'], ['&'])])).map (·.out) = some "<spam a='\"' b=\"&amp;\">eggs</spam>".toList ∧
    ((Writer.raw [] 0).calls (spam [(['a'], ['\''])])).map (·.out) = some "<spam a=\"'\">eggs</spam>".toList ∧
    ((Writer.namespacer [([], "http://example.com".toList)] []).calls (spam [(['a'], ['"']), (['b'], ['&'])])).map (·.out) =
      some "<spam xmlns=\"http://example.com\" a='\"' b=\"&amp;\">eggs</spam>".toList ∧
    ((Writer.namespacer [([], "http://example.com".toList)] []).calls (spam [(['a'], ['\''])])).map (·.out) =
      some "<spam xmlns=\"http://example.com\" a=\"'\">eggs</spam>".toList := by decide +kernel

/-- What expat reports for `quoteattr.xml`. -/
def quoteattr : List XCall :=
  let ns (s : String) : Str := "http://example.com ".toList ++ s.toList
  let xml (s : String) : Str := "http://www.w3.org/XML/1998/namespace ".toList ++ s.toList
  [.start (ns "wrapper") [], .chars "\n  ".toList,
   .start (ns "record") [("test".toList, "\"".toList), (xml "id", "1&1".toList), (xml "lang", "en".toList)], .chars "One".toList, .stop (ns "record"),
   .chars "\n  ".toList,
   .start (ns "record") [("test".toList, "'".toList), (xml "id", "2&2".toList), (xml "lang", "en".toList)], .chars "Two".toList, .stop (ns "record"),
   .chars "\n".toList, .stop (ns "wrapper")]

/-- `test_quoteattr1`. -/
example :
    let recs := ((newSender [[.name "wrapper".toList, .name "record".toList]]).xmlParse quoteattr).1.flatMap (sentTo 0)
    let w0 := (Writer.namespacer [([], "http://example.com".toList)] []).start "wrapper".toList [] false
    let w1 := recs.foldl (fun w r => w.bind fun w => w.writeElem r) w0
    w1.map (fun w => (w.stop "wrapper".toList).out) =
      some ("<wrapper xmlns=\"http://example.com\"><record test='\"' id=\"1&amp;1\" lang=\"en\">One</record>".toList ++
        "<record test=\"'\" id=\"2&amp;2\" lang=\"en\">Two</record></wrapper>".toList) := by decide +kernel

/-! ### `test_uxpath.py` -/

/-- Floats that are whole numbers of one digit. -/
def digitFloats : FloatOps Int :=
  { parse := fun s => match s with
      | [c] => if c.isDigit then some (c.toNat - 48) else none
      | _ => none
    show_ := fun _ => [], trunc := some, isZero := fun i => i == 0
    cmp := fun a b => some (compare (a.elim id id) (b.elim id id)) }

/-- What the test compares: the name and the text of a node, or the item. -/
inductive Seen where
  | named (n v : Str)
  | item (x : Item Int)
deriving DecidableEq, Repr

def seen (doc : Node) : Item Int → Seen
  | .root => .named [] []
  | .node p => match doc.at? p with
    | some (.text s) => .named "#text".toList s
    | some (.elem n _ cs) => .named n (cs.flatMap fun c => match c with | .text s => s | _ => [])
    | none => .named [] []
  | x => .item x

def N1 : Node := e "a" [t "+1+", .elem ['b'] [(['i'], "1.1".toList)] [t "+2+", e "x" [t "1"]],
  .elem ['c'] [(['i'], "1.2".toList)] [e "x" [t "2"], e "d" [e "x" [t "3"]]], e "x" [t "4"], e "y" [t "5"]]

example : N1.encode = "<a>+1+<b i=\"1.1\">+2+<x>1</x></b><c i=\"1.2\"><x>2</x><d><x>3</x></d></c><x>4</x><y>5</y></a>".toList := by
  decide +kernel

def vars : Str → Option (Item Int) := fun s =>
  if s = "a".toList then some (.int 1) else if s = "b".toList then some (.str "x".toList) else if s = "a1".toList then some (.node []) else none

/-- A case of `test_expressions`; the context is the root, also for the cases that begin at an element. -/
def Ok (path : String) (doc : Node) (pos : Path) (want : List Seen) : Prop :=
  let r := xmlXPath digitFloats vars 3 doc pos (.str path.toList)
  r.items.map (seen doc) = want ∧ r.tail = .done

instance (path : String) (doc : Node) (pos : Path) (want : List Seen) : Decidable (Ok path doc pos want) := by
  unfold Ok; infer_instance

/-- `RELATIVE_CASES`. -/
example :
    Ok "a" N1 [] [.named "a".toList "+1+".toList] ∧
    Ok "*" N1 [] [.named "a".toList "+1+".toList] ∧
    Ok "b" N1 [] [] ∧
    Ok "b/x" N1 [] [] ∧
    Ok "b[x]" N1 [] [] ∧
    Ok "a/b" N1 [] [.named "b".toList "+2+".toList] ∧
    Ok "a/*" N1 [] [.named "b".toList "+2+".toList, .named "c".toList [], .named "x".toList "4".toList, .named "y".toList "5".toList] ∧
    Ok "a/b/x" N1 [] [.named "x".toList "1".toList] ∧
    Ok "a/b/*" N1 [] [.named "x".toList "1".toList] ∧
    Ok "a/b[x]" N1 [] [.named "b".toList "+2+".toList] ∧
    Ok "/a/c/d[x]" N1 [] [.named "d".toList []] ∧
    Ok "/a/c[d/x]" N1 [] [.named "c".toList []] ∧
    Ok "a/c/x" N1 [] [.named "x".toList "2".toList] ∧
    Ok "(a/b/x, a/c/x)" N1 [] [.named "x".toList "1".toList, .named "x".toList "2".toList] := by decide +kernel

/-- `ABSOLUTE_CASES`. -/
example :
    Ok "/" N1 [] [.named [] []] ∧
    Ok "/a" N1 [] [.named "a".toList "+1+".toList] ∧
    Ok "//*" N1 [] [.named "a".toList "+1+".toList, .named "b".toList "+2+".toList, .named "c".toList [], .named "x".toList "4".toList, .named "y".toList "5".toList, .named "x".toList "1".toList, .named "x".toList "2".toList, .named "d".toList [], .named "x".toList "3".toList] ∧
    Ok "//node()" N1 [] [.named [] [], .named "a".toList "+1+".toList, .named "#text".toList "+1+".toList, .named "b".toList "+2+".toList, .named "c".toList [], .named "x".toList "4".toList, .named "y".toList "5".toList, .named "#text".toList "+2+".toList, .named "x".toList "1".toList, .named "#text".toList "1".toList, .named "x".toList "2".toList, .named "d".toList [], .named "#text".toList "2".toList, .named "x".toList "3".toList, .named "#text".toList "3".toList, .named "#text".toList "4".toList, .named "#text".toList "5".toList] ∧
    Ok "/" N1 [] [.named [] []] ∧
    Ok "/a" N1 [] [.named "a".toList "+1+".toList] ∧
    Ok "//*" N1 [] [.named "a".toList "+1+".toList, .named "b".toList "+2+".toList, .named "c".toList [], .named "x".toList "4".toList, .named "y".toList "5".toList, .named "x".toList "1".toList, .named "x".toList "2".toList, .named "d".toList [], .named "x".toList "3".toList] ∧
    Ok "//node()" N1 [] [.named [] [], .named "a".toList "+1+".toList, .named "#text".toList "+1+".toList, .named "b".toList "+2+".toList, .named "c".toList [], .named "x".toList "4".toList, .named "y".toList "5".toList, .named "#text".toList "+2+".toList, .named "x".toList "1".toList, .named "#text".toList "1".toList, .named "x".toList "2".toList, .named "d".toList [], .named "#text".toList "2".toList, .named "x".toList "3".toList, .named "#text".toList "3".toList, .named "#text".toList "4".toList, .named "#text".toList "5".toList] := by decide +kernel

/-- `SEQUENCE_CASES`. -/
example :
    Ok "()" N1 [] [] ∧
    Ok "(1, 2)" N1 [] [.item (.int 1), .item (.int 2)] ∧
    Ok "(\"a\", \"b\", \"c\")" N1 [] [.item (.str "a".toList), .item (.str "b".toList), .item (.str "c".toList)] ∧
    Ok "(1, 2, 3, 4, 5)[. > 3]" N1 [] [.item (.int 4), .item (.int 5)] := by decide +kernel

/-- `AXIS_CASES`. -/
example :
    Ok "a/b[2]" doc1 [] [.named "b".toList "2".toList] ∧
    Ok "a/b[2]/preceding-sibling::b" doc1 [] [.named "b".toList "1".toList] ∧
    Ok "a/b[2]/preceding-sibling::*" doc1 [] [.named "b".toList "1".toList] ∧
    Ok "a/b[1]/preceding-sibling::b" doc1 [] [] ∧
    Ok "a/b[1]/preceding-sibling::*" doc1 [] [] ∧
    Ok "a/b/preceding-sibling::b" doc1 [] [.named "b".toList "1".toList, .named "b".toList "2".toList, .named "b".toList "1".toList] ∧
    Ok "a/b/preceding-sibling::*" doc1 [] [.named "b".toList "1".toList, .named "b".toList "2".toList, .named "b".toList "1".toList] ∧
    Ok "a/b[2]/following-sibling::b" doc1 [] [.named "b".toList "3".toList] ∧
    Ok "a/b[2]/following-sibling::*" doc1 [] [.named "b".toList "3".toList] ∧
    Ok "a/b[3]/following-sibling::b" doc1 [] [] ∧
    Ok "a/b[3]/following-sibling::*" doc1 [] [] ∧
    Ok "a/b/following-sibling::b" doc1 [] [.named "b".toList "2".toList, .named "b".toList "3".toList, .named "b".toList "3".toList] ∧
    Ok "a/b/following-sibling::*" doc1 [] [.named "b".toList "2".toList, .named "b".toList "3".toList, .named "b".toList "3".toList] := by decide +kernel

/-- `PREDICATE_CASES`. -/
example :
    Ok "a/text()" N1 [] [.named "#text".toList "+1+".toList] ∧
    Ok "a[starts-with(., \"+\")]" N1 [] [.named "a".toList "+1+".toList] ∧
    Ok "a/b[starts-with(., \"+\")]" N1 [] [.named "b".toList "+2+".toList] ∧
    Ok "a[not(starts-with(., \"+\"))]" N1 [] [] ∧
    Ok "a[contains(., \"+\")]" N1 [] [.named "a".toList "+1+".toList] ∧
    Ok "a/b[contains(., \"+\")]" N1 [] [.named "b".toList "+2+".toList] ∧
    Ok "a[not(contains(., \"+\"))]" N1 [] [] := by decide +kernel

/-- `FUNCTION_CASES`. -/
example :
    Ok "count(a/b)" doc5 [] [.item (.int 4)] ∧
    Ok "for-each(a/b, \"name(.)\")" doc5 [] [.item (.str "b".toList), .item (.str "b".toList), .item (.str "b".toList), .item (.str "b".toList)] ∧
    Ok "for-each(/a/b, \"name(.)\")" doc5 [] [.item (.str "b".toList), .item (.str "b".toList), .item (.str "b".toList), .item (.str "b".toList)] ∧
    Ok "for-each(a/b, \"name()\")" doc5 [] [.item (.str "b".toList), .item (.str "b".toList), .item (.str "b".toList), .item (.str "b".toList)] ∧
    Ok "for-each(a/b, \"x\")" doc5 [] [.named "x".toList "1".toList, .named "x".toList "2".toList, .named "x".toList "3".toList, .named "x".toList "4".toList] ∧
    Ok "for-each(a/b, \"name(x)\")" doc5 [] [.item (.str "x".toList), .item (.str "x".toList), .item (.str "x".toList), .item (.str "x".toList)] ∧
    Ok "substring(a, 2, 1)" N1 [] [.item (.str "1".toList)] := by decide +kernel

/-- `TYPECAST_CASES`. -/
example :
    Ok "boolean(a)" N1 [] [.item (.bool true)] ∧
    Ok "boolean(a/b)" N1 [] [.item (.bool true)] ∧
    Ok "boolean(x)" N1 [] [.item (.bool false)] ∧
    Ok "boolean(x/y)" N1 [] [.item (.bool false)] ∧
    Ok "number(a/c/x)" N1 [] [.item (.float 2)] := by decide +kernel

/-- `VAR_CASES`. -/
example :
    Ok "$a" N1 [] [.item (.int 1)] ∧
    Ok "$a1" N1 [] [.named "a".toList "+1+".toList] := by decide +kernel

end Amara.RepoTests
