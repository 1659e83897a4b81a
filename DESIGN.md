# Formal model of amara3-xml in Lean 4

* `lean/Verif/Model/*.lean`: the code, function by function. Every definition
  cites the file and lines in `/repo` it models and says what it simplifies.
* `lean/Verif/Spec/*.lean`: small specifications that do not use the model's
  helpers: what a MicroXML text denotes, what well nested means, what a path
  pattern means, the XPath axes by position in the tree, the grammar of
  MicroXPath expressions, what a comparison says.
* `lean/Verif/Lemmas/*.lean`: proofs.
* `lean/Verif/Props/*.lean`: the theorems for the properties in
  `properties.jsonl` (names start with the property's id), each with concrete
  `example`s that meet its hypotheses.
* `tools/lalr.py`: generates `Model/XTables.lean` (the LALR tables PLY would
  build from `uxpath/parserules.py`) and `Lemmas/XPaths.lean`.
* `seeded/LOG.jsonl`: wrong programs tried against the theorems.

## Trusted base

* Lean 4.33.0's kernel. Every theorem depends on at most the axioms `propext`,
  `Classical.choice` and `Quot.sound`. No axioms are added; there is no
  `sorry`, `admit`, `native_decide`, `bv_decide`, `implemented_by` or `unsafe`.
  Mathlib is not imported.
* That the model says what the Python and C text says. This is by reading; the
  sandbox cannot run the project. Facts about Python used by the model
  (regular expression classes, `list.insert` clamping, `list.index`/`remove`
  going by `==`, `str.split`, `str.strip`, `str.partition`,
  `xml.sax.saxutils.escape`/`quoteattr`, weak references, PEP 479, truth of
  strings and numbers) come from the language reference and the standard
  library.
* That PLY builds the LALR(1) automaton of `Model/XTables.lean` from the
  grammar in `parserules.py` (PLY is not installed). The generator follows
  PLY's construction and conflict rules. The theorems about parsing (C77, C78)
  do not trust the generator: they relate the tables, as data, to the grammar
  in `Spec/XGrammar.lean`, and the kernel evaluates the checks.

## Modelling decisions

* A string is a `List Char`. Lone surrogates are not modelled.
* The parser coroutine (`uxml/parser.py`) is a step function on its local
  variables. Window and position are represented by the unread suffix; a second model
  (`Model/Window`, C155) keeps them literally and is proved to do the same. One
  execution of a block of the main loop is one `step`. The loop is iterated
  with fuel; an adequacy theorem shows that the canonical fuel suffices exactly
  when the loop stops, so "never returns" means that no fuel is enough.
* Exceptions are values. Messages are not modelled, only the class.
* A dictionary is an insertion-ordered association list without repeated keys.
* A finished tree is an inductive value. Where identity, sharing, weak
  references or mutation matter a heap of numbered objects is used instead.
* A lazy XPath result is the list of items it yields and the way it ends
  (exhausted, exception, never).
* Floating point numbers in XPath are an abstract type with abstract
  comparison and printing (`Env`); theorems hold for every choice.
* Attribute nodes are created anew by each step; comparing two of them with
  `==` is modelled by content, see the comment at `Item.pyEq`.

* The model is checked against the project's own tests: `Props/RepoTests.lean`
  evaluates the model on every case of `test/uxml` that does not need html5lib,
  CPython's reference counts or an element of another document as a variable,
  and finds what the tests expect.

## Modelled

| file | what |
|------|------|
| `uxml/parser.py` | all of it: `parser`, `handle_cdata`, `parse`, `parsefrags` and the cases in which the handler is a coroutine that returns or raises (C139); twice: on the unread suffix (Model/Parser) and with the window and its indices (Model/Window), proved to agree (C155) |
| `uxml/tree.py` | `node`, `element`, `text`, `strval`, `treebuilder`, `parse`, `xml_encode`, `xml_xpath`, mutation |
| `uxml/treeutil.py` | all of `__all__` |
| the fields `xml_name` and `xml_attributes` of an element, set by a client (`tree.py` 71-76) | `Edit` |
| attribute mappings of elements, as objects (`tree.py` 71-76, `treeiter.py` 124-146, `html5.py` 153-158) | `AttrDict` |
| `_docorder` numbers left on nodes by unions (`xast.py` 81-89, 272-280) | `DocOrder` |
| the same numbers shared by threads evaluating unions, step by step (`xast.py` 81-89, 272-280) | `DocOrderThreads` |
| `root_node._cache` as a store of objects that are kept (`xast.py` 32-62) | `RootObjects` |
| steps as generators over a tree that changes under them (`xast.py` 414-498) | `XLive` |
| the evaluator on objects with children lists and weak parent references (`xast.py`, `functions.py`) | `XHeap` |
| functions of the caller (`uxpath/__init__.py` 85, `functions.py` 43-53, `xast.py` 711-716) | `UserFns` |
| `xml_encode`/`xml_write` of all kinds of items, and a loop over results | `Printing` |
| paths of several steps and predicates as generators over a tree that changes under them (`xast.py` 255-262, 414-498, 535-556) | `XLivePath` |
| Python's limit on nested calls in `xml_encode`, `xml_value`, `strval`, `descendants`, `make_pretty`; `write`, `select_pattern` | `Frames`; `FramesWrite`; unions: `DocOrderFrames`; the evaluator of MicroXPath: `XFrames` |
| the evaluator of MicroXPath with the order numbers (`_docorder`) that stay on the nodes, queries under way side by side | `XMarks` |
| `uxml/treeiter.py`, `xmliter.py` | `sender`; in memory, with one pattern (`SenderMem`) and with several (`SendersMem`); with sinks that end or raise (`SenderSinks`); XML senders fed in several calls (`XSender`) |
| `uxml/writer.py` | `raw`, `namespacer`, `xml_write`-style driving of them; with a custom `whandler` (`WriterHandler`) |
| `uxml/xml.py` | `expat_callbacks`, `parse`, `treebuilder`; expat is a sequence of callbacks |
| `uxml/html5.py` | the methods html5lib calls, `parse`, `parse_lax_xml`; html5lib is a sequence of calls |
| `uxml/uxpath/lexrules.py`, `parserules.py` | scanner and parser |
| `uxml/uxpath/xast.py`, `functions.py` | evaluation of every node class, every function, serialisation |
| `uxml/uxpath/__init__.py` | `context`, `qquery`, `parse`, the shared lexer under any schedule of calls |
| `clib/xmlstring.c` | `isxml`, as a function of bytes and as C with checked reads and reference counts |
| `uxml/__init__.py` | `parse`; calls from several threads, with a switch after any assignment |
| `uxml/lex.py` | the rules of the four states, `token`, `run`, the shared lexer; PLY's master regular expression as "the first rule that matches", each rule's regular expression as a function |
| `exec/microx` | `run` with its options, over lists of sources (`--html` and `--lax` over whatever tree html5lib builds) |

## Not modelled

* expat, html5lib, PLY's own code, argparse, file and network access.
* `uxml/coax.py`, which cannot be used: it refers to names that do not exist.
* `ns_expat_callbacks`: its constructor passes an argument its base class does
  not take, so it always raises TypeError.
* Recursion limits, except in the functions of `Frames`, `FramesWrite`, `DocOrderFrames` and `XFrames`, and memory exhaustion; what is printed to stderr, except the
  characters that the MicroXML scanner reports.
* The text of `repr`.

## Defects found

Each is proved of the model with a concrete witness (`*_full_statement_is_false`
or a theorem named in the table).

Parser: a fragment boundary inside a quoted value loses the rest of the document,
at times silently (C02); some
non-final fragments never return (C05) and neither do some final ones (C06); a
truncated document is not reported (C11); illegal characters vanish (C12); a
malformed reference silences the parser for good (C14); tab and newline in
attribute values do not survive a round trip (C17); `<></>` is accepted and
attribute names can start with any character (C76); the writer's empty
elements are rejected (C64).

Trees: removing a text node removes the first equal one (C26, C62);
`following_siblings` of a text starts after the first equal one (C39);
`select_pattern` and `sender` lose matches with `**` (C34, C40); several
patterns disturb each other (C35); `make_pretty` is neither uniform nor
idempotent (C42); the full-XML builder returns the first document again and
again (C22); a sink that attaches what it receives attracts later subtrees
(C65); HTML `removeChild` leaves the parent link (C72).

XPath evaluation: falsy items fall back to the outer context item (C45, C50);
`ancestor::name` yields the root (C47), `ancestor-or-self` never ends (C58),
`preceding` is empty and `following` is incomplete (C46); union repeats (C51);
`=` looks at one item and raises for nodes on the right (C52);
`substring-before` and empty arguments (C55); evaluation rewrites `a//b` (C56);
empty operands raise (C57); the root cache goes stale (C59); attribute nodes
lose their name (C66, C87); `l//name` includes `l` (C67); successive positional
predicates (C68); string of the root (C70); comparisons of nodes raise (C86);
arithmetic is not implemented (C90); `number()` raises instead of NaN (C91);
`last()` is -1 (C92).

XPath parsing: predicates bind weaker than every operator (C80); `and` is as
strong as `or` (C79); names with U+00C0 to U+00D6 are rejected (C82);
serialisation loses quotes (C69); `qquery` with a parsed expression raises
UnboundLocalError (C85).

microx: several sources all give the first document (C94); `--limit` is ignored
(C96); a root item raises (C63).

amara3.uxml.parse: calls in several threads share one builder and can return
each other's documents (C98).

The scanner: `< /a>` is a valid end tag for the parser and not for the scanner;
`str.strip` removes U+1680 from names; white space between attributes is
reported as illegal on stderr (C100). A scan that ends inside a tag or a value
changes the meaning of the next (C101).

The HTML adapter: an SVG or MathML element, or one whose tag has a colon, does
not give html5lib back the name it asked for; for `<o:p>` html5lib reads `p`
(C106). A copy of an HTML element reads as being in no namespace, so html5lib
does not recognise formatting elements it reconstructs (C107).

uxpath.parse: calls in several threads share one lexer, so that a call can
return the parse of another call's text, or of a mixture of both (C112).

element(name, d): the element does not copy a non-empty mapping, so two
elements given the same one share it; a sender with several patterns passes the
mapping of one event for several elements, sent to different sinks (C117).

xpath union: _docorder is set once and never refreshed, so after a tree was
changed a later union can be in the wrong order or raise AttributeError (C118).

xpath child axis: the step iterates over xml_children itself, so deleting its
results while reading them passes over every second neighbour (C120).

xpath //n: the walk reads child lists with their own iterators, so deleting the
results while reading them leaves every second neighbour (C121).

xpath union in threads: index_docorder numbers the context or its top first and
the rest later, and other threads skip numbering as soon as they see a number:
AttributeError, or a wrong order between the root and inner contexts (C122).

root_node._cache is never emptied and holds its elements strongly: every
document that was asked an absolute path stays in memory (C123). The parent of
the element is skipped when the cache is searched, so one document can have
several root nodes, and the one an element gives can change (C124).

following-sibling and preceding-sibling from a text node count from the first
sibling with the same text; ancestor:: from a text node or an attribute raises
AssertionError after the ancestors (C126, C127). The axes that need children
raise AttributeError from attributes, and sibling axes ValueError; the root node
is its own parent and ancestor, whatever the node test (C127). /node(),
//node() and even /@node() yield the root node first (C128).

xml_encode, xml_value, strval, descendants and make_pretty recurse once (xml_value
twice) per level, so documents deeper than Python's limit parse but end in
RecursionError there (C129); make_pretty then leaves a tree half done (C130).

- Bad input is not always a RuntimeError: `<a>&#x;` and `<a>&#x110000;` raise ValueError, `</a>` and a document ending in `<a b=` raise IndexError (`C132_not_only_runtime`).

- The usage text of `exec/microx` says `--expr="//@id[.='2']"` prints the record with that id; it prints `{="2"}`. With `--foreach=name` it raises AttributeError; `--match=name --foreach="@id|name"` prints nothing and `--match=name --foreach="concat(@id, ': ', name)"` prints `: ` (`C134_documented_examples_fail`). `-c` is no option of the tool, and `--limit` is never used.

- A sink that returns (the natural way to stop early) makes `sender.parse` raise RuntimeError, and after any failure of a sink the sender is corrupted: it keeps the ancestors of the failed element on its event stack for ever, so the same document sends nothing, and other documents the wrong elements; what it builds is appended to the failed element (`C135_full_statement_is_false`, `C135_next_document`).
- An indenting writer indents every child element but the first, and the end tag, one level deeper than the first child: for `<a>` with children `b` and `c` the output is `<a>`, `  <b></b>`, `    <c></c>`, `    </a>` (C138_writer_alignment).
- `xml_encode(indent=...)` puts white space in front of the text of elements that contain text only, so `<b>x</b>` is read back with the text "\n  x" (C138_encode_changes_texts).

The HTML adapter keeps the colon of an attribute name that html5lib gives without
namespace, `xml:lang` in HTML for example. That is no MicroXML name, and the
parser refuses what `xml_encode` writes for such an element (`C73_colons_stay`).
It also drops every attribute whose name begins with `xmlns`, also if it is no
namespace declaration, `xmlnsx` say.

- Paths give no node sets: an element that can be reached in two ways comes twice, and `descendant::b/c` does not come in document order if `b` elements nest (C141_full_statement_is_false).

- `for x in list(e.xml_xpath(q)): x.xml_parent.xml_remove(x)` fails with AttributeError if the query yields an element twice, as unions and paths with two open steps do (C144_when_it_succeeds, C144_twice_fails).

- `xml_encode()` of a text node that a query finds does not escape: it is not the piece of the document the text stands for (C146_full_statement_is_false).

- Queries with `text()` or `node()` on trees built by expat depend on how expat cuts character data: `count(child::text())` and `child::text() = 'xy'` differ for the same document (C148_not_for_text_nodes).

- A union that fails with RecursionError leaves numbers on part of the tree; the same query then fails with AttributeError for good, even when the limit has been raised (C149_fails_for_good).

- `xml_encode()` of an attribute found by a query gives `{="value"}`, without the name (`node.__init__` is called last and empties `xml_name`); `xml_write()` of an attribute and both methods of the root raise NotImplementedError (C150_full_statement_is_false).

- Passing `funcs` to `xml_xpath` or `qquery` takes the built-in functions away: with `funcs={'f': f}`, `count(b)` raises RuntimeError (C151_full_statement_is_false).

- `elem.xml_xpath('b')` in a sink, or on any element without a parent, does not look for children of the element: the context item is the root node, so that the same query gives other results than at the same element in its document (C152_full_statement_is_false).

- A union of nodes of two documents (`. | $v`) raises AttributeError, or does not, depending on whether a query with a union was evaluated in the other document before: the numbers by which unions sort stay on the nodes, and those of two documents have nothing to do with each other (C154_union_depends_on_history).

* **The parser never discards what it has read** (C155, `uxml/parser.py` 160-162, with a FIXME): `window` grows with every fragment, so a parser object
  holds the whole text of the document until it is given up, also when it feeds a `treeiter.sender` whose point is not to hold the document.
  `C155_the_read_part_is_not_needed` proves that discarding it would change nothing else.
* **Unfinished text is read again from its beginning at every call** (C155): fed character by character, a text of n characters costs about n²/2 reads.
* **What `* | .` yields depends on earlier queries** (C158): asked at the root it yields the root and then the document element; after a query with a union at a
  text or attribute node, such as `r/text()[../b | ../a]`, it yields them the other way round (both have the number 0): `C158_full_statement_is_false`.

html5.markup_fragment reads `doc.html`, which no element has: AttributeError for
every input.  html5iter.sender.parse calls html5.parser, which does not exist.
The README's `next(root.xml_children)` raises TypeError: xml_children is a list.
(Read off the code; these functions have no behaviour to state a property about
and are not modelled.)

- `text()` or `node()` as a whole query (`elem.xml_xpath('text()')`, `--foreach='text()'`, `string(text())`, `a[text() = 'x']`) is applied to the context node itself, not to its children: in `parserules.py` a function call alone is an expression (`Expr : FunctionCall`) before it is a step (`NodeTest : FunctionCall`).  From an element `text()` finds nothing; `child::text()` and `./text()` do what is meant (C165_full_statement_is_false).
- `//text()` yields the texts element by element, so that in `<a><b>x</b>y</a>` the text `y` comes before `x` (C164_texts_out_of_order); the same holds of `//c`.
- After a bracket `//` followed by more than one step is evaluated as `/`: `a[@k]//b/c` finds only the `c` in `b` children of `a` (C168).
- `substring` cannot take a variable (or any computed expression) as its start or length: it raises RuntimeError (C170).
## Properties

| id | property | status | model | proof | theorems |
|----|----------|--------|-------|-------|----------|
| C01 | Every MicroXML text is parsed to the events of the element it denotes | proved | Parser | induction over the grammar relation of Spec/MicroXml: feeding the text of each construct makes the parser emit its events from any surrounding state | `C01_valid_text_delivers_its_events` |
| C02 | Where the input is cut into fragments does not matter | partial | Parser | continuation lemma: feeding x++y equals feeding x then y from every reachable state if the cut is not inside a quoted value; witness for the negation; for a document cut inside a value, a product of the parser with a reader of the document (`Lay`): out of step by one quote, the parser never comes to a '>' in its attribute states again, so no event follows | `C02_fragmentation_irrelevant_partial`, `C02_full_statement_is_false`, `C02_cut_in_a_value`, `C02_parsefrags_cut_in_a_value`, `C02_cut_in_a_value_can_be_silent` |
| C03 | Events are always well nested and carry the true ancestor list | proved | Parser | invariant over steps tying the stack of open names to the events emitted, spec Nesting | `C03_events_well_nested`, `C03_complete_stream_is_a_tree` |
| C04 | One document element, then nothing | proved | Parser | invariant: a parser whose document element is closed only consumes white space | `C04_one_document_element`, `C03_events_well_nested` |
| C05 | Exactly when feeding a non-final fragment fails to return | proved | Parser | measure on unread length and state; the stuck states are fixed points of the loop; fuel adequacy shows `never' is independent of fuel | `C05_nonfinal_never_returns_iff`, `C05_never_means_never` |
| C06 | Exactly when a final fragment fails to return | proved | Parser | same measure with the final flag; case analysis of the state reached | `C06_final_vs_nonfinal`, `C06_final_in_tag_never_returns`, `C06_final_in_text_never_returns`, `C06_final_space_never_returns`, `C06_final_after_tag_returns`, `C01_valid_text_delivers_its_events` |
| C07 | Character references decode to the character they denote | proved | Parser (`cdata`, `step`) | computation from a state with arbitrary stack, induction on digits / characters | `C07_bad_reference_in_text_raises`, `C07_bad_reference_in_attribute_raises`, `C01_valid_text_delivers_its_events` |
| C08 | Only legal characters are delivered | proved | Parser | invariant over `cdata` and `step` | `C08_only_legal_characters` |
| C09 | An end tag that does not match raises | proved | Parser (`cdata`, `step`) | computation from a state with arbitrary stack, induction on digits / characters | `C09_mismatched_end_tag_raises`, `C09_end_tag_without_element_raises` |
| C10 | Repeated attributes: the last value wins, in the place of the first | proved | Parser, dictionary | induction over the attribute list | `C10_last_attribute_wins`, `C01_valid_text_delivers_its_events` |
| C11 | A truncated document delivers a prefix of its events and is not reported | proved | Parser, Heap | prefix monotonicity of the loop, C01, C20 | `C11_truncated_document_is_silent`, `C11_truncated_tree` |
| C12 | Illegal characters in content are silently dropped | proved | Parser (`cdata`, `step`) | computation from a state with arbitrary stack, induction on digits / characters | `C12_illegal_text_dropped`, `C12_illegal_attribute_characters_dropped` |
| C13 | parse and parsefrags: what the iterators yield | proved | Parser (`parseIter`, `parsefragsIter`) | C01 and C02 lemmas | `C13_iterators_yield_the_events`, `C13_parse_raises`, `C13_parsefrags_raises`, `C13_parse_never`, `C13_parse_of_a_cut_text` |
| C14 | A malformed reference silently stops the parser | proved | Parser (`cdata`, `step`) | computation from a state with arbitrary stack, induction on digits / characters | `C14_malformed_reference_silences_parser` |
| C15 | Serialise then parse gives back the same element | proved | Tree, Serialize, Parser | `encode t` is in the grammar of Spec/MicroXml, then C01 and C20 | `C15_serialise_then_parse`, `C15_serialisation_is_injective`, `C15_same_text_iff_same_tree` |
| C16 | Serialisation cannot be used to inject markup | proved | Serialize | induction over the string | `C16_text_cannot_inject`, `C16_attribute_cannot_inject` |
| C17 | Tab and newline in attribute values do not survive a round trip | proved | Serialize, Parser | `&#` in a quoted value silences the parser (as C14) | `C17_control_characters_stop_the_parser`, `C17_parse_gives_none` |
| C18 | String value | proved | Tree, Serialize | structural induction | `C18_string_value`, `C18_string_value_of_events`, `C18_string_value_ignores_splitting` |
| C19 | Indented serialisation changes only white space | proved | Tree, Serialize | structural induction | `C19_indent_is_added_text`, `C19_indent_only_inserts_runs` |
| C20 | The tree builder builds the document's tree | proved | Parser, Heap | simulation between the builder's chain of parents and the event list, on the heap | `C20_builder_builds_the_tree`, `treeParse_exists` |
| C21 | One tree builder can be reused | proved | Heap, Expat | induction over the history of parses | `C21_builder_reuse`, `C21_second_parse` |
| C22 | Reusing the full-XML tree builder returns the first document | proved | Heap, Expat | induction over the history of parses | `C22_later_parses_return_first_root`, `C22_first_tree_survives`, `C22_parse_raises_iff_expat_does` |
| C23 | Garbage collection cannot change the parsed tree | proved | Heap | executions interleaved with an adversarial collector; invariant: every object still needed is strongly reachable from the builder | `C23_collector_cannot_be_noticed`, `C20_builder_builds_the_tree` |
| C24 | Parent and child links stay consistent | proved | Heap | invariant over histories of mutations; case analysis on the index | `C24_parent_and_child_agree`, `C24_attached_elements_excluded` |
| C25 | Insertion puts the child where asked | proved | Heap | invariant over histories of mutations; case analysis on the index | `C25_insert_position`, `C25_append_is_last` |
| C26 | Removal removes exactly the given child | partial | Heap | invariant over histories of mutations; case analysis on the index | `C26_remove_element_partial`, `C26_remove_succeeds_iff`, `C26_remove_distinct_text_partial`, `C26_full_statement_is_false` |
| C27 | Appending an existing text node stores a copy | proved | Heap | invariant over histories of mutations; case analysis on the index | `C27_text_is_copied` |
| C28 | The writer and xml_encode agree | proved | Writer | induction over trees and over call lists | `C28_writer_is_xml_encode`, `C28_new_writer` |
| C29 | A namespacer with nothing to add writes what raw writes | proved | Writer | induction over trees and over call lists | `C29_trivial_namespacer` |
| C30 | Namespace declarations are written once, on the first element | proved | Writer | induction over trees and over call lists | `C30_declarations_once`, `C30_no_element` |
| C31 | Balanced writer calls give a document that parses back | proved | Writer | induction over trees and over call lists | `C31_balanced_calls_parse_back` |
| C32 | Writer depth bookkeeping and indentation | proved | Writer | induction over trees and over call lists | `C32_indentation_is_added_text`, `C32_depth_restored` |
| C33 | The tree sender delivers exactly the outermost matching elements | partial | TreeIter, Pattern, Parser | simulation of the handler by the path of open elements | `C33_outermost_matches_sent_partial`, `C33_parse_partial`, `C33_all_sent_partial`, `C33_xml_partial`, `C33_only_matches_sent`, `C33_exactly_first_fits_sent`, `C33_parse_exactly_first_fits`, `C33_trailing_dstar_raises`, `C33_full_statement_is_false` |
| C34 | Pattern matching means what the documentation says | partial | Pattern | induction over pattern and path; the greedy '**' is characterised | `C34_pattern_meaning_partial`, `C34_exactly_first_fits`, `C34_trailing_double_star`, `C34_all_patterns`, `C34_match_found_is_a_match`, `C34_full_statement_is_false` |
| C35 | Several patterns: each sink gets its own matches | partial | TreeIter, Pattern, Parser | simulation of the handler by the path of open elements | `C35_what_each_sink_gets_partial`, `C35_what_each_sink_gets_exactly`, `C35_first_sink_partial`, `C35_full_statement_is_false` |
| C36 | Between documents the sender is idle | proved | TreeIter, Pattern, Parser | simulation of the handler by the path of open elements | `C36_idle_between_documents`, `C36_not_idle_after_a_failure` |
| C37 | descendants yields every element below, once, in document order | proved | TreeUtil | structural induction; positions stand for identity | `C37_descendants` |
| C38 | Selectors are order-preserving filters | proved | TreeUtil | structural induction; positions stand for identity | `C38_select_elements`, `C38_select_name`, `C38_select_name_pattern`, `C38_select_value`, `C38_select_attribute` |
| C39 | following_siblings yields the later siblings | partial | TreeUtil | structural induction; positions stand for identity | `C39_following_siblings_partial`, `C39_element`, `C39_after_first_equal`, `C39_full_statement_is_false` |
| C40 | select_pattern selects the matching descendants | partial | TreeUtil | structural induction; positions stand for identity | `C40_outermost_matches_partial`, `C40_without_double_star`, `C40_exactly_first_fits`, `C40_names_in_tuples_raise`, `C40_empty_pattern`, `C40_trailing_double_star`, `C40_lone_double_star`, `C40_full_statement_is_false` |
| C41 | make_pretty never touches elements or real text | proved | TreeUtil | structural induction; positions stand for identity | `C41_only_white_space_changes`, `C41_no_break_space_is_lost`, `C41_empty_element_gets_text` |
| C42 | make_pretty indents uniformly and is idempotent | partial | TreeUtil | structural induction; positions stand for identity | `C42_stable_after_two_partial`, `C42_default_indent_partial`, `C42_not_idempotent`, `C42_nested_indent_ignored`, `C42_indent_not_uniform` |
| C43 | Namespaces are stripped consistently | proved | Expat, Heap | induction over callbacks | `C43_local_names`, `C43_blank_name`, `C43_space_in_namespace`, `C43_white_space` |
| C44 | How expat chunks character data does not matter to values | proved | Expat, Heap | induction over callbacks | `C44_chunking_irrelevant` |
| C45 | Path steps compose | partial | XPath | run lemmas for each evaluator branch; induction over sequences, trees and expressions; the axes are specified by position (Spec/XPath) | `C45_steps_compose`, `C45_steps_compose_errors`, `C45_empty`, `C45_associative_partial`, `C45_full_statement_is_false` |
| C46 | The child, descendant, sibling, parent and ancestor axes | proved | XPath | run lemmas for each evaluator branch; induction over sequences, trees and expressions; the axes are specified by position (Spec/XPath) | `C46_forward_axes`, `C46_preceding_sibling`, `C46_parent`, `C46_ancestor`, `C46_root`, `C46_following_and_preceding_are_incomplete` |
| C47 | Name tests select by name | partial | XPath | run lemmas for each evaluator branch; induction over sequences, trees and expressions; the axes are specified by position (Spec/XPath) | `C47_name_tests`, `C47_star_partial`, `C47_text_tests`, `C47_full_statement_is_false` |
| C48 | //name finds every element of that name exactly once | proved | XPath | run lemmas for each evaluator branch; induction over sequences, trees and expressions; the axes are specified by position (Spec/XPath) | `C48_every_element_once`, `C48_star`, `C48_text`, `worklist_below` |
| C49 | Positional predicates count from one | proved | XPath | run lemmas for each evaluator branch; induction over sequences, trees and expressions; the axes are specified by position (Spec/XPath) | `C49_positional`, `C49_computed_number`, `C49_float_literal`, `C49_no_integer` |
| C50 | Boolean predicates filter in order | partial | XPath | run lemmas for each evaluator branch; induction over sequences, trees and expressions; the axes are specified by position (Spec/XPath) | `C50_boolean_predicate`, `C50_full_statement_is_false` |
| C51 | Union is in document order and complete | partial | XPath | run lemmas for each evaluator branch; induction over sequences, trees and expressions; the axes are specified by position (Spec/XPath) | `C51_union_partial`, `C51_union_exactly`, `C51_full_statement_is_false` |
| C52 | Equality with a string compares every item | partial | XPath | run lemmas for each evaluator branch; induction over sequences, trees and expressions; the axes are specified by position (Spec/XPath) | `C52_equality_partial`, `C52_exactly`, `C52_only_the_first_item`, `C52_node_on_the_right_raises`, `C52_full_statement_is_false` |
| C53 | not and boolean are complementary and follow the truth table | proved | XPath | run lemmas for each evaluator branch; induction over sequences, trees and expressions; the axes are specified by position (Spec/XPath) | `C53_boolean_and_not`, `C53_constants` |
| C54 | Sequences and count | proved | XPath | run lemmas for each evaluator branch; induction over sequences, trees and expressions; the axes are specified by position (Spec/XPath) | `C54_sequence`, `C54_count` |
| C55 | String functions | partial | XPath | run lemmas for each evaluator branch; induction over sequences, trees and expressions; the axes are specified by position (Spec/XPath) | `C55_concat`, `C55_starts_with_contains`, `C55_before_after_partial`, `C55_before_after_otherwise`, `C55_substring`, `C55_string_length_partial`, `C55_string`, `C55_full_statement_is_false` |
| C56 | Evaluating an expression does not change it | partial | XPath | run lemmas for each evaluator branch; induction over sequences, trees and expressions; the axes are specified by position (Spec/XPath) | `C56_results_do_not_depend_on_history_partial`, `C56_serialisation_partial`, `C56_full_statement_is_false` |
| C57 | Boolean connectives | partial | XPath | run lemmas for each evaluator branch; induction over sequences, trees and expressions; the axes are specified by position (Spec/XPath) | `C57_connectives_partial`, `C57_short_circuit`, `C57_full_statement_is_false` |
| C58 | Evaluation always terminates | partial | XPath | big-step evaluation with fuel; structural induction for expressions without for-each and without ancestor-or-self | `C58_evaluation_ends_partial`, `C58_full_statement_is_false`, `C58_self_application` |
| C59 | The root of a node is the root of the tree it is in | partial | RootCache, Heap | invariant over histories of queries and mutations | `C59_right_root_partial`, `C59_full_statement_is_false` |
| C60 | isxml accepts what looks like XML | proved | IsXml | case analysis; the UTF-8 case is proved for the real decoder of the model | `C60_isxml`, `C60_utf8_documents` |
| C61 | HTML comments never become text | proved | Html5, Heap | case analysis of the adapter methods html5lib calls | `C61_comments_are_not_text` |
| C62 | HTML insertBefore puts text and elements before the reference child | partial | Html5, Heap | case analysis of the adapter methods html5lib calls | `C62_insert_before_partial`, `C62_before_an_element`, `C62_value_error`, `C62_value_error_string`, `C62_insert_text_last`, `C62_insert_text_before_element`, `C62_insert_text_before_string`, `C62_text_before_comment_goes_last`, `C62_full_statement_is_false` |
| C63 | microx --match visits every element once | partial | Microx, XPath | induction over the results | `C63_match_partial`, `C63_match_exception`, `C63_expr`, `C63_find_text_partial`, `C63_find_text_stops_above`, `C63_full_statement_is_false` |
| C64 | Empty-element tags and comments are rejected | proved | Parser, Writer | computation from an arbitrary state | `C64_empty_element_tag_raises`, `C64_comment_raises`, `C64_writer_empty_is_rejected` |
| C65 | A sink may keep what it is sent | partial | TreeIter, Pattern, Parser | simulation of the handler by the path of open elements | `C65_untouched_subtrees_partial`, `C65_moved_subtree_attracts_later_ones` |
| C66 | Attribute steps yield the attributes | partial | XPath | run lemmas for each evaluator branch; induction over sequences, trees and expressions; the axes are specified by position (Spec/XPath) | `C66_attributes_partial`, `C66_full_statement_is_false` |
| C67 | l//name selects descendants | partial | XPath | run lemmas for each evaluator branch; induction over sequences, trees and expressions; the axes are specified by position (Spec/XPath) | `C67_descendant_or_self_partial`, `C67_full_statement_is_false` |
| C68 | Successive predicates filter one after the other | partial | XPath | run lemmas for each evaluator branch; induction over sequences, trees and expressions; the axes are specified by position (Spec/XPath) | `C68_successive_predicates_partial`, `C68_full_statement_is_false` |
| C69 | The serialisation of an expression denotes it | partial | XParse, XSerial spec | the printed text is scanned to the tokens of the tree, then C77 | `C69_read_back_partial`, `C69_injective_partial`, `C69_stable_partial`, `C69_full_statement_is_false` |
| C70 | The string value of a node is the text in it | partial | XPath | run lemmas for each evaluator branch; induction over sequences, trees and expressions; the axes are specified by position (Spec/XPath) | `C70_string_of_element_partial`, `C55_string`, `C70_full_statement_is_false` |
| C71 | Absolute paths give the same from everywhere | proved | XPath | run lemmas for each evaluator branch; induction over sequences, trees and expressions; the axes are specified by position (Spec/XPath) | `C71_absolute_paths` |
| C72 | HTML removeChild takes one child out | partial | Html5, Heap | case analysis of the adapter methods html5lib calls | `C72_remove_child_partial`, `C72_value_error`, `C72_full_statement_is_false` |
| C73 | HTML attributes become MicroXML attributes | proved | Html5, Heap | case analysis of the adapter methods html5lib calls | `C73_attributes_are_set`, `C73_other_attributes_stay`, `C73_in_order`, `C73_colons_stay` |
| C74 | HTML element names are local names | proved | Html5, Heap | case analysis of the adapter methods html5lib calls | `C74_element_names`, `C74_names_can_be_empty` |
| C75 | parse_lax_xml returns the first element detached | partial | Html5, Heap | case analysis of the adapter methods html5lib calls | `C75_lax_top_is_detached_partial`, `C75_full_statement_is_false` |
| C76 | Names delivered by the parser are names | partial | Parser | invariant over the names in the stack and the events | `C76_names_partial`, `C76_full_statement_is_false` |
| C77 | Expressions mean what the grammar says | proved | XLex, XTables, XParse | LALR automaton as data; soundness invariant of the stack and completeness by induction over derivations; the automaton is checked in the kernel against the paths of the grammar | `C77_parser_follows_the_grammar`, `C77_one_meaning`, `C77_grammar_is_unambiguous` |
| C78 | Parsing an expression always ends, with an expression or an error | proved | XLex, XTables, XParse | LALR automaton as data; soundness invariant of the stack and completeness by induction over derivations; the automaton is checked in the kernel against the paths of the grammar | `C78_parsing_ends`, `C78_syntax_error`, `C78_rounds` |
| C79 | Operators group as in XPath | partial | XParse | corollaries of C77 through Spec/XGrammar | `C79_left_to_right`, `C79_precedence_partial`, `C79_unary_minus`, `C79_full_statement_is_false` |
| C80 | A predicate belongs to the step before it | partial | XParse | corollaries of C77 through Spec/XGrammar | `C80_everything_before`, `C80_operand_partial`, `C80_full_statement_is_false`, `C80_operators_are_inside_too` |
| C81 | Blanks between tokens do not matter | proved | XLex | induction over the scanner | `C81_blanks_anywhere`, `C81_only_the_tokens_matter`, `C81_leading_blanks` |
| C82 | Every MicroXML name can be used as a name test | partial | XLex | induction over the scanner | `C82_names_as_tests_partial`, `C82_full_statement_is_false` |
| C83 | qquery on a text gives the answer on its document | proved | Query, Parser, Heap, XLex, XParse, XPath | composition of C20, C77 and the evaluator theorems; induction over the path | `C83_query_of_a_text`, `C83_bad_expression`, `C83_bad_text`, `C83_query_of_bytes`, `C83_all_elements_of_a_name`, `C83_path_of_names` |
| C84 | A path of names selects the elements along it | proved | Query, Parser, Heap, XLex, XParse, XPath | composition of C20, C77 and the evaluator theorems; induction over the path | `C84_path_of_names`, `C84_path_of_names_top`, `C84_absolute_path_of_names` |
| C85 | All ways to ask a query agree | partial | Query, Parser, Heap, XLex, XParse, XPath | composition of C20, C77 and the evaluator theorems; induction over the path | `C85_ways_to_ask_partial`, `C85_full_statement_is_false` |
| C86 | Comparisons give their truth | partial | XPath | run lemmas for calls, comparisons, variables | `C86_integers`, `C86_floats`, `C86_strings`, `C86_other_operands`, `C86_full_statement_is_false` |
| C87 | name() gives the name | partial | XPath | run lemmas for calls, comparisons, variables | `C87_name_partial`, `C87_full_statement_is_false` |
| C88 | Variables | proved | XPath | run lemmas for calls, comparisons, variables | `C88_variables`, `C88_other_variables_do_not_matter` |
| C89 | for-each is a path whose last step is computed | proved | XPath | run lemmas for calls, comparisons, variables | `C89_for_each_is_a_path`, `C89_bad_text` |
| C90 | Arithmetic | partial | XPath | run lemmas for calls, comparisons, variables | `C90_full_statement_is_false` |
| C91 | number() converts | partial | XPath | run lemmas for calls, comparisons, variables | `C91_number_partial`, `C91_full_statement_is_false` |
| C92 | last() selects the last item | partial | XPath | run lemmas for calls, comparisons, variables | `C92_full_statement_is_false` |
| C93 | Calls are checked | proved | XPath | run lemmas for calls, comparisons, variables | `C93_unknown_function`, `C93_wrong_number_of_arguments` |
| C94 | microx treats every source on its own | partial | MicroxRun, Expat, TreeIter, Query | induction over the list of sources with C22, C33 and C43 | `C94_one_source_partial`, `C94_command_expr`, `C94_command_match`, `C94_command_find_text`, `C94_expression_rejected`, `C94_first_source_again`, `C94_error_in_a_source`, `C94_source_without_element`, `C94_full_statement_is_false` |
| C95 | microx --partition processes each section | proved | MicroxRun, Expat, TreeIter, Query | induction over the list of sources with C22, C33 and C43 | `C95_partition`, `C95_partition_star`, `C95_partition_two_stars` |
| C96 | microx --limit limits the results | partial | MicroxRun, Expat, TreeIter, Query | induction over the list of sources with C22, C33 and C43 | `C96_full_statement_is_false` |
| C97 | Concurrent parses do not interfere | proved | Threads | invariant: every object belongs to the call that made it, and refers only to objects of that call; so the steps of other calls do not touch what a call can reach, and the proof of C20 goes through | `C97_calls_do_not_interfere`, `C97_same_as_alone`, `C97_result_stays`, `C97_trees_are_disjoint`, `C97_call_can_end` |
| C98 | amara3.uxml.parse can be called from several threads | partial | Threads | invariant: every object belongs to the call that made it, and refers only to objects of that call; so the steps of other calls do not touch what a call can reach, and the proof of C20 goes through | `C98_uninterrupted_partial`, `C98_interrupted_call_returns_other_tree`, `C98_full_statement_is_false` |
| C99 | The scanner accounts for every character | proved | Lex | each rule is sound and complete for a declarative set of lexemes, so the scanner is the longest-match scanner; induction over the grammar of documents; for the converse, the tokens are read back deterministically | `C99_every_character_accounted`, `C99_always_ends` |
| C100 | The scanner and the parser agree on documents | partial | Lex | each rule is sound and complete for a declarative set of lexemes, so the scanner is the longest-match scanner; induction over the grammar of documents; for the converse, the tokens are read back deterministically | `C100_scans_documents_partial`, `C100_tokens_determine_the_tree_partial`, `C100_full_statement_is_false`, `C100_name_lost` |
| C101 | Scans do not influence each other | partial | Lex | each rule is sound and complete for a declarative set of lexemes, so the scanner is the longest-match scanner; induction over the grammar of documents; for the converse, the tokens are read back deterministically | `C101_same_as_fresh_partial`, `C101_after_documents`, `C101_full_statement_is_false`, `C101_generators_share` |
| C102 | Iterating with other work in between | proved | Gen: `descendants` as a stack of list iterators, selectors as a filter over one, both reading memory at the time of each `next`; histories of a caller interleaved with the items | invariants over the histories: what is still to come (C102, C103 removals), everything passed has been yielded (C103 changes ahead); C104 by induction over the run of the loop | `C102_reads_the_whole_tree` |
| C103 | Changing the tree while iterating over it | proved | Gen: `descendants` as a stack of list iterators, selectors as a filter over one, both reading memory at the time of each `next`; histories of a caller interleaved with the items | invariants over the histories: what is still to come (C102, C103 removals), everything passed has been yielded (C103 changes ahead); C104 by induction over the run of the loop | `C103_only_removals`, `C103_changes_ahead`, `C103_removal_misses` |
| C104 | Removing elements in a loop over them | partial | Gen: `descendants` as a stack of list iterators, selectors as a filter over one, both reading memory at the time of each `next`; histories of a caller interleaved with the items | invariants over the histories: what is still to come (C102, C103 removals), everything passed has been yielded (C103 changes ahead); C104 by induction over the run of the loop | `C104_no_neighbours_partial`, `C104_what_is_left`, `C104_loop_ends`, `C104_over_a_copy`, `C104_full_statement_is_false` |
| C105 | Holding on to part of a tree | proved | Heap: objects, child lists, weak parent links, any run of the collector | everything reachable is unchanged, so the representation of the tree is; the parent link is read through the weak reference | `C105_kept_element`, `C105_parent_is_lost` |
| C106 | html5lib reads back the names it gave | partial | Html5: `eclass` with the two attributes html5lib reads back, `name`, `namespace`, `nameTuple`, `cloneNode` | case analysis over name and namespace, giving an equivalence; the copy in memory is an allocation, which no tree in memory notices | `C106_html_names_partial`, `C106_name_tuple_exactly`, `C106_xml_name`, `C106_full_statement_is_false` |
| C107 | Copies of HTML elements | partial | Html5: `eclass` with the two attributes html5lib reads back, `name`, `namespace`, `nameTuple`, `cloneNode` | case analysis over name and namespace, giving an equivalence; the copy in memory is an allocation, which no tree in memory notices | `C107_clone_partial`, `C107_names`, `C107_full_statement_is_false` |
| C108 | Assigning the children of an HTML element | proved | Html5: `childNodes` assignment, appending a list of nodes; Spec: html5lib's moving of children, tidy histories | one lemma says what an insertion does to lists and links (`Inserted`); induction over the list of nodes and over the history | `C108_child_nodes_are_set`, `C108_former_children`, `C108_has_content` |
| C109 | Moving the children of an HTML element | proved | Html5: `childNodes` assignment, appending a list of nodes; Spec: html5lib's moving of children, tidy histories | one lemma says what an insertion does to lists and links (`Inserted`); induction over the list of nodes and over the history | `C109_children_are_moved` |
| C110 | Trees built by html5lib are trees | proved | Html5: `childNodes` assignment, appending a list of nodes; Spec: html5lib's moving of children, tidy histories | one lemma says what an insertion does to lists and links (`Inserted`); induction over the list of nodes and over the history | `C110_listed_once`, `C110_one_place`, `C110_is_a_tree` |
| C111 | html5.parse returns the document element | proved | Html5: the root nodes of the document and the choice of the first element | list induction | `C111_first_element`, `C111_none` |
| C112 | Parsing an expression is not influenced by other calls | partial | XThreads: `parser.parse` with its stacks as local state, asking the shared lexer for one token at a time; any interleaving of calls | simulation between the driver that is given all tokens and the one that asks for them; an invariant over all schedules says that every stack stands for tokens some text contains | `C112_uninterrupted_partial`, `C112_others`, `C112_one_after_the_other`, `C112_another_text_is_parsed`, `C112_a_mixture`, `C112_full_statement_is_false`, `C112_any_schedule`, `C112_can_end` |
| C113 | isxml is memory safe | proved | IsXmlC: the C function with checked reads and reference counts | refinement: it never faults and agrees with the model of C60 | `C113_no_fault`, `C113_never_faults` |
| C114 | The subtrees a tree sender passes on are whole and stay whole whatever the garbage collector does | proved | SenderMem: the assignments of the sender's handler one at a time over the memory of Model/Heap, with anything harmless in between; what was sent, with memory as it was then | the invariants of the tree builder (C20), plus: what was sent is older than the root being built, so no assignment touches it; the objects reachable are counted along the chain of open elements; an open subtree is no bigger than what is sent of it | `C114_sent_objects_are_the_trees`, `C114_collector`, `C114_document_partial`, `C114_can_run` |
| C115 | A tree sender's memory does not grow with the document | proved | SenderMem: the assignments of the sender's handler one at a time over the memory of Model/Heap, with anything harmless in between; what was sent, with memory as it was then | the invariants of the tree builder (C20), plus: what was sent is older than the root being built, so no assignment touches it; the objects reachable are counted along the chain of open elements; an open subtree is no bigger than what is sent of it | `C115_what_is_kept`, `C115_memory_bound`, `C115_document_partial` |
| C116 | Events are delivered as soon as the text they report is complete | proved | the parser of Model/Parser; spec: Event.isTag and counts of '<' and '>' | a step never yields more tags than it consumes '>', nor opens more than it consumes '<', and each further bracket adds at most one; a document has as many of each as tags, so over a whole document the bounds are met exactly at every point; outside tags the last event is a tag, inside the next one is | `C116_delivered_so_far`, `C116_in_pieces`, `C116_tag_end_delivers`, `C116_tag_start_delivers`, `C116_nothing_else_delivers` |
| C117 | The attributes of an element are its own | partial | AttrDict: dictionaries as numbered objects, elements and the program refer to them; programs over new mappings, new elements, copies, changes; the programs of the tree builder and of a sender (its building depths taken from Model/TreeIter) | refinement of a model where every element has its own value: no two elements refer to one dictionary, and one held and not yet handed over is referred to from nowhere else; sharing shown exactly | `C117_as_if_copied_partial`, `C117_parsed_elements`, `C117_parsed_attributes`, `C117_one_pattern`, `C117_shared_mapping`, `C117_empty_mapping`, `C117_full_statement_is_false` |
| C118 | A union is in document order whatever happened to the tree before | partial | DocOrder: objects in memory (Model/Heap) and the _docorder attributes they carry; index_docorder with the climb to the top and the descendants generator, the stable sort, AttributeError for a missing number | every node of a tree has one depth, so no element is listed twice and numbering makes the numbers go up along document order; a sorted permutation by increasing numbers is in order; removal leaves a sublist; falsity by a moved element and by numbering from an attribute after the root | `C118_numbered_anew`, `C118_first_at_the_root`, `C118_only_removals_partial`, `C118_added_since`, `C118_full_statement_is_false` |
| C119 | Results of a query are not disturbed by changes behind them | proved | XLive: one step as a generator over objects in memory (Model/Heap), reading child lists as they are at that moment; a caller that reads and changes in any order | the nodes to come are those below the worklist, and stay so when only passed nodes change; sibling axes keep a list of their own | `C119_descendant`, `C119_descendant_or_self`, `C119_siblings`, `C119_following`, `C119_node_tests` |
| C120 | Deleting what a query finds | partial | XLive and xml_remove of Model/Heap | invariant: every child list is the old one without the fitting nodes already passed; the parent of a result is never among the nodes to come; refinement to Node.without; for child exactly takenOut of C104 | `C120_delete_descendants`, `C120_delete_with_slashes`, `C120_delete_children`, `C120_children_no_neighbours_partial`, `C120_full_statement_is_false` |
| C121 | Deleting with // | partial | XLive: the absolute path //test as a walk with the step child::test at every node | invariant: child lists of nodes passed are thinned out (takenOut), of the node being read partly, of nodes to come untouched; all nodes of the old tree are visited, also those already taken out; refinement to Node.thinned | `C121_delete_everywhere`, `C121_document_element`, `C121_no_neighbours_partial`, `C121_full_statement_is_false` |
| C122 | Unions evaluated by several threads over one tree | partial | DocOrderThreads: the evaluation of a union as a state machine over the shared _docorder attributes (test, climb, each assignment, each reading of a key), any number of them under any schedule | invariant: every number there is equals the place in document order from a fixed top, and every key read is such a number; numbers are never taken away; a count of steps left decreases with each own step; falsity by two schedules | `C122_never_out_of_order_partial`, `C122_all_at_the_root_partial`, `C122_numbered_before`, `C122_own_numbering`, `C122_ends`, `C122_full_statement_is_false` |
| C123 | Documents that are no longer used are freed | partial | RootObjects: root_node._cache as a list of entries that refer strongly to elements; memory with a collector that may take away what neither the program nor the cache leads to (Model/Heap) | invariant: an entry is never taken out, so its document element and all that is below stays reachable; a document without entry has no path from the cache, by uniqueness of parents; induction over visited documents | `C123_asked_is_kept`, `C123_what_asking_adds`, `C123_not_asked_is_freed_partial`, `C123_full_statement_is_false`, `C123_visited_exists` |
| C124 | A document has one root node | partial | RootObjects: root_node.get with the root nodes as numbered objects | induction over the ancestors; falsity by asking d, c, a, c in a chain of four elements | `C124_exactly`, `C124_cached_for_ever`, `C124_document_element_first_partial`, `C124_full_statement_is_false` |
| C125 | A write handler is given every piece of the output, in order, with nothing lost | proved | The writer over an arbitrary handler: a state and a function of context and argument (`Model/WriterHandler`). The pieces of a call are specified apart, as one list per call. | Induction over the calls with the handler's state as invariant; injectivity of the pieces from unique decoding of references in attribute values. | `C125_pieces`, `C125_pieces_plain`, `C125_raw_as_handler`, `C125_namespacer`, `C125_nothing_is_lost` |
| C126 | The axes of XPath can be used from text nodes | partial | The steps of `Model/XPath` from any node with a parent; equality of siblings is specified by positions (`Spec/XPathItems`). | `list.index` finds the first equal sibling; the candidate lists are then characterised by membership and order. | `C126_siblings_exactly`, `C126_siblings_partial`, `C126_other_axes_from_text`, `C126_full_statement_is_false`, `firstLike_exists` |
| C127 | The axes of XPath can be used from attributes, values and the root | partial | The same steps from attribute items, the root item and atomic items. | Case analysis over items and axes; ancestors of an attribute by the characterisation of the ancestors of its element. | `C127_values`, `C127_attributes`, `C127_root`, `C127_full_statement_is_false` |
| C128 | /node() yields the document element, and //node() every node of the document once | partial | Absolute paths whose right side is the one step `node()`. | The characterisation of `//` with a child step (C48), with the added root node kept. | `C128_slash_node`, `C128_slash_slash_node_partial`, `C128_only_for_node`, `C128_full_statement_is_false` |
| C129 | Every document that can be parsed can be handled | partial | `Model/Frames`, `Model/FramesWrite`: the recursive functions over trees with the number of nested calls that are left as an argument; what `escape`, `quoteattr` and the text constructor need is a parameter. | Mutual induction over tree and children against the functions without a limit; a tower of k + 1 elements as counterexample, which the parser model accepts (C20). | `C129_encode_partial`, `C129_xml_value_partial`, `C129_strval_partial`, `C129_descendants_partial`, `C129_write_partial`, `C129_write_output_partial`, `C129_select_pattern_partial`, `C129_select_pattern_any_depth`, `C129_select_pattern_fails`, `C129_full_statement_is_false` |
| C130 | make_pretty changes all of the tree or nothing, and never the content | partial | `Model/Frames`: make_pretty with the old child list (whose elements are changed in place) apart from the new one, which is stored only at the end. | Mutual induction: not interrupted means equal to the model without limit; interrupted means `HalfPretty`, defined apart; `bare` is preserved by `HalfPretty`. | `C130_interrupted`, `C130_nothing_is_lost`, `C130_full_statement_is_false` |
| C131 | Errors in the parts of an XPath expression come out, and only the first item of an argument counts | proved | Model/XPath; the positions in an expression that are needed are specified as inductive families of contexts (`Spec/XPathErrors`), closed under nesting. | Each context is a function of the first item of the hole; induction over the nesting. | `C131_first_item_decides`, `C131_errors_come_out`, `C131_errors_later` |
| C132 | The exception the parser raises tells the kind of fault | proved | Model/Parser; exceptions are values of `Err`. | One lemma per coroutine state for the exceptions it can raise, carried over runs by `exec_induct` and over calls by the nesting invariant and by the fact that the unread window is an end of the text sent. | `C132_which_exception`, `C132_bad_reference_in_text`, `C132_bad_reference_in_attribute`, `C132_not_only_runtime` |
| C133 | A tree sender delivers what is complete of a document that is cut off or ill-formed | proved | Model/TreeIter on any text. How far into the document an element ends is specified by counting tags (`Spec/SenderCut`). | Well-nested events extend to the events of an element (frames of open elements closed one by one); the run on the longer stream (C33, C35) is cut after the delivered events; C116 says how many those are. | `C133_any_text`, `C133_cut_off` |
| C134 | Queries for elements by attribute or child | proved | Model/Query, Model/XPath, Model/XLex and XParse, Model/MicroxRun; texts of the queries in `Spec/QueryAttr`. | The texts are parsed by the grammar (C77); `//l/r` is `//l` followed by `r`; C48, C50, C52, C66 give the items; C83 takes it to the text of a document, C94 to the tool. | `C134_elements_with_attribute`, `C134_elements_with_child`, `C134_attributes_of_elements`, `C134_children_of_elements`, `C134_attributes_anywhere`, `C134_microx_prints_attributes`, `C134_documented_examples_fail`, `C134_what_to_write_instead` |
| C135 | Sinks that return or raise | partial | `Model/SenderSinks`: the loop of `Model/TreeIter` with sinks that are arbitrary functions of what they received; a failure stops the loop with the depth stored and the event stack popped, but `_parents[ix]` not moved up. | The run with failing sinks is the plain run up to the first delivery not taken (induction over patterns and events); C33 gives the elements. What is left: the open elements at the end of the delivered one, by induction over the marked events. Later documents: the plain analysis of C33 started from a non-empty path. | `C135_run_up_to_the_failure`, `C135_any_text`, `C135_one_sink_partial`, `C135_sink_is_over`, `C135_first_n`, `C135_left_behind`, `C135_next_document`, `C135_full_statement_is_false`, `C135_other_sinks` |
| C136 | microx --html and --lax treat every source on its own | proved | `Model/MicroxHtml`: sources as what html5lib hands to `html5.parse` and `parse_lax_xml` (`Model/Html5`, `Model/RootObjects`), and the loop of `run` over them. | C111 gives the root, C75 that the element cut out for `--lax` is a tree without a parent; then induction over the sources as in C94. | `C136_html`, `C136_lax`, `C136_lax_nothing_found`, `C136_options`, `C136_html_nothing_found`, `C136_lax_text_found` |
| C137 | An XML sender fed in pieces sends what it would for the whole | proved | `Model/XSender`: the sender of `Model/SenderSinks` with the element stack of the expat callbacks; both live as long as the sender, and a call of `parse` is the callbacks expat makes in it. | Feeding two pieces is feeding their concatenation (induction over the callbacks, then over the pieces); C35 and C43 give what is sent. Chunks: a run on the events and on the events with texts joined go through states that are equal in normal form. | `C137_pieces`, `C137_document`, `C137_chunks` |
| C138 | Indented output reads back as the same document but for white space | proved | `Model/Tree` (`encodeI`) and `Model/Writer` as before. The specification says when two trees differ in white space only (`squeeze`) and which elements contain no elements (`leafElems`). | C19 and C32 say which texts indentation adds; induction over the tree shows that they vanish under `squeeze` and leave it writable, then C01 and C20. The calls of the writer are shown to be those of a padded tree by induction with the calls made before. | `C138_xml_encode`, `C138_writer`, `C138_encode_changes_texts`, `C138_writer_alignment` |
| C139 | A handler that ends stops the parser at that event | proved | `Model/Handlers`: the parser loop of `Model/Parser` with `handler.send` as an operation that can end in `StopIteration` or in an exception, and the `except StopIteration` around the loop. | A run with a handler is the run without one with its events delivered up to the first failure (induction over the steps, then over the calls); what follows a well-formed beginning does not matter by the lemmas of C03 and C06. | `C139_one_call`, `C139_history`, `C139_afterwards`, `C139_handler_ended_elsewhere`, `C139_early_exit`, `C139_new_parser`, `C139_first_events` |
| C140 | Programs that load, edit and save documents do what their calls say | proved | `Heap.changeAttrs`, `Heap.rename` (Model/Edit) with the heap, the builder and the mutation methods (Model/Heap) | Spec/Edit: the program's trees as plain values (`Forest`) and, for each thing a program can do, the call and what it means for the values (`EditStep`). Invariant over all programs: each value is represented in memory by objects nobody else uses. One frame lemma (`rep_change`) for edits at a position, an invariant of the builder for parses while other trees are held; the output by induction on the position. | `C140_memory_is_the_forest`, `C140_trees_are_apart`, `C140_calls_succeed`, `C140_parsing_succeeds`, `C140_changed_here`, `C140_same_elsewhere`, `C140_above`, `C140_output`, `C140_insert_in_output`, `C140_remove_in_output`, `C140_save_and_load` |
| C141 | A path finds the elements along it, each once and in document order | partial | The evaluator of `Model/XPath` | Spec/Routes: what a step leads to, routes, and their order. One list of routes for each element by induction over the steps (C45, C47, C50 for one step); order and uniqueness of the ends by induction from the last step, as steps along self and child keep all routes on one level. | `C141_one_item_per_route`, `C141_from_an_element`, `C141_finds_what_is_along_it`, `C141_in_order_partial`, `C141_each_once_partial`, `C141_full_statement_is_false` |
| C142 | Queries can be rewritten by the laws of paths, predicates and tests | proved | The evaluator of `Model/XPath` | Spec/Rewrite: the laws and the places where they may be used, as an inductive relation. Induction over it; results are compared whole, items and end. Steps and paths yield only items that count as true, tests one boolean or an exception. Union: sorted permutations are equal (C51). | `C142_rewriting_is_sound`, `C142_union_commutes`, `C142_union_associates`, `C142_no_laws` |
| C143 | Results of a path can be changed while the next ones are being read | proved | `Model/XLivePath`: the generators of a step, of `l/r` and of `l[p]` as a suspended state (list position, item counter, inner generators) that is resumed in whatever memory there is by then. | Spec/XLivePath: what a path finds in memory as it is, the caller's history, what may change. Invariant: what a suspended generator has still to give, computed in the memory of the start, is the rest of the list; nodes still to be tried are never below a result given, as all tried nodes are on one level of the tree. The query on the document by induction over the path with `Heap.locate` (C141 for the steps). | `C143_results_can_be_rewritten`, `C143_is_the_query`, `C143_attributes_can_be_changed`, `C143_steps_are_the_query` |
| C144 | The results of a query can be taken out of the tree | proved | `Heap.xmlRemove` (Model/Heap), the evaluator (Model/XPath) | Spec/Prune: the loop, and the tree without the nodes at given positions. Invariant: child lists are the old ones without those taken out, parents the old ones or none; every object has one position (`locate_inj`); induction over the tree for what is left. C143 and C48 for the queries. | `C144_when_it_succeeds`, `C144_what_is_left`, `C144_path`, `C144_everywhere`, `C144_twice_fails` |
| C145 | Records of a stream are copied into a new document as they come | proved | Model/XSender, Model/TreeIter, Model/Writer | Spec/Pipe: the program of test_chunk_parse_write.py. C137 gives what the sink has received after any number of callbacks; the calls made on the namespacer are those of the records in sequence (C30); the text is that of one element, so C15 reads it back; C137_chunks for the chunks. | `C145_written`, `C145_records`, `C145_chunks`, `C145_reads_back` |
| C146 | What a query finds is written as it stands in the document | partial | Model/Tree (xml_encode), Model/XPath | Spec/Pieces: what is written before a position. Induction over positions: a child list is written piece by piece; two positions are split at their first difference; C141 gives the order of the results of a path and route_level that none is inside another; C15 reads the pieces back. | `C146_piece`, `C146_text`, `C146_inside`, `C146_apart`, `C146_cut`, `C146_query`, `C146_reads_back`, `C146_full_statement_is_false` |
| C147 | The MicroXML readers and the XML readers agree on a document | proved | Model/Tree, Model/Expat, Model/XSender, Model/TreeIter | C20 and C44's construction: the tree of the callbacks is described by the joined events, which are those of the document; C137 and run_join for the senders; C148 for the queries. | `C147_trees`, `C147_senders`, `C147_queries` |
| C148 | Queries along elements do not depend on the text between them | proved | Model/XPath | Spec/Bones: the tree without its texts and positions counted among elements. Positions of elements correspond one to one, keeping document order and the axes; so do the routes of C141; two lists of routes with the same members in the same order are equal. Tests by induction over their form. | `C148_paths`, `C148_elements_only`, `C148_elements_and_texts`, `C148_cutting_text`, `C148_indent_and_read`, `C148_not_for_text_nodes` |
| C149 | What a union does in a document too deep for Python's limit on nested calls, and what unions do after that | proved | Model/DocOrderFrames | The stack of calls of `descendants` is the chain of parents of the element that is being visited (GenChain), so its length is the depth; induction over the elements before the first one that is too deep; C118's sort for the rest. | `C149_enough_room`, `C149_too_deep`, `C149_root_enough_room`, `C149_root_too_deep`, `C149_afterwards`, `C149_fails_for_good`, `C149_root_no_room` |
| C150 | What a query finds can be printed | partial | `Item.xmlEncode`, `Item.xmlWrite`: the methods of each kind of item, `collect`: the loop over the results (Model/Printing) | Case analysis on the item, induction on the results; for paths from C141, for reading back from C15; for texts a length argument on `escape`. | `C150_which_items`, `C150_what_is_raised`, `C150_up_to_the_first_that_cannot`, `C150_nodes`, `C150_paths_print`, `C150_elements_read_back`, `C150_text_is_what_is_written_iff`, `C150_attributes`, `C150_full_statement_is_false` |
| C151 | Functions of the caller in queries | partial | Model/UserFns: evaluation with a table of functions that get the context item and the argument expressions unevaluated; `functions or BUILTIN_FUNCTIONS` | With the built-in table it is the evaluator of Model/XPath (evalTN_builtin). Calls by unfolding; that other functions do not matter by induction over the expression (calls_same); tests as in C50. | `C151_none_given`, `C151_a_call`, `C151_nothing_else_can_be_called`, `C151_other_functions_do_not_matter`, `C151_added_to_the_built_in`, `C151_as_a_test`, `C151_full_statement_is_false` |
| C152 | A query that only looks down sees nothing but the element | partial | Model/XPath, Model/Query | Spec/Down: the expressions (an inductive predicate over the whole language), and items moved to another position. Simulation by induction over the predicate: every operation of the evaluator commutes with moving items (Lemmas/Down), with an outer induction over the nesting of for-each; C33 for what a sink is sent. | `C152_only_the_element_counts`, `C152_moved_items`, `C152_changes_elsewhere`, `C152_alone_partial`, `C152_streaming_partial`, `C152_full_statement_is_false` |
| C153 | A query on objects in memory gives what it gives on the document they stand for | proved | Model/XHeap.lean: the evaluator of MicroXPath on a heap of objects, function by function (axes by `xml_children` and `xml_parent`, roots by climbing, document order by numbering the objects); `contextItem` and `xml_xpath` of an object | Refinement: `Item.StandsFor` relates positions of the document to the objects found there; every function of the evaluator keeps the relation (Lemmas/XHeap: walking below, climbing above and siblings, from `Rep`; Lemmas/XHeapEval: items, axes; Lemmas/XHeapRun: numbering against document order, operators, functions, structural induction over expressions, induction over the depth of for-each). What the parser makes has only plain literals, by induction over the grammar. With C140 this holds after any program. | `C153_evaluation`, `C153_xml_xpath`, `C153_items_agree`, `C153_one_to_one`, `C153_bound`, `C153_after_any_program`, `C153_history_does_not_matter`, `C153_save_and_load`, `C153_attached_elements_excluded` |
| C154 | A query keeps to the trees it is given | proved | Model/XHeap.lean (evaluator on a heap of objects), Model/DocOrder.lean (numbers kept between unions), Spec/Edit.lean (programs) | A set of objects closed under children and parents: every function of the evaluator gives the same in two memories that agree on the set, and yields items inside it (`Held`, Lemmas/XApart: structural induction over expressions, induction over the depth of for-each). The set is then what the element and the variables lead to, or the trees of a program; each step of a program that leaves these trees as they are leaves their objects alone. | `C154_isolated`, `C154_results_are_linked`, `C154_results_are_in_the_trees`, `C154_other_trees_do_not_matter`, `C154_union_with_a_foreign_node`, `C154_union_with_a_foreign_root`, `C154_union_depends_on_history` |
| C155 | How much text a parser object holds and how often it reads it | partial | Model/Window: the coroutine with `window`, `pos`, `wlen` and handle_cdata with cursors and slices, as in the code, counting every `window[i]`; `Model/Parser` is its abstraction. | A simulation: each step, run and call by index is the step, run and call on the unread suffix (one lemma per block, well-founded recursion for the scanning loops). The window is unchanged by a step and extended by a call. Reads are paid for by progress in the window and by the measure that decreases at every step that does not repeat itself. The lower bound is an induction over the calls. | `C155_same_as_on_the_suffix`, `C155_same_outcome`, `C155_holds_everything`, `C155_the_read_part_is_not_needed`, `C155_work_of_a_call`, `C155_work_in_one_call`, `C155_work_of_parse`, `C155_work_of_any_call`, `C155_work_of_all_calls`, `C155_work_is_not_proportional` |
| C156 | A query finds exactly the places its path leads to | proved | Spec/Meaning: a language of paths and tests, the expression of each, and its meaning as a relation between places (the root and the positions of elements), one line per form; no new model | mutual induction on paths and tests that the evaluator yields a list of places whose members are exactly those of the relation, and raises nothing; each form uses the laws proved for it before (C45, C46, C49, C51, C53, C57), and the positions on a step the order proved in C134 | `C156_paths`, `C156_tests`, `C156_on_a_text`, `C156_from_an_element`, `C156_same_meaning`, `C156_on_objects`, `C156_after_any_program` |
| C157 | Queries under Python's limit on nested calls: never a wrong answer, and no dependence on the depth of the document unless text is asked for | partial | XFrames: the evaluator of Model/XPath line by line with the number of nested calls still allowed as an argument, RecursionError as one more exception; what functions of the library and of Python need is a parameter | induction on expressions, first that the result with a limit is a cut of the one without (each combinator of results respects cuts), then that `calls` is enough; the height of the document enters through the laws of C129 for `strval`, `xml_value` and `descendants` | `C157_same_or_RecursionError`, `C157_more_room`, `C157_enough_room`, `C157_any_depth`, `C157_some_room_is_enough`, `C157_too_deep`, `C157_union_too_deep`, `C157_full_statement_is_false`, `C157_core`, `C157_core_any_depth` |
| C158 | Earlier queries, and queries under way, do not change what a query yields | partial | XMarks: the evaluator of Model/XPath once more, as generators that run only when asked for an item and share the order numbers of the nodes (an inductive type: end, yield, or act on the numbers and go on), and sessions: queries asked and items taken in any order | a relation between generators and results (whatever the numbers are, within what queries can have left, the generator yields the items of the result), respected by each combinator, with two degrees of knowledge about the numbers (each element numbered in document order; or that or none) of which the better one is kept once reached; then induction on expressions and on sessions | `C158_history_does_not_matter_partial`, `C158_after_parsing_partial`, `C158_full_statement_is_false` |
| C159 | Asking each record of a stream is asking the whole document | proved | `TreeIter`, `XSender`, `Query`, `XPath`; the records' results one after the other are `inTurn` (Spec/Stream) | A pattern of names fits exactly the elements along the names (`outermost_strings`), which is what the path selects (C84); at each of them C152 moves the query into the record; texts are related by the laws of C142. | `C159_stream_and_tree`, `C159_xml_stream_and_tree`, `C159_same_values`, `C159_only_down` |
| C160 | Several patterns at once: whole objects, nothing shared | proved | `SendersMem`: the loop over the patterns of `_handler`, one assignment at a time, with the shared `new_element` and `new_text`, one `_roots[ix]` and `_parents[ix]` per pattern, the shared event stack, and something else happening to memory between any two assignments | an invariant: for each pattern the chain of open elements of its subtree (as in C114), and nothing is reachable from the top of a subtree being built and from anything else that is held; an assignment for one pattern is then, for the others, something that happens elsewhere | `C160_several_patterns`, `C160_can_run`, `C160_document` |
| C161 | Several patterns at once: memory | proved | `SendersMem` | the invariant of C160 with `new_element` inside one of the subtrees; an open subtree is no bigger than the tree that will be sent (induction on the rest of the events) | `C161_what_is_kept`, `C161_memory_bound`, `C161_document` |
| C162 | A query's results come in a known order, each a known number of times | proved | `eval` of `Model/XPath` on the language of C156; `CorePath.Gives` (Spec/MeaningList) is the list for each form | induction over the path, using the order parts of C47, C45, C49, C50 and C51; uniqueness by induction, since lists in a strict order with the same members are equal | `C162_exactly`, `C162_one_list`, `C162_count_and_number`, `C162_on_a_text`, `C162_from_an_element` |
| C163 | What the command line tool prints for paths | proved | `MicroxRun`, `MicroxRunAll` on command lines that say paths (`Ask.SaidBy`) | composition of C94/C95/C136 (which documents are processed), C63 (what is printed for items) and C162 (which items) | `C163_one_source`, `C163_lines_exist`, `C163_partition`, `C163_html`, `C163_foreach_is_a_step`, `C163_match_is_anywhere` |
| C164 | Queries for texts, attributes, counts, strings and names | proved | Model/XPath, Model/XParse, Model/Microx (nothing new) | Spec/MeaningValues: what each last step gives from a place, lists of things found, lines printed. From C47, C46 and C66 for one step and C162 for the path in front; uniqueness of the lists makes it exact; the tool by C63, C94, C95, C136. | `C164_exactly`, `C164_one_list`, `C164_count_and_string`, `C164_name`, `C164_on_a_text`, `C164_from_an_element`, `C164_microx_one_source`, `C164_lines_exist`, `C164_microx_partition`, `C164_microx_html`, `C164_texts_out_of_order` |
| C165 | text() and node() written alone stand for the children | partial | Model/XParse: the parse tables, Model/XPath | evaluation of the parser on the two texts, whatever the numbers are; C164 for the forms written out | `C165_alone_partial`, `C165_written_out`, `C165_full_statement_is_false` |
| C166 | queries with tests on what other queries find | proved | Model/XPath, Model/XParse, Model/Microx (nothing new) | Spec/MeaningTests: three mutual inductive types of paths, lists and tests, their expressions and their meaning. One mutual induction shows that each yields exactly its list or truth value; C50, C52, C54, C55, C86, C87 for the single forms, C162 and C164 for the innermost paths and last steps. | `C166_exactly`, `C166_one_list`, `C166_tests`, `C166_on_a_text`, `C166_from_an_element`, `C166_microx_one_source`, `C166_first_is_not_some` |
| C167 | queries mean what their text says | proved | Model/XLex, Model/XParse, Model/XPath (nothing new) | Spec/QueryText: inductive relations between tokens and queries, one rule for each form. One mutual induction shows that the grammar of C77 gives exactly the expression of the query; C77 makes it what the parser returns, C166 what it yields. The lookup is spelled out character by character. | `C167_is_read`, `C167_on_a_text`, `C167_from_an_element`, `C167_can_be_spelled`, `C167_lookup` |
| C168 | // means the same after a bracket as before one | partial | Model/XPath: `Expr.dslash` | C166 for one step; for more steps the two expressions evaluate alike, and a concrete document shows the difference | `C168_one_step_partial`, `C168_more_steps`, `C168_full_statement_is_false` |
| C169 | The command line tool prints, for queries with tests, exactly the lines they say, from their text | proved | Model/Microx, Model/XLex, Model/XParse, Model/XPath (nothing new) | Spec/MicroxTests: how the queries are written, the lines for them at a place, and for the four ways to ask. C167 gives what the parser returns, C166 what it yields, C63 what is printed for one document, C94, C95 and C136 for the sources. | `C169_lines_exist`, `C169_one_source`, `C169_partition`, `C169_html` |
| C170 | A variable stands for its value | partial | Model/XPath, Model/XParse (nothing new) | Spec/VarValues: filling variables in, and texts with constants replaced by variables. Simultaneous induction over the grammar of C77 shows that the two texts denote expressions with the same filling; induction over expressions that filling changes no results. The lookup composes this with C166. | `C170_stands_for_its_value_partial`, `C170_in_the_text_partial`, `C170_on_a_text_partial`, `C170_full_statement_is_false`, `C170_lookup` |
| C171 | A query with tests finds the same in a tree and in the text it is saved as | proved | Model/XPath, Model/Writer, Model/Microx (nothing new) | Spec/SameElems: which queries are meant, and what the same place is. One mutual induction over paths, lists and tests carries the correspondence of C148 through the meanings of C166; C167, C19 and C148's lemmas give the corollaries for saved and indented texts. | `C171_same_found`, `C171_same_lines`, `C171_same_lines_any_text`, `C171_save_and_ask_again`, `C171_indent_and_ask_again`, `C171_not_with_empty_text` |
| C172 | Asking each record of a stream a query with tests is asking the whole document | proved | Model/TreeIter, Model/XSender, Model/XPath, Model/XParse (nothing new) | Spec/StreamTests: queries that look down, a path put in front of a query, and moved results. C33 and C145 give the records, C152 what a record yields alone, C166 the meanings; inductions over the queries show that a path in front means the meaning from each of its places in turn, and how that is written (C167). | `C172_asking_a_record`, `C172_stream_and_tree`, `C172_xml_stream_and_tree`, `C172_numbers_count_across_records` |
| C173 | The selection functions and the queries for the same thing agree | proved | Model/TreeUtil, Model/XPath, Model/XParse (nothing new) | Spec/Selectors: chains of selectors and the tokens of the queries. The children with a property, by number, are what is selected and, by C166's meanings, what is found; induction over patterns; C37 and C39 for descendants and siblings; C167 for the texts. | `C173_selectors`, `C173_patterns`, `C173_descendants`, `C173_following_siblings`, `C173_select_value_takes_texts` |
| C174 | A program that copies the records passing a test copies what the query with that test finds | proved | Model/TreeIter, Model/XSender, Model/XPath, Model/XParse, Model/Writer (nothing new) | Spec/Filter: the sink's condition. C152 through C172's lemma shows that tests that look down hold of a record when they hold of its element; C166 then gives the query on a record and that on the document, C33 and C145 the records, C145 the text and C15 its reading. | `C174_testing_a_record`, `C174_filtered_stream`, `C174_filtered_xml_stream`, `C174_reads_back`, `C174_only_what_is_in_the_record` |
| C175 | A program that deletes what a query with tests finds deletes just that | proved | Model/Heap, Model/XHeap, Model/XPath, Model/XParse, Model/Writer (nothing new) | Spec/Purge: tests on the element itself. C48 and C166 give the list of positions, C153 the objects, C144 what removing them leaves. A node that is left was there before and not in the list; tests on the element itself say the same of it before and after; so nothing is found again. C15 for the saved text. | `C175_taking_out`, `C175_parse_clear_save`, `C175_may_find_more` |
| C176 | A stream with a pattern of names and '*' sends what the query with the same text finds | proved | Model/TreeIter, Model/XSender, Model/XPath, Model/XParse (nothing new) | Spec/StarStream: what a stage asks of an element. C33 and C145 say what is sent in terms of patterns laid along open elements; for names and '*' that is one element for each stage. Induction over the stages gives what the query means (C166) and that it is in document order, so the two lists are the same; then as for C172 and C174, whose lemmas are now stated for any path. | `C176_records_are_the_query`, `C176_xml_records_are_the_query`, `C176_stream_and_tree`, `C176_filtered_stream`, `C176_two_stars_send_less`, `C176_two_stars_send_the_outermost` |
| C177 | A program that marks or renames what a query with tests finds changes the tags of just those elements | proved | Model/Edit, Model/XHeap, Model/XPath, Model/XParse, Model/Writer (nothing new) | Spec/Mark: the loop on objects, and what each position of a tree becomes. Neither assignment changes the list of children, so positions stay; one assignment changes one position (induction over the position), the loop those of the list (induction over it, with C140's steps). C166 on the tree before and the tree after gives what is found then; C15 the saved text. | `C177_touching`, `C177_marked_are_found`, `C177_dropped_are_not_found`, `C177_renamed_are_found`, `C177_parse_touch_save`, `C177_asked_again` |
| C178 | A program that moves what a query with tests finds to another tree moves just that | proved | Model/Edit, Model/XHeap, Model/XPath, Model/XParse (nothing new) | Spec/Move: the second loop on objects, and the trees cut out. After the first loop (C175) the tree and each cut piece are separate trees of the memory; each append is one step of C140, and the invariant of the second loop is that the objects not yet appended still are trees, by induction over the list. What is found then: each node of the new tree is one of w's, the top of a piece, or a node of the document that was not a result. Nothing lost: the sum over the pieces is split at each child into that child, what is below it and the later children (induction over the tree). | `C178_moving`, `C178_found_there`, `C178_nothing_lost` |
| C179 | A program that adds a child to what a query with tests finds adds just that | proved | Model/Edit, Model/Heap, Model/XHeap, Model/XPath, Model/XParse, Model/Writer (nothing new) | Spec/Grow: the loop on objects, and the tree with a child added at each of some positions. A child appended last moves no other position, so the positions of the list stay good through the loop; the tree after each round is the tree with one more position in the list (induction over the position), and the rounds are steps of C140. C166, C48 and C15 then say what is found and saved. | `C179_adding`, `C179_found_then`, `C179_add_and_save` |
| C180 | Copying what a query with tests finds | proved | Model/Edit, Model/Heap, Model/XHeap, Model/XPath, Model/XParse, Model/Writer, Model/Parser (nothing new) | Spec/Copy: the loop on objects, with a garbage collector that may run during each parse, and the list of the copies. One round: what a result serialises to is a document for its tree with adjacent texts merged (C15), so parsing it succeeds and gives a new tree (C140), leaves every object of a tree that is held alone, and appending the new tree changes only the object of w and the new root; so every position in the document still has its object, and the list of results stays good (induction on the list). Trees at the top have no object in common. Merging texts keeps a tree writable (induction on the tree). | `C180_copying`, `C180_copy_and_save`, `C180_found_again`, `C180_found_there` |

## What is missing from the partial ones

* **C02** Where the input is cut into fragments does not matter: false of the code when a cut falls inside a quoted attribute value; proved for all other cuts; for the text of a document cut inside a value it is proved what happens instead: the tag with that value and everything after it is lost, nothing wrong is delivered, and the calls return or one raises.
* **C26** Removal removes exactly the given child: false of the code for text children with equal characters: removal goes by ==, so an earlier equal text is taken out instead.
* **C33** The tree sender delivers exactly the outermost matching elements: exact, event by event, for patterns without '**' or whose later stages after '**' are wildcards (Safe); for other patterns nothing but matches is sent but matches can be missed; what is sent (every '**' ends at the first fit) is stated exactly.
* **C34** Pattern matching means what the documentation says: '**' takes the first element that fits what follows, so the claim is false for some patterns with '**'; the exact meaning, and when a TypeError is raised, is proved for every pattern.
* **C35** Several patterns: each sink gets its own matches: false of the code: the patterns share one event stack and each pattern continues with the ones before it; what each sink does get is stated exactly.
* **C39** following_siblings yields the later siblings: false of the code for a text node with an equal text before it; what is yielded then is stated exactly.
* **C40** select_pattern selects the matching descendants: exact for patterns without '**'; with '**' only outermost matches, and only for patterns whose later stages after '**' are wildcards; false otherwise, and what is found instead (every '**' ends at the first fit) is stated exactly for every pattern.
* **C42** make_pretty indents uniformly and is idempotent: false of the code: the indent is not passed on and the second application moves end tags; stable from the second application on.
* **C45** Path steps compose: left/right is exactly the concatenation in order; associativity fails when an intermediate item is falsy (an empty string, 0 or False), where the engine falls back to the outer context item.
* **C47** Name tests select by name: the name test on the ancestor axis also yields the root; star on the child axis is exact.
* **C50** Boolean predicates filter in order: exact for non-numeric predicates at truthy items; falsy items are tested against the outer context item.
* **C51** Union is in document order and complete: in document order and complete, and each once when the sides are disjoint; an element in both sides is yielded twice.
* **C52** Equality with a string compares every item: only the first item of the left side is compared.
* **C55** String functions: substring-before yields the whole string if the separator is absent; an empty argument counts as the string False.
* **C56** Evaluating an expression does not change it: results never depend on earlier evaluations; the text does: evaluating a//b rewrites the right step.
* **C57** Boolean connectives: an operand that yields nothing raises RuntimeError instead of counting as false.
* **C58** Evaluation always terminates: false of the axis ancestor-or-self (endless) and of for-each on strings that contain for-each; every other expression ends.
* **C59** The root of a node is the root of the tree it is in: false when an element is moved after it was queried; right in every other history.
* **C62** HTML insertBefore puts text and elements before the reference child: false if ref is a text node equal to an earlier one, or insertText before an empty text.
* **C63** microx --match visits every element once: false when an item is the root node (NotImplementedError); find-text paths leave out the element that contains the text.
* **C65** A sink may keep what it is sent: false of the code when a sink attaches what it receives to an element of its own.
* **C66** Attribute steps yield the attributes: @node() yields only an attribute called node, and attribute nodes lose their name.
* **C67** l//name selects descendants: exact result stated: the element itself is included.
* **C68** Successive predicates filter one after the other: true unless a predicate after the first is a number.
* **C69** The serialisation of an expression denotes it: false for expressions with strings (quotes are lost), a minus after a name or a slash after the root.
* **C70** The string value of a node is the text in it: string(/) is empty.
* **C72** HTML removeChild takes one child out: the removed child keeps its xml_parent.
* **C75** parse_lax_xml returns the first element detached: IndexError, not ValueError, when the body has no child.
* **C76** Names delivered by the parser are names: <></> is accepted, and attribute names can be a character followed by name characters.
* **C79** Operators group as in XPath: and is as strong as or: a or b and c is (a or b) and c.
* **C80** A predicate belongs to the step before it: false as soon as the bracket follows a path or an operator: the bracket then filters everything before it.
* **C82** Every MicroXML name can be used as a name test: names with a character from U+00C0 to U+00D6 are rejected by the lexer.
* **C85** All ways to ask a query agree: qquery with a parsed expression always raises UnboundLocalError.
* **C86** Comparisons give their truth: integers and strings by their first items only; elements, attributes and mixed operands raise TypeError; floats are compared by an abstract operation.
* **C87** name() gives the name: the name of an attribute is lost; the context argument is the first item.
* **C90** Arithmetic: false for every operand: NotImplementedError or TypeError.
* **C91** number() converts: what is not a number is a ValueError, an empty sequence too; booleans stay booleans.
* **C92** last() selects the last item: false for every expression: last() is -1.
* **C94** microx treats every source on its own: false with two or more sources: the shared builder returns the first document for every source; what is printed is stated exactly.
* **C96** microx --limit limits the results: false: the option is accepted and never used.
* **C98** amara3.uxml.parse can be called from several threads: false: the calls share one builder; for any two documents there is a schedule in which one call returns the tree of the other's document; what holds is shown for calls that are not interrupted.
* **C100** The scanner and the parser agree on documents: false for documents with white space between '<' and '/' and for element names that begin or end with U+1680.
* **C101** Scans do not influence each other: false: the module has one lexer; a text that ends inside a tag changes how the next one is scanned.
* **C104** Removing elements in a loop over them: false of the code: the node after a removed one is passed over; what is left is stated exactly, and the loop over a copy of the list is proved to do what is wanted.
* **C106** html5lib reads back the names it gave: false for names with a colon and for namespaces other than XHTML (SVG, MathML); the cases in which it holds are stated exactly.
* **C107** Copies of HTML elements: false: the copy of an HTML element has no namespace, so its nameTuple differs.
* **C112** Parsing an expression is not influenced by other calls: false for threads: calls share one lexer, so a call can parse another call's text or a mixture; true for calls that are not interrupted, from any state of the lexer, and under any schedule the result is one that the grammar derives from tokens written in the texts.
* **C117** The attributes of an element are its own: false of the code when one non-empty mapping is passed for two elements, and for the elements a sender with several patterns makes of one tag; proved for parsed trees, for a sender with one pattern, for copies, and for every program that passes each mapping once.
* **C118** A union is in document order whatever happened to the tree before: false of the code: the numbers are never refreshed, so a moved element keeps its old place, an added one makes the union raise AttributeError, and numbering from an element gives the document element the number of the root; proved when the context node has no number yet, and when nodes have only been removed since.
* **C120** Deleting what a query finds: proved for descendant::n and .//n; false of the code for child::n: the step reads the child list itself and passes over the node after each one removed.
* **C121** Deleting with //: false of the code: //n reads every child list with the list's own iterator, so the second of two neighbours is left; what is left is stated exactly for every tree, and is what was asked for if no two neighbours have the name.
* **C122** Unions evaluated by several threads over one tree: The full statement is false of the code: the numbering is not atomic and is skipped as soon as the context has a number. Proved for every schedule: no wrong order among threads whose contexts share a top, no error for contexts that number the tree themselves or once the tree is numbered, and that every evaluation ends.
* **C123** Documents that are no longer used are freed: The full statement is false of the code: the cache of root nodes holds elements strongly and is never emptied. Proved: exactly what one query adds to it, that a document asked once is kept whatever happens, and that a document not asked is freed.
* **C124** A document has one root node: The full statement is false of the code. Proved: which root node is used, for every tree and cache.
* **C126** The axes of XPath can be used from text nodes: The full statement is false of the code: siblings are counted from the first sibling equal to the text, and the ancestor axis ends in AssertionError. Proved: exactly what each axis yields, for every node and test.
* **C127** The axes of XPath can be used from attributes, values and the root: The full statement is false of the code. Proved: exactly what each axis yields or raises; ancestor-or-self from an attribute does not end and is covered by C58.
* **C128** /node() yields the document element, and //node() every node of the document once: The full statement is false of the code: the root node is yielded first. Proved: exactly what is yielded, for every document.
* **C129** Every document that can be parsed can be handled: The full statement is false of the code. Proved: for every limit what is returned, if anything, is the result without a limit, and from which depth on RecursionError is certain or excluded.
* **C130** make_pretty changes all of the tree or nothing, and never the content: The claim 'all or nothing' is false of the code. Proved: exactly which state an interrupted make_pretty leaves, when it is interrupted, and that no content is ever lost.
* **C135** Sinks that return or raise: The last sentence is false of the code: a sender whose sink failed keeps the start events of the elements around the failed one, and takes every later document as though it stood there. What it then sends, and what it appends to the failed element, is stated exactly. With '**' before named stages the matches are those of C33.
* **C141** A path finds the elements along it, each once and in document order: Which elements are found is proved in full, and how often and in which order: one item per route. `Each once and in document order` is false in general, `descendant::b/descendant::c` yields an element below two `b` twice and `descendant::b/c` yields the children of the outer `b` before those of an inner one that comes earlier (C141_full_statement_is_false); it is proved for paths with one step of open depth.
* **C146** What a query finds is written as it stands in the document: Exact for elements. False for text nodes: xml_encode of a text does not escape, so the piece of a text is its escaped form (C146_text) and not what xml_encode gives.
* **C150** What a query finds can be printed: Proved for elements and exact for the rest. False for the root, strings, numbers and booleans, which have no serialisation and end the loop with an exception; for attributes, of which only the value is printed and which cannot be written; and for texts with any of & < >, which are not escaped.
* **C151** Functions of the caller in queries: Full statement false: the mapping given replaces the built-in functions, so that built-in functions can no longer be called unless the caller puts them in. Functions are modelled as pure and as looking at the context item only.
* **C152** A query that only looks down sees nothing but the element: Proved for all of the language below an element, in any two documents. False for the element alone, where the context item is the root instead of the element; the query has to begin with */ there. Unions in trees that carry no numbers from earlier queries (C118).
* **C155** How much text a parser object holds and how often it reads it: Everything stated is proved. Partial because what a user of a streaming parser expects is false of the code: C155_holds_everything (memory grows with the text) and C155_work_is_not_proportional (work grows with the square of a text passed in small pieces). Reads are evaluations of window[i]; slices and string concatenation are not counted.
* **C157** Queries under Python's limit on nested calls: never a wrong answer, and no dependence on the depth of the document unless text is asked for: Everything but the last clause is proved; that one is false of the code: C157_full_statement_is_false gives, for every limit, a document that is parsed and on which string(.) raises RecursionError. C157_enough_room and C157_any_depth, which give the number of calls, leave out for-each, which evaluates strings as expressions; C157_some_room_is_enough covers it.
* **C158** Earlier queries, and queries under way, do not change what a query yields: Proved for all queries in which the two sides of a union never yield the root node (a condition on the text of the query), for every history and interleaving. With the root node in a union the claim is false of the code: C158_full_statement_is_false gives the history.
* **C165** text() and node() written alone stand for the children: False of the code: the grammar takes text() and node() written alone for expressions, not for steps, so that they are applied to the context node itself: text() finds nothing and node() finds the element. Proved: exactly that, and that the forms written out find the children.
* **C168** // means the same after a bracket as before one: False of the code when more than one step follows: a[@k]//b/c is evaluated as a[@k]/b/c. Proved for one step after //.
* **C170** A variable stands for its value: False of the code for the start and length of substring: substring('abc', $i, 1) raises RuntimeError where substring('abc', 1, 1) yields 'a'. Proved for every query in which no variable stands there.
