{"id": "C01", "title": "Every MicroXML text is parsed to the events of the element it denotes", "statement": "Feeding the parser any text that is a MicroXML rendering of an element (with start and end tags and no comments; any white space in tags, either kind of quote, any character written literally, as a named reference or as a hexadecimal reference) delivers exactly the start, characters and end events of that element in document order, with the right names, attribute values, text and list of open ancestors, raises nothing, and leaves the document complete.", "quantifier": "all elements of any depth and width, all attribute maps and texts over the legal characters, all spellings of them as text, and all surrounding white space", "why_tests_cant": "The set of documents and of spellings of each document is infinite, and nesting is unbounded.", "anchors": [{"file": "pylib/uxml/parser.py", "symbols": ["parser", "handle_cdata"]}]}
{"id": "C02", "title": "Where the input is cut into fragments does not matter", "statement": "The events delivered, and whether an exception is raised, depend only on the concatenation of the fragments sent to the parser, not on where the text is cut.", "quantifier": "all input texts, well-formed or not, and all ways of cutting them into fragments, of any number and length", "why_tests_cant": "There are exponentially many fragmentations of each of infinitely many texts; the repo's 'character by character' tests in fact iterate over a one-element tuple and never split a character.", "anchors": [{"file": "pylib/uxml/parser.py", "symbols": ["parser", "handle_cdata", "parsefrags"]}]}
{"id": "C03", "title": "Events are always well nested and carry the true ancestor list", "statement": "At every moment, whatever has been fed, the events delivered so far are a prefix of a well-nested stream: every end event has the name of the most recently opened element that is still open, and the ancestor list in each start and end event is exactly the list of names of the elements open around it, outermost first.", "quantifier": "all input texts including malformed ones, all fragmentations, all moments of the parse", "why_tests_cant": "It is an invariant over every reachable state of the state machine.", "anchors": [{"file": "pylib/uxml/parser.py", "symbols": ["parser"]}]}
{"id": "C04", "title": "One document element, then nothing", "statement": "At most one top-level element is delivered: once its end event has been delivered no further event is ever delivered; feeding white space after that is accepted silently and feeding anything else raises.", "quantifier": "all histories of fragments fed to one parser", "why_tests_cant": "It constrains all continuations of all histories.", "anchors": [{"file": "pylib/uxml/parser.py", "symbols": ["parser"]}]}
{"id": "C05", "title": "Exactly when feeding a non-final fragment fails to return", "statement": "send((fragment, False)) returns control to the caller or raises, for every state the parser can be in, except that it never returns in exactly one situation: no element has been started yet and the first character that is not white space is not '<' (for instance a byte order mark or stray text).", "quantifier": "all reachable parser states and all fragments", "why_tests_cant": "Termination for all inputs and non-termination for a family of inputs cannot be observed by running tests.", "anchors": [{"file": "pylib/uxml/parser.py", "symbols": ["parser"]}]}
{"id": "C06", "title": "Exactly when a final fragment fails to return", "statement": "send((text, True)) on a fresh parser never returns if the text ends before a token the parser is waiting for: inside a tag name, a tag (except inside an attribute value or right after its '='), or text content that is not followed by '<'; it returns or raises when the text is a complete document, or when it ends just after a start tag.", "quantifier": "all texts passed as a final fragment", "why_tests_cant": "Non-termination cannot be observed by tests.", "anchors": [{"file": "pylib/uxml/parser.py", "symbols": ["parser", "parse"]}]}
{"id": "C07", "title": "Character references decode to the character they denote", "statement": "In text and in attribute values &lt; &gt; &amp; &quot; &apos; and &#xH..H; deliver exactly the character they denote when it is a legal MicroXML character; an unknown name, an empty or out-of-range number or a number of an illegal character raises and nothing of the enclosing run of text is delivered.", "quantifier": "all reference names, all hexadecimal digit strings of any length, all positions and contexts", "why_tests_cant": "The digit strings and the contexts are unbounded.", "anchors": [{"file": "pylib/uxml/parser.py", "symbols": ["handle_cdata", "CHARNAMES", "CHARACTER"]}]}
{"id": "C08", "title": "Only legal characters are delivered", "statement": "Whatever the input, every character of every delivered text and of every delivered attribute value is a legal MicroXML character, no delivered text is empty, and every delivered element name is either empty or a name-start character followed by name characters.", "quantifier": "all inputs, malformed or not, all fragmentations", "why_tests_cant": "It ranges over all inputs over the whole of Unicode.", "anchors": [{"file": "pylib/uxml/parser.py", "symbols": ["parser", "handle_cdata", "CHARACTER", "DATACHAR", "ATTRIBVALCHAR_SGL", "ATTRIBVALCHAR_DBL"]}]}
{"id": "C09", "title": "An end tag that does not match raises", "statement": "An end tag whose name differs from that of the innermost open element, or that appears when no element is open, makes the parser raise, and no event is delivered for it or after it.", "quantifier": "all parser states between tags, all names, all white space in the tag", "why_tests_cant": "All open-element stacks and all names are involved.", "anchors": [{"file": "pylib/uxml/parser.py", "symbols": ["parser"]}]}
{"id": "C10", "title": "Repeated attributes: the last value wins, in the place of the first", "statement": "The attribute mapping delivered with a start event maps each attribute name written in the tag to the value written last for it, lists the names in the order of their first appearance, and contains nothing from any other tag.", "quantifier": "all attribute lists of any length, with any repetition", "why_tests_cant": "Lists of attributes are unbounded and the claim is about leakage between any two tags.", "anchors": [{"file": "pylib/uxml/parser.py", "symbols": ["parser"]}]}
{"id": "C11", "title": "A truncated document delivers a prefix of its events and is not reported", "statement": "For every valid document text and every prefix of it, feeding the prefix delivers a prefix of the events of the whole document and raises nothing; tree.parse of the prefix returns the partial tree (or None) without raising.", "quantifier": "all valid documents and all truncation points", "why_tests_cant": "All documents and all crash points of the producer of the text are involved.", "anchors": [{"file": "pylib/uxml/parser.py", "symbols": ["parser"]}, {"file": "pylib/uxml/tree.py", "symbols": ["treebuilder.parse"]}]}
{"id": "C12", "title": "Illegal characters in content are silently dropped", "statement": "In text content a character that is not allowed there (a raw '>', a carriage return, a control character, a non-character) is neither reported nor delivered: the text delivered for a run of input without '&' or '<' is that run with exactly the disallowed characters removed; likewise between the quotes of an attribute value, where also tab, newline and '<' are removed.", "quantifier": "all character runs of any length over all of Unicode", "why_tests_cant": "Unbounded runs over a million code points.", "anchors": [{"file": "pylib/uxml/parser.py", "symbols": ["handle_cdata", "DATACHAR", "ATTRIBVALCHAR_SGL", "ATTRIBVALCHAR_DBL"]}]}
{"id": "C13", "title": "parse and parsefrags: what the iterators yield", "statement": "On a complete document parse(text) and parsefrags(fragments) yield one spurious None followed by exactly the events a hand-made handler would receive; if the parser raises they yield nothing and raise.", "quantifier": "all texts and fragment lists", "why_tests_cant": "It is a statement about all inputs, and the tests never call these functions.", "anchors": [{"file": "pylib/uxml/parser.py", "symbols": ["parse", "parsefrags", "handler"]}]}
{"id": "C14", "title": "A malformed reference silently stops the parser", "statement": "A '&' followed by something that is neither a run of ASCII alphanumerics closed by ';' nor '#x' (for example a decimal reference such as &#10;) raises nothing: from then on no event is ever delivered, however much input follows, as long as it occurs in text content.", "quantifier": "all inputs containing such a reference in text and all continuations, however long", "why_tests_cant": "It is a liveness failure over unbounded continuations.", "anchors": [{"file": "pylib/uxml/parser.py", "symbols": ["handle_cdata"]}]}
{"id": "C15", "title": "Serialise then parse gives back the same element", "statement": "For every element whose names are names, whose text and attribute values are legal characters other than tab and newline in attribute values, tree.parse(e.xml_encode()) is structurally equal to e up to merging adjacent text and dropping empty text; two such merged elements with the same serialisation are equal.", "quantifier": "all such elements of any depth and width", "why_tests_cant": "Unbounded trees and strings.", "anchors": [{"file": "pylib/uxml/tree.py", "symbols": ["element.xml_encode", "parse", "treebuilder"]}, {"file": "pylib/uxml/parser.py", "symbols": ["parser"]}]}
{"id": "C16", "title": "Serialisation cannot be used to inject markup", "statement": "Whatever the text or attribute value, its serialised form contains no '<' or '>' and no '&' except as the first character of one of the references the serialiser writes, and an attribute value's serialised form does not contain its own quote character between the quotes; un-escaping the serialised text gives back the original exactly.", "quantifier": "all strings over all of Unicode", "why_tests_cant": "All strings.", "anchors": [{"file": "pylib/uxml/tree.py", "symbols": ["element.xml_encode"]}, {"file": "pylib/uxml/writer.py", "symbols": ["raw.write", "raw.start_element"]}]}
{"id": "C17", "title": "Tab and newline in attribute values do not survive a round trip", "statement": "An attribute value containing a tab, newline or carriage return is serialised with decimal references that the library's own parser never gets past: parsing the serialised element delivers no start event for that element.", "quantifier": "all elements with such a value in any of their attributes", "why_tests_cant": "All strings containing such a character in any position.", "anchors": [{"file": "pylib/uxml/tree.py", "symbols": ["element.xml_encode"]}, {"file": "pylib/uxml/parser.py", "symbols": ["handle_cdata"]}]}
{"id": "C18", "title": "String value", "statement": "xml_value and strval of an element agree and equal the concatenation, in document order, of all text anywhere below it; it equals the concatenation of the characters events of the element and is unchanged by how text is split into adjacent text nodes.", "quantifier": "all elements", "why_tests_cant": "Unbounded trees.", "anchors": [{"file": "pylib/uxml/tree.py", "symbols": ["element.xml_value", "strval", "text.xml_value"]}]}
{"id": "C19", "title": "Indented serialisation changes only white space", "statement": "xml_encode(indent=...) with a white space indent differs from xml_encode() only in inserted white space that lies outside tags: with the inserted runs removed the two are equal, for every starting depth.", "quantifier": "all elements, all indent strings, all depths", "why_tests_cant": "Unbounded trees.", "anchors": [{"file": "pylib/uxml/tree.py", "symbols": ["element.xml_encode"]}]}
{"id": "C20", "title": "The tree builder builds the document's tree", "statement": "tree.parse on any text that renders an element returns that element: names, attributes, child order, text, with every child's xml_parent the element containing it and the root's None.", "quantifier": "all valid document texts", "why_tests_cant": "Unbounded documents.", "anchors": [{"file": "pylib/uxml/tree.py", "symbols": ["treebuilder._handler", "treebuilder.parse", "parse"]}]}
{"id": "C21", "title": "One tree builder can be reused", "statement": "The result of treebuilder.parse depends only on its argument, not on what the builder parsed before, including documents that were incomplete or made it raise.", "quantifier": "all sequences of documents parsed with one builder object", "why_tests_cant": "All histories of the object.", "anchors": [{"file": "pylib/uxml/tree.py", "symbols": ["treebuilder.parse"]}]}
{"id": "C22", "title": "Reusing the full-XML tree builder returns the first document", "statement": "xml.treebuilder.parse, called again on the same builder object, returns the root of the first document it ever parsed, whatever the later document is (so microx given several files queries the first one every time).", "quantifier": "all pairs of documents and all later histories", "why_tests_cant": "All histories of the object.", "anchors": [{"file": "pylib/uxml/xml.py", "symbols": ["treebuilder.parse"]}, {"file": "pylib/uxml/tree.py", "symbols": ["treebuilder._handler"]}, {"file": "exec/microx", "symbols": ["run"]}]}
{"id": "C23", "title": "Garbage collection cannot change the parsed tree", "statement": "Although child-to-parent links are weak references, whenever the collector runs during a parse, and however often, the tree returned is the same: no element still needed is ever collected.", "quantifier": "all documents and all schedules of garbage collection between parse events", "why_tests_cant": "Collector schedules cannot be enumerated by tests.", "anchors": [{"file": "pylib/uxml/tree.py", "symbols": ["treebuilder._handler", "node.xml_parent"]}]}
{"id": "C24", "title": "Parent and child links stay consistent", "statement": "After any sequence of creations, insertions of detached nodes and removals of elements, a node is listed among an element's children exactly when its xml_parent is that element, and it is listed at most once.", "quantifier": "all operation sequences of that kind, of any length", "why_tests_cant": "All histories.", "anchors": [{"file": "pylib/uxml/tree.py", "symbols": ["element.xml_insert", "element.xml_append", "element.xml_remove", "node.xml_parent"]}]}
{"id": "C25", "title": "Insertion puts the child where asked", "statement": "xml_append adds the child last; xml_insert(child, i) puts it at position i (clamped to the list, negative positions counting from the end except that -1 means last), keeps the relative order of the others, and turns a string into a text node whose parent is the element.", "quantifier": "all child lists, all integer positions", "why_tests_cant": "All lists and all integers.", "anchors": [{"file": "pylib/uxml/tree.py", "symbols": ["element.xml_insert", "element.xml_append"]}]}
{"id": "C26", "title": "Removal removes exactly the given child", "statement": "xml_remove(child) takes exactly that node out of the children, leaves the others in order, makes its xml_parent None, and raises ValueError without changing anything when it is not a child.", "quantifier": "all elements, all children, element or text", "why_tests_cant": "All child lists, including ones with equal texts.", "anchors": [{"file": "pylib/uxml/tree.py", "symbols": ["element.xml_remove"]}]}
{"id": "C27", "title": "Appending an existing text node stores a copy", "statement": "Appending or inserting a text node object never attaches that object: a fresh text node with the same characters is attached and the original keeps its parent link; an element object is attached itself.", "quantifier": "all elements, all text nodes, all positions", "why_tests_cant": "Identity claims over all heaps.", "anchors": [{"file": "pylib/uxml/tree.py", "symbols": ["element.xml_insert"]}]}
{"id": "C28", "title": "The writer and xml_encode agree", "statement": "writer.write(element, writer.raw(fp)) writes to fp exactly element.xml_encode().", "quantifier": "all elements", "why_tests_cant": "Unbounded trees.", "anchors": [{"file": "pylib/uxml/writer.py", "symbols": ["write", "raw"]}, {"file": "pylib/uxml/tree.py", "symbols": ["element.xml_encode"]}]}
{"id": "C29", "title": "A namespacer with nothing to add writes what raw writes", "statement": "With no prefixes and no mapping, writer.namespacer writes exactly what writer.raw writes, for every sequence of calls.", "quantifier": "all sequences of start_element, text and end_element calls", "why_tests_cant": "All call sequences.", "anchors": [{"file": "pylib/uxml/writer.py", "symbols": ["namespacer", "raw"]}]}
{"id": "C30", "title": "Namespace declarations are written once, on the first element", "statement": "With prefixes and no name mapping, the output of the namespacer for any sequence of calls is the output of raw with one declaration per prefix, correctly quoted, inserted right after the name of the first element started, and nowhere else.", "quantifier": "all prefix maps and all call sequences", "why_tests_cant": "All call sequences.", "anchors": [{"file": "pylib/uxml/writer.py", "symbols": ["namespacer.start_element", "namespacer.write"]}]}
{"id": "C31", "title": "Balanced writer calls give a document that parses back", "statement": "If the calls made on writer.raw are the start, text and end calls of an element with legal names and characters, parsing what was written delivers the corresponding events.", "quantifier": "all well-nested call sequences", "why_tests_cant": "All call sequences.", "anchors": [{"file": "pylib/uxml/writer.py", "symbols": ["raw"]}, {"file": "pylib/uxml/parser.py", "symbols": ["parser"]}]}
{"id": "C32", "title": "Writer depth bookkeeping and indentation", "statement": "With an indent the output of any call sequence differs from the unindented output only by inserted newline and indent runs, and after any well-nested sequence of calls the writer is back at the depth it started from.", "quantifier": "all call sequences, all indents", "why_tests_cant": "All call sequences.", "anchors": [{"file": "pylib/uxml/writer.py", "symbols": ["raw.start_element", "raw.end_element"]}]}
{"id": "C33", "title": "The tree sender delivers exactly the outermost matching elements", "statement": "With one pattern, treeiter.sender sends the sink, in document order, exactly the complete subtrees of those elements whose path of names from the document element matches the pattern and that lie inside no other match, each once, each sent when its end tag has been read.", "quantifier": "all documents and all patterns", "why_tests_cant": "Unbounded documents and patterns.", "anchors": [{"file": "pylib/uxml/treeiter.py", "symbols": ["sender._handler", "sender._match_state", "sender._prep_patterns"]}]}
{"id": "C34", "title": "Pattern matching means what the documentation says", "statement": "A path matches a pattern iff the stages can be laid along it: a name matches that name, '*' any one element, a tuple any one of its names, '**' any run of elements.", "quantifier": "all patterns and all paths", "why_tests_cant": "Unbounded patterns and paths.", "anchors": [{"file": "pylib/uxml/treeiter.py", "symbols": ["sender._only_name", "sender._any_name", "sender._any_until", "sender._any", "sender._prep_patterns"]}]}
{"id": "C35", "title": "Several patterns: each sink gets its own matches", "statement": "With several patterns and sinks each sink receives exactly what it would have received from a sender with its pattern alone.", "quantifier": "all lists of patterns, all documents", "why_tests_cant": "All pattern lists and documents; no test uses more than one pattern.", "anchors": [{"file": "pylib/uxml/treeiter.py", "symbols": ["sender.__init__", "sender._prep_patterns", "sender._handler"]}]}
{"id": "C36", "title": "Between documents the sender is idle", "statement": "After any complete document the sender's matching and building state is what it was before, so parsing a sequence of documents with one sender delivers the concatenation of what each delivers alone.", "quantifier": "all sequences of complete documents", "why_tests_cant": "All histories.", "anchors": [{"file": "pylib/uxml/treeiter.py", "symbols": ["sender._handler", "sender.parse"]}]}
{"id": "C37", "title": "descendants yields every element below, once, in document order", "statement": "descendants(e) yields exactly the elements strictly below e, each exactly once, in document order.", "quantifier": "all elements", "why_tests_cant": "Unbounded trees.", "anchors": [{"file": "pylib/uxml/treeutil.py", "symbols": ["descendants"]}]}
{"id": "C38", "title": "Selectors are order-preserving filters", "statement": "select_elements, select_name, select_name_pattern, select_value and select_attribute yield exactly the children (or members of the given sequence) with the stated property, in order, with multiplicity.", "quantifier": "all elements, all names, values, attributes", "why_tests_cant": "Unbounded child lists.", "anchors": [{"file": "pylib/uxml/treeutil.py", "symbols": ["select_elements", "select_name", "select_name_pattern", "select_value", "select_attribute"]}]}
{"id": "C39", "title": "following_siblings yields the later siblings", "statement": "following_siblings(n) yields exactly the siblings after n in order.", "quantifier": "all parents, all children, element or text, including equal texts", "why_tests_cant": "All child lists.", "anchors": [{"file": "pylib/uxml/treeutil.py", "symbols": ["following_siblings"]}]}
{"id": "C40", "title": "select_pattern selects the matching descendants", "statement": "select_pattern(node, pattern) yields, in document order and each once, exactly the descendant elements whose path of names below node matches the pattern.", "quantifier": "all elements and patterns", "why_tests_cant": "Unbounded trees and patterns.", "anchors": [{"file": "pylib/uxml/treeutil.py", "symbols": ["select_pattern", "_prep_pattern", "any_until", "name_test", "elem_test"]}]}
{"id": "C41", "title": "make_pretty never touches elements or real text", "statement": "make_pretty changes only white-space-only text: the sequence of elements and of texts that are not all white space is the same before and after at every level, names and attributes are untouched, and elements always end up separated by text.", "quantifier": "all elements, depths and indents", "why_tests_cant": "Unbounded trees.", "anchors": [{"file": "pylib/uxml/treeutil.py", "symbols": ["make_pretty"]}]}
{"id": "C42", "title": "make_pretty indents uniformly and is idempotent", "statement": "make_pretty(e, depth, indent) uses the given indent at every level, and applying it twice gives the same tree as applying it once.", "quantifier": "all elements and indents", "why_tests_cant": "Unbounded trees.", "anchors": [{"file": "pylib/uxml/treeutil.py", "symbols": ["make_pretty"]}]}
{"id": "C43", "title": "Namespaces are stripped consistently", "statement": "For names of the form 'uri local' or 'local' without other white space the events delivered for expat callbacks carry the local name, in start and end events alike; the ancestor lists are right.", "quantifier": "all well-nested callback sequences, all such names", "why_tests_cant": "Unbounded callback sequences.", "anchors": [{"file": "pylib/uxml/xml.py", "symbols": ["expat_callbacks"]}]}
{"id": "C44", "title": "How expat chunks character data does not matter to values", "statement": "However the XML parser splits character data into callbacks, the tree built has the same element structure, xml_value and xml_encode().", "quantifier": "all documents and all splittings of their text", "why_tests_cant": "All splittings; the buffering of the XML parser decides them at run time.", "anchors": [{"file": "pylib/uxml/xml.py", "symbols": ["treebuilder", "expat_callbacks.char_data"]}, {"file": "pylib/uxml/tree.py", "symbols": ["treebuilder._handler", "element.xml_encode"]}]}
{"id": "C45", "title": "Path steps compose", "statement": "The result of left/right is, for each item of left in order, the items of right with it as context, concatenated; / is associative; a step on an empty sequence is empty.", "quantifier": "all expressions, documents and contexts", "why_tests_cant": "Expressions are unbounded.", "anchors": [{"file": "pylib/uxml/uxpath/xast.py", "symbols": ["binary_expression.compute"]}, {"file": "pylib/uxml/uxpath/__init__.py", "symbols": ["context.copy"]}]}
{"id": "C46", "title": "The child, descendant, sibling, parent and ancestor axes", "statement": "From an element each axis with node() yields exactly the nodes the axis denotes, in axis order: child, descendant, descendant-or-self, following-sibling, preceding-sibling, self, parent, ancestor.", "quantifier": "all documents without empty text nodes (so all parsed ones), all context elements", "why_tests_cant": "Unbounded trees.", "anchors": [{"file": "pylib/uxml/uxpath/xast.py", "symbols": ["step.compute", "node_type_test.compute"]}]}
{"id": "C47", "title": "Name tests select by name", "statement": "child::name and descendant::name yield exactly the elements with that name on the axis, and * exactly the elements.", "quantifier": "all documents without empty text nodes (so all parsed ones), contexts and names", "why_tests_cant": "Unbounded trees.", "anchors": [{"file": "pylib/uxml/uxpath/xast.py", "symbols": ["step.compute", "name_test.compute"]}]}
{"id": "C48", "title": "//name finds every element of that name exactly once", "statement": "//name, from any element of a document, yields every element of that name in the whole document exactly once; //* yields every element exactly once.", "quantifier": "all documents without empty text nodes (so all parsed ones), names and contexts", "why_tests_cant": "Unbounded trees.", "anchors": [{"file": "pylib/uxml/uxpath/xast.py", "symbols": ["absolute_path.compute"]}]}
{"id": "C49", "title": "Positional predicates count from one", "statement": "expr[n] with an integer literal n yields exactly the n-th item of expr, and nothing if there are fewer or n < 1.", "quantifier": "all expressions, all integers", "why_tests_cant": "Unbounded sequences.", "anchors": [{"file": "pylib/uxml/uxpath/xast.py", "symbols": ["predicated_expression.compute"]}]}
{"id": "C50", "title": "Boolean predicates filter in order", "statement": "expr[test], where test yields a boolean, string or node sequence, yields in order exactly the items of expr for which the effective boolean value of test with that item as context is true.", "quantifier": "all expressions, tests and documents", "why_tests_cant": "Unbounded sequences.", "anchors": [{"file": "pylib/uxml/uxpath/xast.py", "symbols": ["predicated_expression.compute", "to_boolean"]}, {"file": "pylib/uxml/uxpath/__init__.py", "symbols": ["context.copy"]}]}
{"id": "C51", "title": "Union is in document order and complete", "statement": "left | right, on element results, yields every element of either side, in document order, each once.", "quantifier": "all expressions with element results", "why_tests_cant": "Unbounded results.", "anchors": [{"file": "pylib/uxml/uxpath/xast.py", "symbols": ["binary_expression.compute", "index_docorder"]}]}
{"id": "C52", "title": "Equality with a string compares every item", "statement": "expr = 'literal' is true iff some item of expr has that string value.", "quantifier": "all expressions and strings", "why_tests_cant": "Unbounded sequences.", "anchors": [{"file": "pylib/uxml/uxpath/xast.py", "symbols": ["binary_expression.compute"]}]}
{"id": "C53", "title": "not and boolean are complementary and follow the truth table", "statement": "boolean(expr) is false exactly for an empty result or a first item that is false, zero or an empty string, true otherwise; not(expr) is the opposite of boolean(expr).", "quantifier": "all expressions that evaluate without error", "why_tests_cant": "Unbounded expressions.", "anchors": [{"file": "pylib/uxml/uxpath/functions.py", "symbols": ["boolean", "_not", "boolean_arg"]}, {"file": "pylib/uxml/uxpath/xast.py", "symbols": ["to_boolean"]}]}
{"id": "C54", "title": "Sequences and count", "statement": "(e1, ..., en) yields the results of the parts one after another; count(e) yields exactly the number of items of e.", "quantifier": "all expressions", "why_tests_cant": "Unbounded expressions.", "anchors": [{"file": "pylib/uxml/uxpath/xast.py", "symbols": ["Sequence.compute"]}, {"file": "pylib/uxml/uxpath/functions.py", "symbols": ["count"]}]}
{"id": "C55", "title": "String functions", "statement": "concat, starts-with, contains, substring-before, substring-after and substring (with start at least 1) yield what their names say about the string values of their arguments; before + separator + after rebuilds the string when it contains the separator.", "quantifier": "all argument strings", "why_tests_cant": "All strings.", "anchors": [{"file": "pylib/uxml/uxpath/functions.py", "symbols": ["concat", "starts_with", "contains", "substring_before", "substring_after", "substring"]}]}
{"id": "C56", "title": "Evaluating an expression does not change it", "statement": "Evaluating an expression, any number of times and on any documents, gives the results a freshly parsed copy would give, and serialising it gives the same text before and after.", "quantifier": "all expressions and histories of evaluations", "why_tests_cant": "All histories of one expression object.", "anchors": [{"file": "pylib/uxml/uxpath/xast.py", "symbols": ["binary_expression.compute", "serialize"]}]}
{"id": "C57", "title": "Boolean connectives", "statement": "a or b, a and b evaluate to the disjunction and conjunction of the effective boolean values of the operands, for operands that are empty sequences as well.", "quantifier": "all expressions", "why_tests_cant": "Unbounded expressions.", "anchors": [{"file": "pylib/uxml/uxpath/xast.py", "symbols": ["binary_expression.compute"]}]}
{"id": "C58", "title": "Evaluation always terminates", "statement": "Evaluating an expression on a finite document finishes.", "quantifier": "all expressions, documents, contexts", "why_tests_cant": "Non-termination is not observable by tests.", "anchors": [{"file": "pylib/uxml/uxpath/xast.py", "symbols": ["step.compute", "absolute_path.compute"]}]}
{"id": "C59", "title": "The root of a node is the root of the tree it is in", "statement": "An absolute path evaluated at an element starts at the root of the tree the element is in at that moment, whatever was evaluated or moved before.", "quantifier": "all histories of queries and tree changes", "why_tests_cant": "All histories; the cache is process-wide and never invalidated.", "anchors": [{"file": "pylib/uxml/uxpath/xast.py", "symbols": ["root_node.get"]}]}
{"id": "C60", "title": "isxml accepts what looks like XML", "statement": "isxml returns true for every byte string that decodes as UTF-8 and whose first non-white-space character is '<', with or without a byte order mark, and for every byte string starting with a recognised '<?' or '<' signature in UTF-16, UCS-4 or EBCDIC; for the rest it is true only if decoding in the encoding announced by the byte order mark succeeds and the first non-white-space character is '<'.", "quantifier": "all byte strings", "why_tests_cant": "All byte strings.", "anchors": [{"file": "clib/xmlstring.c", "symbols": ["string_isxml"]}]}
{"id": "C61", "title": "HTML comments never become text", "statement": "A comment appended or inserted by the HTML tree adapter contributes nothing to xml_value or xml_encode of the tree, whatever its data.", "quantifier": "all comment data, all positions, all trees", "why_tests_cant": "All strings and histories.", "anchors": [{"file": "pylib/uxml/html5.py", "symbols": ["comment", "node.appendChild", "node.insertBefore", "node.insertText"]}, {"file": "pylib/uxml/tree.py", "symbols": ["element.xml_insert"]}]}
{"id": "C62", "title": "HTML insertBefore puts text and elements before the reference child", "statement": "insertBefore(node, ref) puts the node immediately before ref among the children and leaves the rest in order, and raises ValueError if ref is not a child.", "quantifier": "all child lists", "why_tests_cant": "All child lists, including ones with equal texts.", "anchors": [{"file": "pylib/uxml/html5.py", "symbols": ["node.insertBefore", "node.insertText"]}]}
{"id": "C63", "title": "microx --match visits every element once", "statement": "microx --match evaluates its expression once with each element of the document as context, document element first, in document order, and prints every result; --find-text prints one path for each text node containing the text.", "quantifier": "all documents", "why_tests_cant": "Unbounded documents.", "anchors": [{"file": "exec/microx", "symbols": ["run", "xpath_to"]}]}
{"id": "C64", "title": "Empty-element tags and comments are rejected", "statement": "The MicroXML parser raises on a document with an empty-element tag or a comment: nothing after the '/' or '!' is delivered, so in particular the output of the raw writer's empty=True is not accepted back.", "quantifier": "all positions of such a construct in otherwise valid documents", "why_tests_cant": "Unbounded documents and positions; the test suite only shows single instances.", "anchors": [{"file": "pylib/uxml/parser.py", "symbols": ["parser"]}]}
{"id": "C65", "title": "A sink may keep what it is sent", "statement": "Whatever a sink does with the subtree it receives from treeiter.sender, including attaching it to a tree of its own, later deliveries are the same and nothing else is added to the sink's tree.", "quantifier": "all documents, patterns and sink behaviours", "why_tests_cant": "All interleavings of deliveries and sink actions.", "anchors": [{"file": "pylib/uxml/treeiter.py", "symbols": ["sender._handler"]}]}
{"id": "C66", "title": "Attribute steps yield the attributes", "statement": "From an element, @* yields exactly its attributes in order with their values, @name the attribute of that name or nothing, @node() all attributes, and name() of an attribute node is the attribute's name.", "quantifier": "all elements and attribute names", "why_tests_cant": "Unbounded attribute maps.", "anchors": [{"file": "pylib/uxml/uxpath/xast.py", "symbols": ["step.compute", "attribute_node"]}]}
{"id": "C67", "title": "l//name selects descendants", "statement": "l//name yields, for each element l yields, exactly the elements of that name below it, in document order.", "quantifier": "all documents, left expressions and names", "why_tests_cant": "Unbounded trees.", "anchors": [{"file": "pylib/uxml/uxpath/xast.py", "symbols": ["binary_expression.compute"]}]}
{"id": "C68", "title": "Successive predicates filter one after the other", "statement": "e[p][q] yields what filtering the items of e[p] with [q] yields.", "quantifier": "all expressions and predicates", "why_tests_cant": "All expressions and documents.", "anchors": [{"file": "pylib/uxml/uxpath/xast.py", "symbols": ["predicated_expression.compute"]}]}
{"id": "C69", "title": "The serialisation of an expression denotes it", "statement": "Parsing the serialisation of a parsed expression gives that expression back; in particular different expressions have different serialisations.", "quantifier": "all expressions", "why_tests_cant": "Unbounded expressions.", "anchors": [{"file": "pylib/uxml/uxpath/xast.py", "symbols": ["serialize"]}, {"file": "pylib/uxml/uxpath/parserules.py", "symbols": ["p_expr_boolean"]}]}
{"id": "C70", "title": "The string value of a node is the text in it", "statement": "string(expr) of an element or of the root is the concatenation of all text below it.", "quantifier": "all documents and expressions", "why_tests_cant": "Unbounded trees.", "anchors": [{"file": "pylib/uxml/uxpath/functions.py", "symbols": ["string_"]}, {"file": "pylib/uxml/uxpath/xast.py", "symbols": ["to_string", "root_node"]}]}
{"id": "C71", "title": "Absolute paths give the same from everywhere", "statement": "An absolute path (/..., //...) yields the same items in the same order from every element of a document and from its root.", "quantifier": "all documents, relative parts and pairs of context elements", "why_tests_cant": "Unbounded trees.", "anchors": [{"file": "pylib/uxml/uxpath/xast.py", "symbols": ["absolute_path.compute"]}]}
{"id": "C72", "title": "HTML removeChild takes one child out", "statement": "removeChild(node) takes exactly that child out of the children, leaves the others in order and the child without a parent; it raises ValueError if the node is not a child.", "quantifier": "all trees and children", "why_tests_cant": "All child lists, including ones with equal texts.", "anchors": [{"file": "pylib/uxml/html5.py", "symbols": ["node.removeChild"]}, {"file": "pylib/uxml/tree.py", "symbols": ["element.xml_remove"]}]}
{"id": "C73", "title": "HTML attributes become MicroXML attributes", "statement": "Setting the attributes of an HTML element from html5lib's mapping gives each attribute with a namespace its local name and leaves the name of one without a namespace as it is; names without namespace that begin with xmlns are left out and all the others kept with their values. New names come after those there were, in the order of their first occurrence; if several have one name the last value wins.", "quantifier": "all attribute mappings, with plain and namespaced keys", "why_tests_cant": "Unbounded maps and all strings.", "anchors": [{"file": "pylib/uxml/html5.py", "symbols": ["element.xml_set_attributes_"]}]}
{"id": "C74", "title": "HTML element names are local names", "statement": "The MicroXML name of an HTML element is the part of html5lib's name after the last colon, and never contains a colon.", "quantifier": "all names html5lib can pass", "why_tests_cant": "All strings.", "anchors": [{"file": "pylib/uxml/html5.py", "symbols": ["element.__init__", "qname_to_local"]}]}
{"id": "C75", "title": "parse_lax_xml returns the first element detached", "statement": "parse_lax_xml returns the first child of the body html5lib built, unchanged and without a parent, and raises ValueError if there is none.", "quantifier": "all trees html5lib can build", "why_tests_cant": "Unbounded trees.", "anchors": [{"file": "pylib/uxml/html5.py", "symbols": ["parse_lax_xml"]}]}
{"id": "C76", "title": "Names delivered by the parser are names", "statement": "The name of every element and of every attribute the parser delivers is a MicroXML name, whatever it is fed and in whatever fragments.", "quantifier": "all texts and fragmentations", "why_tests_cant": "All strings and fragmentations.", "anchors": [{"file": "pylib/uxml/parser.py", "symbols": ["parser"]}]}
{"id": "C77", "title": "Expressions mean what the grammar says", "statement": "A string is accepted as a MicroXPath expression exactly when it can be cut into tokens that the grammar (with its operator strengths) derives an expression from, and the parser returns that expression; a string has at most one such reading.", "quantifier": "all strings and expressions", "why_tests_cant": "Unbounded strings; the parser is driven by generated LALR tables with dozens of resolved conflicts, so no set of samples shows that they follow the grammar.", "anchors": [{"file": "pylib/uxml/uxpath/parserules.py", "symbols": ["precedence", "p_expr_boolean", "p_error"]}, {"file": "pylib/uxml/uxpath/lexrules.py", "symbols": ["tokens", "t_NAME", "t_LITERAL"]}, {"file": "pylib/uxml/uxpath/__init__.py", "symbols": ["parse"]}]}
{"id": "C78", "title": "Parsing an expression always ends, with an expression or an error", "statement": "parse(s) ends for every string after a number of steps linear in its length, and either returns an expression or raises RuntimeError or TypeError.", "quantifier": "all strings", "why_tests_cant": "Unbounded strings, including malformed ones.", "anchors": [{"file": "pylib/uxml/uxpath/parserules.py", "symbols": ["p_error"]}, {"file": "pylib/uxml/uxpath/lexrules.py", "symbols": ["t_error"]}, {"file": "pylib/uxml/uxpath/__init__.py", "symbols": ["parse"]}]}
{"id": "C79", "title": "Operators group as in XPath", "statement": "Binary operators of one strength group from left to right; of different ones the stronger takes the operand in between, in the order of XPath 1.0: or, and, = !=, < > <= >=, + -, div mod, unary minus, |.", "quantifier": "all operands and operators, chains of any length", "why_tests_cant": "Unbounded chains of operators.", "anchors": [{"file": "pylib/uxml/uxpath/parserules.py", "symbols": ["precedence"]}]}
{"id": "C80", "title": "A predicate belongs to the step before it", "statement": "In e[p] the predicate filters what the step or primary expression right before the bracket yields, for each context node.", "quantifier": "all expressions", "why_tests_cant": "Unbounded expressions.", "anchors": [{"file": "pylib/uxml/uxpath/parserules.py", "symbols": ["p_expr_predicates", "p_predicate_list_single", "p_predicate_list_recursive"]}]}
{"id": "C81", "title": "Blanks between tokens do not matter", "statement": "Any spaces, tabs and line ends may be put between the tokens of an expression, before and after it, without changing what it is parsed to.", "quantifier": "all token sequences and blanks", "why_tests_cant": "Unbounded strings.", "anchors": [{"file": "pylib/uxml/uxpath/lexrules.py", "symbols": ["t_ignore"]}]}
{"id": "C82", "title": "Every MicroXML name can be used as a name test", "statement": "The expression consisting of a MicroXML name selects the children of that name, also when the name is an operator word such as div.", "quantifier": "all MicroXML names", "why_tests_cant": "All strings of name characters.", "anchors": [{"file": "pylib/uxml/uxpath/lexrules.py", "symbols": ["NameStartChar", "NameChar_extras", "t_NAME"]}, {"file": "pylib/uxml/uxpath/parserules.py", "symbols": ["p_name_test_name"]}]}
{"id": "C83", "title": "qquery on a text gives the answer on its document", "statement": "qquery(text, expression) yields exactly what the parsed expression yields at the root of the document the text denotes, in every execution (whenever the garbage collector runs); for bytes it is the same as for the string they encode in UTF-8; a text the parser refuses gives the parser's error, an ill-formed expression a RuntimeError or TypeError. In particular //name yields every element of that name exactly once and a/b/c those reached along these names.", "quantifier": "all documents, all spellings, all expressions, all behaviours of the collector", "why_tests_cant": "Unbounded documents and expressions through both parsers, the tree builder and the evaluator.", "anchors": [{"file": "pylib/uxml/uxpath/__init__.py", "symbols": ["qquery", "context"]}, {"file": "pylib/uxml/tree.py", "symbols": ["treebuilder.parse"]}]}
{"id": "C84", "title": "A path of names selects the elements along it", "statement": "e.xml_xpath('n1/n2/.../nk') on an element that has a parent yields, in document order and each once, exactly the elements reached from e by going down to a child named n1, from there to a child named n2, and so on; on a top element the path begins with the name of that element itself, and so it does with a slash in front wherever it is asked.", "quantifier": "all documents, all elements, paths of any length, all names an expression can contain (C82)", "why_tests_cant": "Unbounded documents and paths.", "anchors": [{"file": "pylib/uxml/tree.py", "symbols": ["node.xml_xpath"]}, {"file": "pylib/uxml/uxpath/__init__.py", "symbols": ["context"]}, {"file": "pylib/uxml/uxpath/xast.py", "symbols": ["binary_expression", "step"]}]}
{"id": "C85", "title": "All ways to ask a query agree", "statement": "xml_xpath and qquery yield the same for an expression given as a string and for the same expression parsed beforehand, on an element, on the text of a document and on the parsed document.", "quantifier": "all documents, elements and expressions", "why_tests_cant": "Unbounded documents and expressions.", "anchors": [{"file": "pylib/uxml/uxpath/__init__.py", "symbols": ["qquery", "parse"]}, {"file": "pylib/uxml/tree.py", "symbols": ["node.xml_xpath"]}]}
{"id": "C86", "title": "Comparisons give their truth", "statement": "a < b, a > b, a <= b, a >= b and a != b yield one boolean, the truth of the comparison: of numbers by value, of strings by code points, of nodes after conversion to numbers, for some pair of items of the two sides.", "quantifier": "all documents, operands and items", "why_tests_cant": "All integers and strings.", "anchors": [{"file": "pylib/uxml/uxpath/xast.py", "symbols": ["binary_expression.compute"]}]}
{"id": "C87", "title": "name() gives the name", "statement": "name(e) yields the name of the first node e yields, name() that of the context node, and the empty string when there is no node or the node has no name.", "quantifier": "all documents, expressions and items", "why_tests_cant": "Unbounded documents.", "anchors": [{"file": "pylib/uxml/uxpath/functions.py", "symbols": ["name"]}, {"file": "pylib/uxml/uxpath/xast.py", "symbols": ["attribute_node"]}]}
{"id": "C88", "title": "Variables", "statement": "$v yields exactly the value given for v and raises KeyError without one; variables an expression does not mention do not influence its result.", "quantifier": "all expressions, documents and mappings of variables", "why_tests_cant": "All expressions and mappings: non-interference.", "anchors": [{"file": "pylib/uxml/uxpath/xast.py", "symbols": ["variable_reference"]}, {"file": "pylib/uxml/uxpath/__init__.py", "symbols": ["context"]}]}
{"id": "C89", "title": "for-each is a path whose last step is computed", "statement": "for-each(l, s), where s is the text of an expression r, yields what l/r yields; if s is not an expression the call raises the parser's error.", "quantifier": "all expressions, texts, documents and items", "why_tests_cant": "Unbounded expressions, evaluated from strings.", "anchors": [{"file": "pylib/uxml/uxpath/functions.py", "symbols": ["foreach_"]}]}
{"id": "C90", "title": "Arithmetic", "statement": "a + b, a - b, a div b, a mod b and -a yield one number, the result of the operation.", "quantifier": "all operands", "why_tests_cant": "All numbers.", "anchors": [{"file": "pylib/uxml/uxpath/xast.py", "symbols": ["binary_expression.compute", "unary_expression.compute"]}]}
{"id": "C91", "title": "number() converts", "statement": "number(e) yields one number: a number as it is, a boolean as 0 or 1, a string or node as the number its string value spells and otherwise NaN.", "quantifier": "all documents, expressions and items", "why_tests_cant": "All strings.", "anchors": [{"file": "pylib/uxml/uxpath/functions.py", "symbols": ["number"]}, {"file": "pylib/uxml/uxpath/xast.py", "symbols": ["to_number"]}]}
{"id": "C92", "title": "last() selects the last item", "statement": "e[last()] yields the last item e yields.", "quantifier": "all expressions and documents", "why_tests_cant": "Sequences of any length.", "anchors": [{"file": "pylib/uxml/uxpath/functions.py", "symbols": ["last"]}]}
{"id": "C93", "title": "Calls are checked", "statement": "A call of a function that is not built in raises RuntimeError; a call of a built-in function with too few or too many arguments raises TypeError, whatever the arguments.", "quantifier": "all names and argument lists", "why_tests_cant": "All names and argument lists.", "anchors": [{"file": "pylib/uxml/uxpath/xast.py", "symbols": ["function_call.compute"]}, {"file": "pylib/uxml/uxpath/functions.py", "symbols": ["BUILTIN_FUNCTIONS"]}]}
{"id": "C94", "title": "microx treats every source on its own", "statement": "microx run on several sources prints, one after the other, what it prints for each of them alone.", "quantifier": "all commands, expressions and lists of sources", "why_tests_cant": "Any number of sources, processed by one shared builder: a statement about histories.", "anchors": [{"file": "exec/microx", "symbols": ["run", "TB"]}, {"file": "pylib/uxml/xml.py", "symbols": ["treebuilder.parse"]}]}
{"id": "C95", "title": "microx --partition processes each section", "statement": "With --partition=n the command is run on every outermost element with the name n of every source, in document order, each taken as a document of its own, and nothing else is printed; an exception in one of them ends the run after what was printed before it.", "quantifier": "all commands, names, sources and executions", "why_tests_cant": "Documents and numbers of sections without bound.", "anchors": [{"file": "exec/microx", "symbols": ["run"]}, {"file": "pylib/uxml/xmliter.py", "symbols": ["sender"]}, {"file": "pylib/uxml/treeiter.py", "symbols": ["sender._handler"]}]}
{"id": "C96", "title": "microx --limit limits the results", "statement": "With --limit=k at most the first k results are printed.", "quantifier": "all limits, commands and sources", "why_tests_cant": "All numbers of results.", "anchors": [{"file": "exec/microx", "symbols": ["run"]}]}
{"id": "C97", "title": "Concurrent parses do not interfere", "statement": "When several threads call tree.parse at the same time, every call that ends returns the tree of its own document, with right parent links and sharing no node with the others, or raises as it would alone; and a tree that has been returned does not change while other calls go on.", "quantifier": "all numbers of calls, all texts, all interleavings of their assignments, all behaviours of the collector", "why_tests_cant": "Schedules cannot be enumerated by tests.", "anchors": [{"file": "pylib/uxml/tree.py", "symbols": ["parse", "treebuilder.parse", "treebuilder._handler"]}]}
{"id": "C98", "title": "amara3.uxml.parse can be called from several threads", "statement": "When several threads call amara3.uxml.parse at the same time, every call that ends returns the tree of its own document.", "quantifier": "all numbers of calls, all texts, all interleavings of their assignments, all behaviours of the collector", "why_tests_cant": "Schedules cannot be enumerated by tests.", "anchors": [{"file": "pylib/uxml/__init__.py", "symbols": ["TB", "parse"]}, {"file": "pylib/uxml/tree.py", "symbols": ["treebuilder.parse", "treebuilder._handler"]}]}
{"id": "C99", "title": "The scanner accounts for every character", "statement": "run(s) of the MicroXML scanner ends for every text, in whatever state earlier scans left it. At each point it yields the longest token that begins there, with its kind, value and position; where no token begins the character is reported as illegal and skipped. No character of the text (with line ends normalised) is lost or read twice.", "quantifier": "all texts and all states of the lexer", "why_tests_cant": "unbounded texts and nesting of states; tests look at a few texts", "anchors": [{"file": "pylib/uxml/lex.py", "symbols": ["run", "lexer", "t_error", "t_data_STARTTAG", "t_data_ENDTAG", "t_data_COMMENT", "t_tag_NAME", "t_attrsgl_CHARDATA", "t_attrdbl_CHARDATA"]}]}
{"id": "C100", "title": "The scanner and the parser agree on documents", "statement": "For every document that the parser accepts, the tokens of run(s) are those of its tree: a STARTTAG and an ENDTAG for each element, NAME, EQ, quotes and value tokens for each attribute, tokens that stand for the text of each text node, in document order, with at most white space around them; nothing but white space is reported as illegal. Two documents with the same tokens have the same tree.", "quantifier": "all documents", "why_tests_cant": "unbounded documents; relates two independent implementations of the grammar", "anchors": [{"file": "pylib/uxml/lex.py", "symbols": ["run"]}, {"file": "pylib/uxml/parser.py", "symbols": ["parser"]}]}
{"id": "C101", "title": "Scans do not influence each other", "statement": "What run(s) yields depends only on s, not on what was scanned before or is being scanned by another generator.", "quantifier": "all texts and all histories of earlier or unfinished scans", "why_tests_cant": "histories of calls on a shared lexer", "anchors": [{"file": "pylib/uxml/lex.py", "symbols": ["lexer", "run"]}]}
{"id": "C102", "title": "Iterating with other work in between", "statement": "Between two items of `descendants(e)` the caller may do anything that leaves the child lists of this tree alone: run other iterations over the same tree, change names and attributes, build and change other trees. What has been yielded so far is then always the beginning of the list of all elements below e in document order, and the iteration ends exactly when all have been yielded.", "quantifier": "every tree, every number of items taken, every sequence of things the caller does in between", "why_tests_cant": "the caller's actions between two items are an arbitrary history; a test runs one", "anchors": [{"file": "pylib/uxml/treeutil.py", "symbols": ["descendants"]}]}
{"id": "C103", "title": "Changing the tree while iterating over it", "statement": "If during an iteration over `descendants(e)` nodes are only removed, anywhere in the tree, the iteration ends and yields elements of the tree as it was, in document order, none twice. If the tree is changed in any way, also by adding to it, but no element comes to lie where the iteration has already been, then at its end every element that is then below e has been yielded.", "quantifier": "every tree and every history of changes made between the items", "why_tests_cant": "histories of changes interleaved with the iteration are unbounded", "anchors": [{"file": "pylib/uxml/treeutil.py", "symbols": ["descendants"]}, {"file": "pylib/uxml/tree.py", "symbols": ["element.xml_remove", "element.xml_insert"]}]}
{"id": "C104", "title": "Removing elements in a loop over them", "statement": "`for x in select_elements(e): if p(x): e.xml_remove(x)` removes exactly the child elements for which p holds.", "quantifier": "every element, every list of children and every condition p", "why_tests_cant": "depends on how the elements to be removed lie to each other, for lists of any length", "anchors": [{"file": "pylib/uxml/treeutil.py", "symbols": ["select_elements"]}, {"file": "pylib/uxml/tree.py", "symbols": ["element.xml_remove"]}]}
{"id": "C105", "title": "Holding on to part of a tree", "statement": "As long as a program holds a reference to an element, the whole tree below it stays as it is, whatever else is released and collected. Its xml_parent stays what it was as long as something the program holds leads to the parent; otherwise it may become None.", "quantifier": "every tree, every set of references held, every run of the garbage collector", "why_tests_cant": "the collector runs at times a test does not control and may take any subset of what is unreachable", "anchors": [{"file": "pylib/uxml/tree.py", "symbols": ["node.xml_parent", "element"]}]}
{"id": "C106", "title": "html5lib reads back the names it gave", "statement": "For every element that html5lib asks the tree builder for, with any name and namespace, `nameTuple` is the pair of that namespace and that name; html5lib decides by it where elements nest and which end tag closes which element.", "quantifier": "every name, with or without colon, empty or None, every namespace and both settings of use_xhtml_ns", "why_tests_cant": "tests look at a few tags; the names in tag soup are unbounded", "anchors": [{"file": "pylib/uxml/html5.py", "symbols": ["treebuilder", "element.nameTuple", "element.name", "element.namespace", "qname_to_local"]}]}
{"id": "C107", "title": "Copies of HTML elements", "statement": "`e.cloneNode()` returns a new element with the same name, as html5lib reads it, and the same attributes, with no parent and no children; nothing else in memory changes.", "quantifier": "every element in every tree", "why_tests_cant": "ranges over all states of memory", "anchors": [{"file": "pylib/uxml/html5.py", "symbols": ["element.cloneNode", "element.nameTuple"]}]}
{"id": "C108", "title": "Assigning the children of an HTML element", "statement": "After `e.childNodes = nodes` the children of e are those nodes in order: elements themselves, a new text node for each text, an empty one for a comment, all with e as xml_parent. No other child list changes and no other node gets another parent. `hasContent()` is true exactly when there are children.", "quantifier": "every element, every list of nodes (also the present children of e or of others), every history", "why_tests_cant": "ranges over all lists and all states of memory", "anchors": [{"file": "pylib/uxml/html5.py", "symbols": ["element.childNodes", "element.xml_set_childNodes_", "node.hasContent"]}]}
{"id": "C109", "title": "Moving the children of an HTML element", "statement": "When html5lib moves the children of e to another element f (appends each to f, then sets e.childNodes to []), e is left without children and f has, after its own, those of e in the same order, with f as xml_parent; nothing is lost or doubled.", "quantifier": "every two different elements, every history", "why_tests_cant": "ranges over all lists of children and all states of memory", "anchors": [{"file": "pylib/uxml/html5.py", "symbols": ["element.childNodes", "node.appendChild"]}]}
{"id": "C110", "title": "Trees built by html5lib are trees", "statement": "However html5lib builds a document - creating, copying, appending, inserting before others, removing, moving children - as long as it takes an element out of its list before putting it into another, every listed node has the element that lists it as xml_parent and is in one place only; an element that is not below itself is the root of a tree.", "quantifier": "every history of calls, of any length", "why_tests_cant": "histories are unbounded, and html5lib's own order of calls depends on the input", "anchors": [{"file": "pylib/uxml/html5.py", "symbols": ["node.appendChild", "node.insertBefore", "node.insertText", "node.removeChild", "element.cloneNode", "element.childNodes"]}]}
{"id": "C111", "title": "html5.parse returns the document element", "statement": "`html5.parse` returns the first element that html5lib puts into the document, whatever comments and doctype precede it, and None exactly if there is none.", "quantifier": "every sequence of top-level nodes", "why_tests_cant": "unbounded sequences", "anchors": [{"file": "pylib/uxml/html5.py", "symbols": ["parse", "document.appendChild", "treebuilder.doctypeClass"]}]}
{"id": "C112", "title": "Parsing an expression is not influenced by other calls", "statement": "`uxpath.parse(s)` ends with what the text s alone determines, whatever earlier calls did (returned, raised or were given up half way) and whatever calls other threads make meanwhile.", "quantifier": "every text, every history of calls, every schedule of calls in any number of threads", "why_tests_cant": "schedules and histories are unbounded; the module keeps one lexer for all calls", "anchors": [{"file": "pylib/uxml/uxpath/__init__.py", "symbols": ["lexer", "parser", "parse"]}, {"file": "pylib/uxml/uxpath/lexrules.py", "symbols": ["t_error"]}]}
{"id": "C113", "title": "isxml is memory safe", "statement": "For every byte string `isxml` returns: it reads only bytes of the string and characters of the decoded text and its terminating NUL, it uses no freed object, its loop ends, and it releases the decoded text and returns one new reference.", "quantifier": "every byte string of any length", "why_tests_cant": "one out-of-bounds read needs one particular string; tests rarely see it", "anchors": [{"file": "clib/xmlstring.c", "symbols": ["string_isxml", "IS_XMLSPACE"]}]}
{"id": "C114", "title": "The subtrees a tree sender passes on are whole and stay whole whatever the garbage collector does", "statement": "With treeiter.sender and one pattern, every element the sink is sent is, as an object in memory, exactly the subtree of the input: name, attributes, children in order, the parent link of every descendant to the element that lists it, and no parent of its own. This holds whenever and however often the garbage collector runs, and whatever else runs between the sender's assignments as long as it leaves alone what the sender and the sink refer to. A sink that keeps the elements still has all of them, whole, at the end; the objects sent are those of the matching elements, one for one and in order.", "quantifier": "all event sequences and documents, all patterns, all collector runs and all interleaved activity, sinks that keep or drop what they get", "why_tests_cant": "parent links are weak references, so losing part of a subtree depends on when collection happens between two assignments; tests see one collector and one schedule", "anchors": [{"file": "pylib/uxml/treeiter.py", "symbols": ["sender", "_handler", "_roots", "_parents"]}, {"file": "pylib/uxml/tree.py", "symbols": ["element", "xml_parent"]}]}
{"id": "C115", "title": "A tree sender's memory does not grow with the document", "statement": "At any point between two events the number of node objects that treeiter.sender keeps alive is at most the number of nodes of the subtree being built so far, or of the last subtree sent if none is being built, plus one text node; before the first match it keeps none. So if no matching subtree has more than m nodes, at most m + 1 objects are kept at any point, however long the document and however many matches there are.", "quantifier": "all documents and all points in the sequence of their events, all patterns, all collector runs", "why_tests_cant": "a bound that holds for every document length and every moment; a test measures one document", "anchors": [{"file": "pylib/uxml/treeiter.py", "symbols": ["sender", "_handler", "_roots"]}]}
{"id": "C116", "title": "Events are delivered as soon as the text they report is complete", "statement": "Send the parser any initial part of a document without marking it final, in one piece, or in several that are not cut inside an attribute value. The call returns, and what has been delivered is a prefix of the document's events: exactly as many start and end tags as there are '>' in what was sent, and the text before the tag being sent, if one has been opened. So a '>' always delivers its tag and nothing else, a '<' the text before it if there is any and nothing else, and no other character delivers anything: nothing is held back, and nothing is reported before it is complete.", "quantifier": "all documents, all initial parts of them, all ways of cutting them outside attribute values", "why_tests_cant": "every document and every point in it is a case; a test feeds a few documents at a few points", "anchors": [{"file": "pylib/uxml/parser.py", "symbols": ["parser", "handle_cdata"]}]}
{"id": "C117", "title": "The attributes of an element are its own", "statement": "Changing the attributes of an element in any way changes what that element shows and what no other element shows. In particular this holds for all elements of trees made by a parse and of subtrees sent to a sink, while building goes on, and for copies made for html5lib.", "quantifier": "all programs that parse, build, copy and change elements in any order, all mappings they pass", "why_tests_cant": "sharing of one mapping by two elements shows only when one of them is changed later; the histories are unbounded", "anchors": [{"file": "pylib/uxml/tree.py", "symbols": ["element", "__init__", "treebuilder"]}, {"file": "pylib/uxml/treeiter.py", "symbols": ["sender", "_handler"]}, {"file": "pylib/uxml/parser.py", "symbols": ["parser"]}, {"file": "pylib/uxml/html5.py", "symbols": ["element", "cloneNode"]}]}
{"id": "C118", "title": "A union is in document order whatever happened to the tree before", "statement": "The nodes selected by a | b are yielded in the document order of the tree as it is when the query is evaluated, also when the tree was queried before and has been changed since.", "quantifier": "Every tree in memory, every history of earlier queries and changes of the tree, every context node and all nodes selected by the two sides", "why_tests_cant": "The order comes from numbers left on the nodes by an earlier query; whether they are still right depends on everything that happened in between.", "anchors": [{"file": "pylib/uxml/uxpath/xast.py", "symbols": ["index_docorder", "binary_expression.compute"]}, {"file": "pylib/uxml/tree.py", "symbols": ["element.xml_insert", "element.xml_remove"]}]}
{"id": "C119", "title": "Results of a query are not disturbed by changes behind them", "statement": "While the results of descendant::test or descendant-or-self::test are being read one by one, the caller may take results already read out of the tree, or change anything else that lies at or before the last result: the results still to come are exactly those of the tree as it was, in document order, each once, and reading them never raises. The results of following-sibling::test and preceding-sibling::test do not depend at all on what is done to the tree after the first result was read. The results of following::test, which are the siblings after the element and everything below them, may likewise be changed once they were read.", "quantifier": "Every tree in memory, every context element, every node test, every interleaving of reads and of changes that leave the nodes not yet reached as they are", "why_tests_cant": "The steps are generators that read child lists while they run; which interleavings disturb them is a statement about all schedules of reads and changes.", "anchors": [{"file": "pylib/uxml/uxpath/xast.py", "symbols": ["step.compute"]}, {"file": "pylib/uxml/tree.py", "symbols": ["element.xml_xpath", "element.xml_insert", "element.xml_remove"]}]}
{"id": "C120", "title": "Deleting what a query finds", "statement": "The loop 'for x in e.xml_xpath(query): x.xml_parent.xml_remove(x)' ends without an error and removes exactly the elements the query selects, with what is below them: with descendant::n, nothing named n is left below e and everything else stays; with child::n, no child named n is left.", "quantifier": "Every tree in memory, every element of it, every name", "why_tests_cant": "The loop changes the lists the query is reading; whether elements are missed depends on the shape of the whole tree.", "anchors": [{"file": "pylib/uxml/uxpath/xast.py", "symbols": ["step.compute"]}, {"file": "pylib/uxml/tree.py", "symbols": ["element.xml_remove"]}]}
{"id": "C121", "title": "Deleting with //", "statement": "The loop 'for x in root.xml_xpath('//n'): x.xml_parent.xml_remove(x)', for a document element not named n, ends without an error and leaves the tree without the elements named n.", "quantifier": "Every tree in memory and every name", "why_tests_cant": "The query walks the tree while the loop changes it, and reads each child list as it is at that moment; what is missed depends on the whole tree.", "anchors": [{"file": "pylib/uxml/uxpath/xast.py", "symbols": ["absolute_path.compute", "step.compute"]}, {"file": "pylib/uxml/tree.py", "symbols": ["element.xml_remove"]}]}
{"id": "C122", "title": "Unions evaluated by several threads over one tree", "statement": "When several threads evaluate unions over one tree that nobody changes, each ends after finitely many steps of its own and yields its nodes in document order, as if it were alone. (False as stated: a thread that finds its context numbered by another thread that is still numbering raises AttributeError, and of threads at the root and at inner elements, which number from different tops, one may yield nodes in the wrong order. Threads that all ask at inner nodes, or all at the root, never get a wrong order; threads at text nodes or attributes never raise; and once the tree has been numbered by one query before, none of this can happen.)", "quantifier": "all trees, all numbers of threads, all contexts and selections, all schedules that may switch before every test, assignment and reading of a number", "why_tests_cant": "the races need particular schedules that a test cannot force and that seldom occur", "anchors": [{"file": "pylib/uxml/uxpath/xast.py", "symbols": ["binary_expression.compute", "index_docorder"]}, {"file": "pylib/uxml/tree.py", "symbols": ["element.xml_xpath"]}]}
{"id": "C123", "title": "Documents that are no longer used are freed", "statement": "When a program has let go of every node of a document, the document's memory is given back, however many documents it works through. (False as stated: an absolute path, or a query at the document element, asked once at one node of a document keeps the whole document for ever, whatever the program does afterwards and however often the collector runs; of any number of documents visited one after the other all stay. A document that was never asked is given back completely.)", "quantifier": "all documents, all histories of queries, other work, releases and collector runs, of any length", "why_tests_cant": "a leak shows only in long histories; tests do not look at what the collector leaves", "anchors": [{"file": "pylib/uxml/uxpath/xast.py", "symbols": ["root_node._cache", "root_node.get"]}, {"file": "pylib/uxml/uxpath/__init__.py", "symbols": ["context"]}, {"file": "pylib/uxml/tree.py", "symbols": ["element.xml_xpath"]}]}
{"id": "C124", "title": "A document has one root node", "statement": "Absolute paths evaluated at elements of one unchanged document start from the same root node object, whichever element is asked and whatever was asked before. (False as stated: which root node is used depends on which elements have been asked before; the direct parent of the element is not looked for in the cache, so a child of the document element always gets a root node of its own, and asking at one element changes the root node that elements below it give. Exactly which one it is, is proved.)", "quantifier": "all trees, all elements, all caches left by earlier queries", "why_tests_cant": "depends on the history of queries and on object identity", "anchors": [{"file": "pylib/uxml/uxpath/xast.py", "symbols": ["root_node._cache", "root_node.get"]}]}
{"id": "C125", "title": "A write handler is given every piece of the output, in order, with nothing lost", "statement": "A writer created with a custom whandler gives it, for whatever calls and whatever the handler does, exactly the pieces of the output in order, each with the context that says what it is: the tokens, the names, the quoted attribute values, the text before escaping, and line ends of the indentation as text. From the pieces the calls can be recovered exactly. With writer.raw as the handler the output is what a raw writer writes. A namespacer with a handler gives it the names as they are, whatever its prefixes, and raises TypeError for an empty-element tag.", "quantifier": "every handler (any state and reaction), sequence of writer calls, indent, start depth, prefixes and mapping", "why_tests_cant": "Tests try one handler with a few calls; the claim is about every handler and every sequence of calls.", "anchors": [{"file": "pylib/uxml/writer.py", "symbols": ["raw.__init__", "raw.start_element", "raw.end_element", "raw.text", "namespacer.__init__", "namespacer.start_element"]}]}
{"id": "C126", "title": "The axes of XPath can be used from text nodes", "statement": "From a text node every axis yields what XPath says: the siblings before and after it, its parent, its ancestors up to the root; nothing below it.", "quantifier": "every document without empty text nodes, text node (and element) in it, axis and node test", "why_tests_cant": "Tests use one text node among different siblings; only a proof covers texts that are equal to a sibling, and every position.", "anchors": [{"file": "pylib/uxml/uxpath/xast.py", "symbols": ["step.compute", "root_node.get"]}, {"file": "pylib/uxml/tree.py", "symbols": ["text"]}]}
{"id": "C127", "title": "The axes of XPath can be used from attributes, values and the root", "statement": "From an attribute the axes parent and ancestor lead to its element and on to the root, and the others are empty; the root has no parent and no ancestors; steps from strings, numbers and booleans are errors.", "quantifier": "every document, attribute, value, axis and node test", "why_tests_cant": "There are twelve axes, four kinds of test and six kinds of item, and the results depend on the position; tests cover a handful.", "anchors": [{"file": "pylib/uxml/uxpath/xast.py", "symbols": ["step.compute", "attribute_node", "root_node", "name_test.compute", "node_type_test.compute"]}]}
{"id": "C128", "title": "/node() yields the document element, and //node() every node of the document once", "statement": "The root node is not a child of anything, so /node() yields only the document element, and //node() every element and text node of the document exactly once; from whatever element the path is evaluated.", "quantifier": "every document without empty text nodes and context element", "why_tests_cant": "The claim is about every tree; the special case in the code adds an item that a test comparing a few names does not show.", "anchors": [{"file": "pylib/uxml/uxpath/xast.py", "symbols": ["absolute_path.compute", "_step_is_just_node"]}]}
{"id": "C129", "title": "Every document that can be parsed can be handled", "statement": "For every document that treebuilder.parse accepts, xml_encode, xml_value, strval, descendants, select_pattern and writer.write do what they do without a limit on nested calls. (False as stated: parsing needs no nested Python calls and the others need one or two per level of nesting, so deep documents that parse end in RecursionError; what is returned when no error is raised is the result without a limit, for descendants and select_pattern a prefix, and write has made a first part of its calls; select_pattern with a pattern without '**' works at any depth.)", "quantifier": "Every tree, every limit on nested calls, whatever the functions used need of it", "why_tests_cant": "Tests use documents of a few levels; where the limit lies depends on the depth of every tree and on the caller.", "anchors": [{"file": "pylib/uxml/tree.py", "symbols": ["element.xml_encode", "element.xml_value", "strval"]}, {"file": "pylib/uxml/treeutil.py", "symbols": ["descendants", "select_pattern"]}, {"file": "pylib/uxml/writer.py", "symbols": ["write"]}]}
{"id": "C130", "title": "make_pretty changes all of the tree or nothing, and never the content", "statement": "make_pretty finishes, or raises and leaves the tree as it was; in either case only white-space-only text differs from before. (The first part is false of the code: RecursionError in a deep place leaves what is to the left of it done. The second part holds.)", "quantifier": "Every tree, indent and depth, every limit on nested calls", "why_tests_cant": "An interrupted walk can stop at any node; tests can try a few.", "anchors": [{"file": "pylib/uxml/treeutil.py", "symbols": ["make_pretty"]}]}
{"id": "C131", "title": "Errors in the parts of an XPath expression come out, and only the first item of an argument counts", "statement": "Where an operator or function needs one value of an operand (comparisons, and, or, name, string, string-length, boolean, not, number, the string functions, for-each's second argument, however deeply nested), the result depends only on the operand's first item; and an error raised by an operand the evaluation begins with, before it yielded anything, is raised by the whole expression, through operators, functions, paths, filters, sequences, count and concat.", "quantifier": "Every document, context, expression, operand and error, and nesting of any depth", "why_tests_cant": "Tests can try some nestings of some operators; that no nesting swallows an error or looks at later items ranges over all of them.", "anchors": [{"file": "pylib/uxml/uxpath/xast.py", "symbols": ["binary_expression.compute", "unary_expression.compute", "function_call.compute", "predicated_expression.compute", "Sequence.compute"]}, {"file": "pylib/uxml/uxpath/functions.py", "symbols": ["boolean_arg", "string_arg", "count", "concat"]}]}
{"id": "C132", "title": "The exception the parser raises tells the kind of fault", "statement": "Whatever is sent to a parser, in whatever pieces, the exception it raises is RuntimeError, except: ValueError (OverflowError for huge numbers), and then the text sent so far contains a hexadecimal character reference with no digits or with a number beyond U+10FFFF; or IndexError, and then either no event had been delivered (an end tag before any start tag), or the call was the last (final flag) and its text ends with '='. A reference that denotes no legal character raises exactly the one of these its kind calls for, in text and in attribute values.", "quantifier": "every history of calls to the parser, and every place in a document where a reference can stand", "why_tests_cant": "error handling is tested on a few bad documents; a caller that catches one exception class needs to know for every input and chunking which class can occur", "anchors": [{"file": "pylib/uxml/parser.py", "symbols": ["parser", "handle_cdata", "parse"]}]}
{"id": "C133", "title": "A tree sender delivers what is complete of a document that is cut off or ill-formed", "statement": "When a tree sender parses a text that stops anywhere inside a document, it raises nothing and the sink has been sent exactly the matching elements whose end tag is complete in the text, whole and in the order in which they end. For any text whatsoever, the sinks are sent, event by event, what they would be sent in a document that begins with the same events, nothing else is changed, and the sender raises exactly if the parser does.", "quantifier": "every text, every cut of every document, every list of patterns that can be called", "why_tests_cant": "a test cuts a few documents at a few places; error recovery of streaming consumers has to hold for every cut", "anchors": [{"file": "pylib/uxml/treeiter.py", "symbols": ["sender", "_handler", "parse"]}, {"file": "pylib/uxml/parser.py", "symbols": ["parser"]}]}
{"id": "C134", "title": "Queries for elements by attribute or child", "statement": "A query on the text of a document with `//m[@k='v']` yields, in the order of `//m`, exactly the elements called m with an attribute k of value v; `//m[c]` those with a child element called c; `//m/@k` the attributes k of the elements m, `//m/c` the elements c that are children of elements m, `//@k` every attribute k of the document in document order, each once. The command line tool given an expression that yields attributes prints the attributes (as `{=\"v\"}`), not the elements they are on.", "quantifier": "all document texts, all names a name test can be written with, all values without the quote", "why_tests_cant": "documents, names and values are unbounded; the claim goes through two parsers, the tree builder and the evaluator", "anchors": [{"file": "pylib/uxml/uxpath/__init__.py", "symbols": ["qquery"]}, {"file": "pylib/uxml/uxpath/xast.py", "symbols": ["absolute_path", "predicated_expression", "step", "binary_expression"]}, {"file": "exec/microx", "symbols": ["run"]}]}
{"id": "C135", "title": "Sinks that return or raise", "statement": "A tree sender hands its sinks the same elements in the same order whatever the sinks do, up to the first delivery that a sink does not take. If the sink returns after an element, `parse` raises RuntimeError; if it raises, `parse` raises that exception; the element was received, nothing is sent afterwards, to any sink. So a sink that returns after n elements has the first n matches, and `parse` raises if and only if there are at least n. A sender whose sink failed can be used for another document as though it were new.", "quantifier": "all documents, all patterns, all sinks (any function of what was received so far), all later documents", "why_tests_cant": "the sinks are arbitrary programs and the moment of the failure arbitrary; what is left behind shows only in later documents", "anchors": [{"file": "pylib/uxml/treeiter.py", "symbols": ["sender.__init__", "sender._handler", "sender.parse"]}]}
{"id": "C136", "title": "microx --html and --lax treat every source on its own", "statement": "With `--html` and no match pattern, `microx` processes for each source, in the order given, the root element html5lib builds for it, exactly as it would process a document with that tree; with `--lax`, the first element in the second child of that root. A source in which `--lax` finds nothing ends the run with an error after the lines of the sources before it. `--html` wins over `--lax`, and both are ignored when a match pattern is given.", "quantifier": "all lists of sources, all trees html5lib can hand over, all expressions and foreach expressions", "why_tests_cant": "The tool is tested on a few files; that each source's lines depend on that source alone, and that the tree cut out for --lax is a tree of its own, must hold for all of them.", "anchors": [{"file": "exec/microx", "symbols": ["run"]}, {"file": "pylib/uxml/html5.py", "symbols": ["parse", "parse_lax_xml"]}]}
{"id": "C137", "title": "An XML sender fed in pieces sends what it would for the whole", "statement": "However a document is cut into pieces and fed to an `xmliter.sender` by successive calls of `parse`, the sinks get the same elements in the same order as from one call, each as soon as its end has been parsed; how expat chunks character data changes nothing but the division of texts in them. Once a call has raised because of a sink, the sender never sends anything again and raises nothing.", "quantifier": "all documents, all ways to cut them and to chunk their text, all lists of patterns, all sinks", "why_tests_cant": "Tests feed whole small documents at once; where a network buffer ends, and where expat cuts a text, is not under the user's control.", "anchors": [{"file": "pylib/uxml/xmliter.py", "symbols": ["sender"]}, {"file": "pylib/uxml/xml.py", "symbols": ["expat_callbacks"]}, {"file": "pylib/uxml/treeiter.py", "symbols": ["sender._handler"]}]}
{"id": "C138", "title": "Indented output reads back as the same document but for white space", "statement": "Whatever element is written with an indent made of white space, by `xml_encode` or by a raw writer, the text is well formed, and parsing it gives a tree with the same elements, attributes and texts except for white space in the texts. The writer leaves every element that contains no elements exactly as it was; `xml_encode` puts a newline and indents before the text of every such element.", "quantifier": "all elements with legal names, attributes and texts, all non-empty indents of spaces, tabs and newlines, all depths", "why_tests_cant": "Tests compare the output of a few documents with expected strings; what another program reads back from it, for mixed content of any depth, is not covered by them.", "anchors": [{"file": "pylib/uxml/tree.py", "symbols": ["element.xml_encode"]}, {"file": "pylib/uxml/writer.py", "symbols": ["raw.write", "raw.start_element", "raw.end_element"]}, {"file": "pylib/uxml/parser.py", "symbols": ["parser"]}]}
{"id": "C139", "title": "A handler that ends stops the parser at that event", "statement": "A handler coroutine given to `parser` is sent the events of the text in order, each once, up to and including the first at which it returns or raises. The call of `send` ends there, with `StopIteration` if it returned and with its exception otherwise, whatever comes later in the text, even text the parser would never return from; every later call raises `StopIteration` and the handler is sent nothing more.", "quantifier": "all handlers, texts, ways to cut them into fragments and histories of calls", "why_tests_cant": "A handler may stop at any event of any text, and what follows that event is arbitrary; tests try a few.", "anchors": [{"file": "pylib/uxml/parser.py", "symbols": ["parser"]}]}
{"id": "C140", "title": "Programs that load, edit and save documents do what their calls say", "statement": "A program that parses documents, makes elements and texts, inserts strings and trees, removes children, moves a removed child elsewhere, renames elements, changes attributes and lets go of trees, in any order and with the garbage collector running at any time, has in memory exactly the trees its calls describe, with each child's parent link to the node above it. Inserting into an element, removing a child of one and parsing a document never fail. Trees it keeps apart share nothing, so a call on one leaves the others as they are. What `xml_encode` writes changes only where the edit was made: an insertion adds what is written for the new node, a removal takes it out, any other edit rewrites that node alone. Saved and parsed again, a tree is the same up to adjacent texts being one, while the tree in memory stays.", "quantifier": "all programs of such steps, of any length, all trees, positions, indices, strings and points of garbage collection", "why_tests_cant": "Edits interact with each other, with weak parent links, with the collector and with the parser's own objects; tests try a few sequences.", "anchors": [{"file": "pylib/uxml/tree.py", "symbols": ["element", "text", "element.xml_insert", "element.xml_remove", "element.xml_encode", "treebuilder.parse"]}]}
{"id": "C141", "title": "A path finds the elements along it, each once and in document order", "statement": "A path of steps `axis::name`, `axis::name[test]` and `//name` along the self, child, descendant, descendant-or-self and sibling axes yields exactly the elements that can be reached along it step by step. It yields one item for each route, routes that part at an earlier step first, and at that step in the order of its axis. If all steps are along self and child, and the last along any of the axes that go down, the elements come in document order and each once; with one such step anywhere each element comes once.", "quantifier": "all documents, paths of any length, tests that do not raise and do not give numbers, and elements to start from", "why_tests_cant": "How many routes lead to an element and in which order they are found depends on the shape of the whole document; tests use documents in which names do not nest.", "anchors": [{"file": "pylib/uxml/uxpath/xast.py", "symbols": ["binary_expression", "step", "predicated_expression", "name_test"]}]}
{"id": "C142", "title": "Queries can be rewritten by the laws of paths, predicates and tests", "statement": "An expression may be replaced by another one that the laws of sequences, paths, predicates and boolean tests make equal to it, anywhere inside of a larger expression, without changing what is yielded, in which order, or which exception comes after which items: `(e)` for `e`, `(a, (b, c))` for `(a, b, c)`, `(a, b)/c` for `(a/c, b/c)`, `./e` and `e/.` for `e`, `(a/b)/c` for `a/(b/c)`, `l//a` for `l/descendant-or-self::a`, `e[p and q]` for `e[p][q]`, `e[p][p]` for `e[p]`, `not(not(e))` for `boolean(e)`, the laws of De Morgan for tests, and more. Parts of a union may be put in any order and grouping if they do not raise.", "quantifier": "all expressions related by the laws, applied any number of times at any place, all documents, variables and context items that count as true", "why_tests_cant": "A law must hold whatever the parts are and wherever it is used; tests compare a few pairs of queries on a few documents.", "anchors": [{"file": "pylib/uxml/uxpath/xast.py", "symbols": ["binary_expression", "absolute_path", "step", "predicated_expression", "function_call", "Sequence", "to_boolean"]}, {"file": "pylib/uxml/uxpath/functions.py", "symbols": ["_not", "boolean"]}]}
{"id": "C143", "title": "Results of a path can be changed while the next ones are being read", "statement": "A program reads the results of a query like `entry[@state='new']/name` one by one, from an element of a tree held in memory, and each time it has a result it changes results it already has: renames them, sets their attributes, adds and removes and rewrites anything below them, as often as it likes. It then gets exactly the elements the query finds in the tree as it was when the query began, each once and in that order, and no error; and those are the elements the query yields on the document the tree represents. The query is any path of child steps with predicates at any place, as long as what the predicates say of an element does not depend on results already read; the tree outside the results is not changed. Attributes may be changed anywhere if no predicate looks at them.", "quantifier": "every tree, every element of it, every path of child steps with any predicates, every history of reading results and changing those read", "why_tests_cant": "Results are computed while they are read, so every change happens in the middle of the evaluation; whether a list iterator, a filter position or a later step sees it depends on the path, the tree and when the change is made. Tests try a few.", "anchors": [{"file": "pylib/uxml/tree.py", "symbols": ["element.xml_xpath", "element.xml_insert", "element.xml_remove"]}, {"file": "pylib/uxml/uxpath/xast.py", "symbols": ["binary_expression.compute", "step.compute", "predicated_expression.compute"]}]}
{"id": "C144", "title": "The results of a query can be taken out of the tree", "statement": "A program collects the elements a query yields in a list and takes each out of its parent with xml_remove. That runs without an error exactly if the document element is not among them and none comes twice, however they are nested. The tree is then the old one without these elements and everything else as it was, in the old order; each element taken out is a tree of its own, complete except for other results that were inside it; and no node outside the tree has changed. For a path of child steps with tests this always succeeds, and for `//name` it leaves the document without any element of that name, unless the document element has the name.", "quantifier": "every tree, every list of elements of it, in any order and nesting; every path of child steps with tests; every name", "why_tests_cant": "Removing one result changes the child lists the other removals search, and results may be inside of others already taken out; the property is about all trees and lists, tests try a few.", "anchors": [{"file": "pylib/uxml/tree.py", "symbols": ["element.xml_remove", "element.xml_xpath", "node.xml_parent"]}, {"file": "pylib/uxml/uxpath/xast.py", "symbols": ["step.compute", "binary_expression.compute", "absolute_path.compute"]}]}
{"id": "C145", "title": "Records of a stream are copied into a new document as they come", "statement": "A program reads XML with a sender for a pattern and a sink that writes every record it receives with writer.write to one writer, after start_element for a wrapper. At any time, whatever pieces the input was fed in, nothing is raised and the output file has the wrapper's start tag with the namespace declarations once, and after it the serialisations of exactly the records whose end has been read, in document order, as xml_encode gives them. After end_element the output is one document, which the MicroXML parser reads as the wrapper with copies of the records as children, if the input is MicroXML but for namespaces. The output does not depend on how expat cuts texts into chunks nor on the calls of parse the input is spread over.", "quantifier": "every document reported by expat, with any namespaces; every pattern for which senders find what they should (C33); every division into calls and chunks; every wrapper name and namespace declarations", "why_tests_cant": "The result depends on the interplay of four stateful components (expat callbacks, the sender, the sink, the writer) at every point of the stream; a test compares one output file at the end of one document.", "anchors": [{"file": "pylib/uxml/xmliter.py", "symbols": ["sender.parse", "sender.parse_file"]}, {"file": "pylib/uxml/treeiter.py", "symbols": ["sender"]}, {"file": "pylib/uxml/writer.py", "symbols": ["write", "namespacer.start_element", "namespacer.write", "raw.end_element"]}, {"file": "pylib/uxml/xml.py", "symbols": ["expat_callbacks"]}]}
{"id": "C146", "title": "What a query finds is written as it stands in the document", "statement": "Serialising a node found in a tree gives the very piece of the document's serialisation that stands at its place: after the start tags of the elements around it and the children before it. What is inside an element is written inside its piece; the pieces of elements that are not inside each other do not overlap and follow in document order, so that the results of a path of child steps cut the text of the document into their own texts and what is between. Each such piece, parsed by itself, gives the element.", "quantifier": "every element tree, every node in it, every list of results in document order, every path of child steps with or without tests", "why_tests_cant": "the place of a piece depends on everything written before it, at every level; tests serialise small subtrees of small documents", "anchors": [{"file": "pylib/uxml/tree.py", "symbols": ["element.xml_encode", "text.xml_encode"]}, {"file": "pylib/uxml/uxpath/xast.py", "symbols": ["binary_expression.compute", "step.compute"]}]}
{"id": "C147", "title": "The MicroXML readers and the XML readers agree on a document", "statement": "A MicroXML document read by uxml.tree and read by uxml.xml.treebuilder gives trees that are equal once adjacent texts are joined: the same serialisation, the same string value, and the same results, with the same texts, of queries along elements. treeiter.sender and xmliter.sender send each sink the same records for it, however the document is fed, and raise for the same patterns.", "quantifier": "every MicroXML document, every way in which expat cuts its character data and the caller cuts the document, all patterns, all paths of elements with tests on elements, attributes and texts", "why_tests_cant": "the two readers share no code and there are infinitely many ways to cut the data; tests read a few documents with one of them", "anchors": [{"file": "pylib/uxml/tree.py", "symbols": ["treebuilder.parse"]}, {"file": "pylib/uxml/xml.py", "symbols": ["treebuilder.parse"]}, {"file": "pylib/uxml/treeiter.py", "symbols": ["sender"]}, {"file": "pylib/uxml/xmliter.py", "symbols": ["sender"]}]}
{"id": "C148", "title": "Queries along elements do not depend on the text between them", "statement": "A path of elements, along child, descendant, descendant-or-self, self and sibling axes and //, with tests on elements and attributes, finds corresponding elements in the same order in two documents that differ in text only: indented or not, or with text cut into nodes in another way. With tests on the texts of elements too, if only the cutting differs. This includes writing a document with indentation and reading it back.", "quantifier": "every two element trees with the same elements and attributes, every path, every starting element", "why_tests_cant": "the claim relates the results of all queries on all pairs of such documents; tests run a few queries on one document", "anchors": [{"file": "pylib/uxml/uxpath/xast.py", "symbols": ["step.compute", "binary_expression.compute", "predicated_expression.compute"]}, {"file": "pylib/uxml/tree.py", "symbols": ["element.xml_encode"]}]}
{"id": "C149", "title": "What a union does in a document too deep for Python's limit on nested calls, and what unions do after that", "statement": "A union asked for at a node without a place in the order, in a tree with elements nested deeper than Python's limit on nested calls allows, raises RecursionError, whatever its two sides find; if no element is that deep it yields what it finds in document order. After a failure the elements up to the first that is too deep keep their places: later unions at one of them do not number again, whatever the limit is by then, so that they yield document order if they find only such elements, and raise AttributeError if they find another.", "quantifier": "every tree, every limit, every context node and the root, every two lists of elements found, all numbers left by earlier queries", "why_tests_cant": "the limit depends on the caller's stack and the trees are unbounded; the failure leaves marks on nodes that only show in later queries", "anchors": [{"file": "pylib/uxml/uxpath/xast.py", "symbols": ["index_docorder", "binary_expression.compute"]}, {"file": "pylib/uxml/treeutil.py", "symbols": ["descendants"]}]}
{"id": "C150", "title": "What a query finds can be printed", "statement": "A loop that calls xml_encode() on every item a query gives prints one text for each item, in the order of the results, and ends as the query ends; xml_write() writes the same texts. The text of an element, parsed by itself, gives the element; the text of a text node is what stands for it in the document; the text of an attribute tells its name and its value.", "quantifier": "every document, every query, every context item, every kind of result", "why_tests_cant": "which items come out depends on the query and the document; tests print the elements found by a few queries", "anchors": [{"file": "pylib/uxml/tree.py", "symbols": ["element.xml_encode", "text.xml_encode", "node.xml_encode", "node.xml_write"]}, {"file": "pylib/uxml/uxpath/xast.py", "symbols": ["attribute_node.xml_encode", "attribute_node.xml_write", "root_node"]}]}
{"id": "C151", "title": "Functions of the caller in queries", "statement": "Functions passed with funcs can be called in an expression next to the built-in ones: a call yields exactly what the function yields when it is given the context and the argument expressions, which are evaluated only as far as the function asks for them, wherever the call stands; as a test it selects the items for which it yields true. Functions an expression does not call make no difference to its result, and without funcs evaluation is that of the built-in functions.", "quantifier": "every mapping of functions, every function that depends only on what it is given, every expression, document and context item", "why_tests_cant": "functions are arbitrary code of the caller, and a call can stand anywhere in an expression; tests use the built-in functions only", "anchors": [{"file": "pylib/uxml/uxpath/__init__.py", "symbols": ["context", "qquery"]}, {"file": "pylib/uxml/uxpath/xast.py", "symbols": ["function_call.compute", "predicates"]}, {"file": "pylib/uxml/uxpath/functions.py", "symbols": ["BUILTIN_FUNCTIONS", "microxpath_function"]}, {"file": "pylib/uxml/tree.py", "symbols": ["element.xml_xpath"]}]}
{"id": "C152", "title": "A query that only looks down sees nothing but the element", "statement": "A query without absolute paths and without the axes that lead out of an element (child, descendant, self, attribute and // only; any predicates, operators and functions) gives at an element the same results wherever the element is: in one document, in another, after changes elsewhere, and for the element alone, as a sink gets it from a sender or as it is parsed from its own text. The items have the same values and are written the same.", "quantifier": "every element of every document, every other document and position it may be in, every such expression, every context item inside the element", "why_tests_cant": "what the rest of a document is, and where the element is in it, is unbounded; a streaming program never sees the document that its results are compared with", "anchors": [{"file": "pylib/uxml/tree.py", "symbols": ["node.xml_xpath"]}, {"file": "pylib/uxml/uxpath/__init__.py", "symbols": ["context"]}, {"file": "pylib/uxml/uxpath/xast.py", "symbols": ["step.compute", "binary_expression.compute", "predicates.compute", "function_call.compute"]}, {"file": "pylib/uxml/treeiter.py", "symbols": ["sender"]}]}
{"id": "C153", "title": "A query on objects in memory gives what it gives on the document they stand for", "statement": "After any program of parse, element, text, xml_append, xml_insert, xml_remove, attribute changes and renaming, in which no element is put into a second place before it is removed from the first, xml_xpath of a node of any tree the program holds yields, in order and with the same end, the objects that stand at the positions which the query yields in the document that the calls describe, and the same values. Neither how the tree came about, nor other trees, nor the garbage collector make a difference, and a tree that is saved and loaded gives the same.", "quantifier": "every program of these calls and every run of the collector in it, every tree it holds, every node of the tree, every query string, every assignment of variables to values and nodes of the tree", "why_tests_cant": "the evaluator follows weak references and lists of objects which any history of changes may have produced; no set of tests covers the histories", "anchors": [{"file": "pylib/uxml/tree.py", "symbols": ["node.xml_xpath", "element.xml_insert", "element.xml_remove"]}, {"file": "pylib/uxml/uxpath/__init__.py", "symbols": ["context", "root_node"]}, {"file": "pylib/uxml/uxpath/xast.py", "symbols": ["compute"]}, {"file": "pylib/uxml/treeutil.py", "symbols": ["descendants", "following_siblings"]}]}
{"id": "C154", "title": "A query keeps to the trees it is given", "statement": "xml_xpath of an element yields only values and nodes that can be reached, along children and parents, from the element or from a node that is the value of a variable. Whatever a program does with other trees afterwards - parse, create, insert, remove, rename, change attributes, give up, collect garbage - the same query yields the same objects and values in the same order with the same end. This holds for objects linked in any way, tree or not. A union of nodes of different trees raises AttributeError if the foreign node has no number from an earlier union; whether it has one depends on what was asked before.", "quantifier": "every memory of linked objects, every element, every query, all variables; every continuation of the program that leaves the trees of the element and of the variables as they are", "why_tests_cant": "isolation is a claim about every possible content of the rest of memory and every later action on it", "anchors": [{"file": "pylib/uxml/tree.py", "symbols": ["node.xml_xpath"]}, {"file": "pylib/uxml/uxpath/__init__.py", "symbols": ["context"]}, {"file": "pylib/uxml/uxpath/xast.py", "symbols": ["compute", "index_docorder", "binary_expression"]}, {"file": "pylib/uxml/treeutil.py", "symbols": ["descendants"]}]}
{"id": "C155", "title": "How much text a parser object holds and how often it reads it", "statement": "A parser object that is suspended holds every character ever passed to it, not only the unfinished piece (so the memory of a streaming parse grows with the document), although nothing it has got past is needed again: a parser that throws that part away before every call delivers the same events with the same outcomes. A call that is not the last one and ends reads the held text at most 22 times for each character that was pending or is new, and 18 times; a whole document passed in one call, with or without the end mark, costs a number of reads proportional to its length. The work for a text passed in pieces is at most 22 reads for each character and each call; it is not proportional to the text: a text passed character by character is read from its beginning at every call.", "quantifier": "every sequence of send calls, every fragmentation, every text", "why_tests_cant": "a test sees one document and no bound; the claims are about growth with the input", "anchors": [{"file": "pylib/uxml/parser.py", "symbols": ["parser", "handle_cdata", "parse"]}]}
{"id": "C156", "title": "A query finds exactly the places its path leads to", "statement": "For a whole language of queries - child, descendant, self and sibling steps, `.`, `..`, `*`, `/p`, `//p`, `p/q`, `p//m`, `p[test]`, `p | q`, positions on a step, and tests built with paths, attributes, attribute values, string values, contains, starts-with, not, and, or - a query raises nothing and yields exactly the places that its path leads to, where each form of a path is a relation between places in the document and each form of a test is a property of a place. Two paths with the same meaning find the same elements.", "quantifier": "all documents, all queries of the language (of any length and nesting), all starting elements, all variable bindings", "why_tests_cant": "The queries nest without bound, and each form has to be right at every place of every document and inside every other form; a test evaluates one query on one document.", "anchors": [{"file": "pylib/uxml/uxpath/xast.py", "symbols": ["absolute_path.compute", "binary_expression.compute", "step.compute", "predicated_expression.compute", "abbreviated_step.compute", "function_call.compute"]}, {"file": "pylib/uxml/uxpath/__init__.py", "symbols": ["context"]}, {"file": "pylib/uxml/uxpath/functions.py", "symbols": ["boolean", "_not", "contains", "starts_with"]}]}
{"id": "C157", "title": "Queries under Python's limit on nested calls: never a wrong answer, and no dependence on the depth of the document unless text is asked for", "statement": "Whatever the limit on nested calls and wherever in a program a query is run, it yields what it would yield without a limit, or a first part of that followed by RecursionError. There is a number of calls, computed from the query and the height of the document, with which it always gets by; with more room a query never yields less. A query without unions that does not ask for the text in elements gets by with a number computed from the query alone, in documents of any depth; every query gets by in every document that could be parsed.", "quantifier": "all expressions of MicroXPath, all documents, all context items, all limits, all numbers of calls the functions of the Python version need", "why_tests_cant": "Tests run with the default limit, shallow documents and short queries; the claim is about all depths and all limits, and about the items yielded before the exception.", "anchors": [{"file": "pylib/uxml/uxpath/xast.py", "symbols": ["absolute_path.compute", "binary_expression.compute", "step.compute", "predicated_expression.compute", "function_call.compute", "index_docorder"]}, {"file": "pylib/uxml/uxpath/functions.py", "symbols": ["string_arg", "string_", "contains", "concat", "foreach_"]}, {"file": "pylib/uxml/tree.py", "symbols": ["strval", "element.xml_value"]}, {"file": "pylib/uxml/treeutil.py", "symbols": ["descendants"]}]}
{"id": "C158", "title": "Earlier queries, and queries under way, do not change what a query yields", "statement": "A program that asks any number of queries on a document it does not change, and takes their items in any order - going back to a query begun earlier, or leaving one unfinished - sees just what it would see if each query were answered by itself: the order numbers that unions leave behind on the nodes change neither the items, nor their order, nor the exceptions of later or interleaved queries.", "quantifier": "all documents, all lists of queries at all context items (of any form, with predicates, functions and nested unions), all interleavings of the requests for items, all order numbers left by earlier queries", "why_tests_cant": "The order numbers are hidden state shared by all queries on a document; a test runs one sequence of queries, and most often each query on a fresh document.", "anchors": [{"file": "pylib/uxml/uxpath/xast.py", "symbols": ["index_docorder", "binary_expression.compute", "predicated_expression.compute", "step.compute", "function_call.compute"]}, {"file": "pylib/uxml/tree.py", "symbols": ["node.xml_xpath"]}, {"file": "pylib/uxml/uxpath/__init__.py", "symbols": ["context.copy"]}, {"file": "pylib/uxml/uxpath/functions.py", "symbols": ["count", "concat", "foreach_"]}]}
{"id": "C159", "title": "Asking each record of a stream is asking the whole document", "statement": "Take a path of element names n/m1/.../mk and a query e that only looks down (all its steps go to the context node, its attributes or what is in it). If a document is fed to a tree sender with the pattern (n, m1, ..., mk) and each record the sink gets is asked `*/e`, the items found are, record after record, exactly those that `n/m1/.../mk/e` finds in the tree of the whole document: the same items in the same order, with the same string values, names and serialisations, and the same exception, if any, after the same items. The same holds for full XML fed in any pieces to an XML sender.", "quantifier": "every document, every path of names, every downward query, every way to write the two queries, every cutting of the XML source into pieces", "why_tests_cant": "Tests can compare the two programs on a few documents; that a program may be changed from loading the document to streaming it needs all documents, records and queries, including those that raise half-way.", "anchors": [{"file": "pylib/uxml/treeiter.py", "symbols": ["sender"]}, {"file": "pylib/uxml/xmliter.py", "symbols": ["sender"]}, {"file": "pylib/uxml/tree.py", "symbols": ["node.xml_xpath"]}, {"file": "pylib/uxml/uxpath/xast.py", "symbols": ["binary_expression", "step"]}]}
{"id": "C160", "title": "Several patterns at once: whole objects, nothing shared", "statement": "A tree sender with any number of patterns and sinks passes to the sinks, in the order of the calls, complete element objects without a parent: the trees that the patterns select, whatever the garbage collector does while they are built and while the other patterns are building theirs. If the sinks keep what they get, it stays complete, and no object belongs to two of the trees passed, even if one element of the document matches two patterns or a match of one pattern lies inside a match of another: changing what one sink got changes nothing of what another sink got.", "quantifier": "every number of patterns, every pattern, every sequence of events, every point at which the garbage collector or other code runs, sinks that keep what they get or not", "why_tests_cant": "The subtrees of the patterns are built interleaved, through shared local variables and weak parent links; whether one is damaged or mixed up with another depends on how matches nest and when the collector runs.", "anchors": [{"file": "pylib/uxml/treeiter.py", "symbols": ["sender._handler", "sender._roots", "sender._parents", "sender.__init__"]}]}
{"id": "C161", "title": "Several patterns at once: memory", "statement": "At any point between two events a tree sender with n patterns keeps alive, for each pattern, no more than the nodes of the subtree being built for it, or else of the last one sent to its sink, and one more text. If each of the trees sent has at most m nodes, that is at most n * m + 1 objects, however long the document is and however many matches it has.", "quantifier": "every number of patterns, every document, every point of the stream", "why_tests_cant": "A bound for all lengths of input.", "anchors": [{"file": "pylib/uxml/treeiter.py", "symbols": ["sender._handler", "sender._roots", "sender._parents"]}]}
{"id": "C162", "title": "A query's results come in a known order, each a known number of times", "statement": "For every path of a language of queries (steps along six axes with a name test, `*`, `.`, `..`, `/`, `//`, `p/q`, `p//m`, `p[test]`, `name[k]`, unions), the list of results is determined by the document: a step yields the elements on the axis in the order of the axis, each once; `p/q` yields what q yields at each result of p, in turn; a predicate keeps the order; `//p` goes over the root and all elements in document order; a union yields the results of both sides in document order, those found by both sides twice. `count(p)` is the length of that list and `(p)[k]` its k-th item.", "quantifier": "every document, every path of the language, every place in the document the query starts from", "why_tests_cant": "a test compares the results of one query on one document; order and multiplicity have to be right for all compositions of the forms", "anchors": [{"file": "pylib/uxml/uxpath/xast.py", "symbols": ["step", "absolute_path", "binary_expression", "predicated_expression"]}, {"file": "pylib/uxml/uxpath/__init__.py", "symbols": ["qquery"]}]}
{"id": "C163", "title": "What the command line tool prints for paths", "statement": "`microx --expr=P`, `--match=P`, each with or without `--foreach=Q`, prints for every element the paths give the markup that `xml_encode` returns, one after the other in the order of the results, and nothing else, and ends without an exception; with `--partition=NAME` it does so for every outermost element of that name of every source, with `--html` for every source. `--expr=P --foreach=Q` prints what `--expr=P/Q` prints, and `--match=P` what `--expr=//P` prints if P finds nothing at the root.", "quantifier": "every document, every source, every pair of paths of the language that do not yield the root", "why_tests_cant": "a test runs the tool on a few files with a few expressions", "anchors": [{"file": "exec/microx", "symbols": ["run"]}, {"file": "pylib/uxml/uxpath/xast.py", "symbols": ["binary_expression"]}]}
{"id": "C164", "title": "Queries for texts, attributes, counts, strings and names", "statement": "For every path p of the language of C156: p/text(), p/node(), p/@k, p/@*, p//text(), the same with / or // in front (//text(), //p/@k, /p/text()) yield exactly the texts, nodes and attributes they denote, with the values of the attributes, in the order of the places p gives and in the order of the axis at each place; count(...) is how many there are, string(...) the text of the first one or the empty string, name(p) the name of the first element found or the empty string. The command line tool prints for such a query, given by --expr or --match, with or without --foreach, exactly one line for each thing found: markup for an element, the characters of a text, the value of an attribute in {=\"...\"}, a number or a string as it is.", "quantifier": "all documents, all such queries, all elements to start at, all lists of sources and partitions", "why_tests_cant": "queries and documents are unbounded; a test sees one query on one document", "anchors": [{"file": "pylib/uxml/uxpath/xast.py", "symbols": ["step", "binary_expression", "node_type_test", "name_test", "absolute_path", "to_string"]}, {"file": "pylib/uxml/uxpath/functions.py", "symbols": ["count", "string_", "name"]}, {"file": "pylib/uxml/uxpath/__init__.py", "symbols": ["qquery"]}, {"file": "exec/microx", "symbols": ["process_partition", "run"]}]}
{"id": "C165", "title": "text() and node() written alone stand for the children", "statement": "elem.xml_xpath('text()') yields the texts among the children of elem, and elem.xml_xpath('node()') its children, as child::text(), ./text(), child::node() and ./node() do.", "quantifier": "all elements of all documents", "why_tests_cant": "holds or fails for each element of each document; the existing tests have text() only after a path", "anchors": [{"file": "pylib/uxml/uxpath/parserules.py", "symbols": ["p_expr_paths_etc", "p_node_test_type", "p_function_call"]}, {"file": "pylib/uxml/uxpath/xast.py", "symbols": ["node_type_test"]}, {"file": "pylib/uxml/uxpath/__init__.py", "symbols": ["qquery"]}]}
{"id": "C166", "title": "queries with tests on what other queries find", "statement": "A query made of paths, last steps (attributes, texts) and tests on what other such queries find - `l = 's'`, `count(l) < k`, `count(l) = k`, `contains(l, 's')`, `starts-with(l, 's')`, `name() = 'm'`, the query itself, `not`, `and`, `or`, several tests one after the other and numbers in brackets - nested to any depth, raises nothing and yields exactly the list its meaning gives, in order. Each form is one line of the specification. A comparison looks at the first thing found; nothing found counts as the text `False` for contains and starts-with. The command line tool prints one line for each thing found.", "quantifier": "all such queries of any size and nesting, all documents, the root and all elements as context, all texts of documents and queries, all sources of the tool", "why_tests_cant": "queries and documents are unboundedly many; a test covers one query on one document", "anchors": [{"file": "pylib/uxml/uxpath/xast.py", "symbols": ["predicated_expression", "binary_expression", "function_call", "step", "absolute_path"]}, {"file": "pylib/uxml/uxpath/functions.py", "symbols": ["count", "contains", "starts_with", "name", "boolean", "_not"]}, {"file": "pylib/uxml/uxpath/__init__.py", "symbols": ["qquery"]}, {"file": "exec/microx", "symbols": ["process_partition", "run"]}]}
{"id": "C167", "title": "queries mean what their text says", "statement": "Every text of a query of the forms of C156, C164 and C166 - steps between slashes, / or // in front, tests and numbers in brackets, with any blanks between the tokens, whole names and keywords spelled in any of the allowed ways - is read as the query it is a text of, and on the text of a document it yields exactly the list this query gives. In particular, for all names and all values without an apostrophe, `//m[k='v']/@a` yields the attributes a of the elements m whose first child k has the text v, in document order.", "quantifier": "all query texts of these forms of any length and nesting, all texts of documents, all elements as context", "why_tests_cant": "both texts are unbounded; precedence and grouping interact with every nesting", "anchors": [{"file": "pylib/uxml/uxpath/parserules.py", "symbols": ["p_expr_predicates", "p_relative_location_path_simple"]}, {"file": "pylib/uxml/uxpath/lexrules.py", "symbols": ["t_NAME"]}, {"file": "pylib/uxml/uxpath/__init__.py", "symbols": ["qquery", "parse"]}, {"file": "pylib/uxml/uxpath/xast.py", "symbols": ["predicated_expression", "binary_expression", "step"]}]}
{"id": "C168", "title": "// means the same after a bracket as before one", "statement": "In e//b/c the elements b are searched for at every depth below what e finds, whether or not e ends with a test in brackets.", "quantifier": "all expressions and documents", "why_tests_cant": "unbounded expressions", "anchors": [{"file": "pylib/uxml/uxpath/parserules.py", "symbols": ["p_expr_predicates", "p_path_expr_binary"]}, {"file": "pylib/uxml/uxpath/xast.py", "symbols": ["binary_expression"]}]}
{"id": "C169", "title": "The command line tool prints, for queries with tests, exactly the lines they say, from their text", "statement": "Whatever query with tests (the queries of C166, or count, string or name of one) is written after --expr or --match of microx, with any blanks, and with or without another such query after --foreach: for a source that is a well-formed document the tool prints exactly the lines said by the query (one for each thing found, in order; with --match for each element of the document in turn; with --foreach for each thing found in turn), and stops without an error; with --partition=m the same for each outermost element m of each source, with --html for each document. There is always exactly one such list of lines.", "quantifier": "every query of this kind and every way to write it, every document and every list of sources, every setting of --foreach and --partition", "why_tests_cant": "the queries nest to any depth and the documents have any shape; tests print a handful of combinations", "anchors": [{"file": "exec/microx", "symbols": ["run", "process_partition", "print_item"]}, {"file": "pylib/uxml/uxpath/parserules.py", "symbols": ["parse"]}, {"file": "pylib/uxml/uxpath/xast.py", "symbols": ["predicated_expression", "binary_expression", "function_call"]}]}
{"id": "C170", "title": "A variable stands for its value", "statement": "In a query a variable $v may be written in place of a string or number constant whenever the variable mapping gives v that value: the query yields the same items at every node, whatever the value contains. So //m[k=$v]/@a finds, for every string v (also one with both kinds of quotation marks, which no constant can spell), exactly the attributes a of the elements m whose first child k has that text. (False of the code where the variable is the start or length of substring, which raises RuntimeError; proved for all queries in which it is not.)", "quantifier": "every query text, every choice of the constants replaced, every variable mapping, every document and context node", "why_tests_cant": "the constants may be anywhere in a query of any size and the values are arbitrary strings; tests try a few", "anchors": [{"file": "pylib/uxml/uxpath/xast.py", "symbols": ["variable_reference", "function_call"]}, {"file": "pylib/uxml/uxpath/functions.py", "symbols": ["substring", "to_number", "string_arg"]}, {"file": "pylib/uxml/uxpath/parserules.py", "symbols": ["parse", "p_variable_reference"]}]}
{"id": "C171", "title": "A query with tests finds the same in a tree and in the text it is saved as", "statement": "Take a tree without empty text nodes and the text it is serialised as, with or without indentation, or any two documents with the same elements and attributes but other text between them. A path, list or test of the kinds with brackets and unions, such as //b[c and not(d)]/@k or //a[count(b) > 2][@k = 'x'], that asks for no text nodes and does not look at the text in elements finds, from the same place, the same elements and attributes in the same order in both. If only the cutting of text into text nodes differs it may look at that text too, and the lines printed for its results are the same. (With an empty text node in the tree this is false of the code: //a then finds the top element twice.)", "quantifier": "every pair of documents with the same elements and attributes, every query of these forms of any size, every context node", "why_tests_cant": "trees, cuts of the text and queries are unbounded; a test compares a few", "anchors": [{"file": "pylib/uxml/uxpath/xast.py", "symbols": ["axis_child", "axis_descendant", "predicate", "union"]}, {"file": "pylib/uxml/tree.py", "symbols": ["xml_value", "xml_encode"]}, {"file": "pylib/uxml/writer.py", "symbols": ["write"]}, {"file": "exec/microx", "symbols": ["microx"]}]}
{"id": "C172", "title": "Asking each record of a stream a query with tests is asking the whole document", "statement": "Feed a document to a tree sender (or XML in pieces to an xmliter sender) with a pattern of element names such as ('d','r'), and ask each record a query */q, where q is of the forms with brackets, counts, unions and last steps to texts and attributes, and only looks down: for example */n[@k='x' and not(c)]/text(). Each record gives what q finds from that record's element in the whole document, in the order that the meaning of q says, with the same lines printed; and the query d/r/q on the whole document gives just that for one record after the other, provided no number in brackets on q itself (as in n[2]) counts what is found behind all the records together: then the two differ, and only asking the record counts within it.", "quantifier": "every document, every pattern of names, every such query of any size and every text of it", "why_tests_cant": "documents, records, patterns and queries are unbounded; a test compares a few", "anchors": [{"file": "pylib/uxml/treeiter.py", "symbols": ["sender"]}, {"file": "pylib/uxml/xmliter.py", "symbols": ["sender"]}, {"file": "pylib/uxml/uxpath/xast.py", "symbols": ["predicated_expression", "binary_expression", "function_call", "step"]}, {"file": "pylib/uxml/uxpath/functions.py", "symbols": ["count", "contains", "starts_with", "name", "boolean", "_not"]}]}
{"id": "C173", "title": "The selection functions and the queries for the same thing agree", "statement": "For every element e of a document without empty text nodes: select_elements(e) or select_name(e, m), followed by any chain of select_attribute(..., k), select_attribute(..., k, v) and select_value(..., v), selects exactly the children that e.xml_xpath finds, in the same order, for * or m followed by the brackets [@k], [@k='v'] and [.='v'] in the same order; select_pattern(e, pattern) with a pattern of names and '*' selects exactly what the query with slashes between the stages finds, in the same order; the descendants with a name are what descendant::m finds; and the following siblings of an element with a name are what following-sibling::m finds. (Asked of the document element the query needs */ in front. select_value of an element itself also takes texts.)", "quantifier": "every document, every element in it, every name, value, chain of selectors and pattern of names and '*', every text of the query", "why_tests_cant": "documents, chains and patterns are unbounded; a test compares a few", "anchors": [{"file": "pylib/uxml/treeutil.py", "symbols": ["select_elements", "select_name", "select_attribute", "select_value", "select_pattern", "descendants", "following_siblings"]}, {"file": "pylib/uxml/tree.py", "symbols": ["xml_xpath"]}, {"file": "pylib/uxml/uxpath/xast.py", "symbols": ["predicated_expression", "step"]}]}
{"id": "C174", "title": "A program that copies the records passing a test copies what the query with that test finds", "statement": "Feed a MicroXML document to treeiter.sender (or an XML document in pieces to xmliter.sender) with a pattern of names n, m1, ..., mk and a sink that writes each record r for which r.xml_xpath('*[t]...') finds something to a namespacer, inside a wrapper element, where the tests t only look down. Then: asking never raises; the records written are exactly the elements along the names of which the tests hold in the document, in document order; they are exactly what the query n/m1/.../mk[t]... finds on the whole document; the output is the wrapper's tags around the serialised records; and for MicroXML the output reads back as the wrapper element with copies of exactly those elements as its children.", "quantifier": "every document, every pattern of names, every list of tests of C166 that look down (queries, comparisons, counts, contains, starts-with, name, not, and, or, nested at will), every text of the query, every split into pieces, every wrapper and prefixes", "why_tests_cant": "documents, tests and splits are unbounded; a test filters a few documents by a few conditions", "anchors": [{"file": "pylib/uxml/treeiter.py", "symbols": ["sender"]}, {"file": "pylib/uxml/xmliter.py", "symbols": ["sender"]}, {"file": "pylib/uxml/tree.py", "symbols": ["xml_xpath"]}, {"file": "pylib/uxml/writer.py", "symbols": ["namespacer"]}, {"file": "pylib/uxml/uxpath/xast.py", "symbols": ["predicated_expression"]}]}
{"id": "C175", "title": "A program that deletes what a query with tests finds deletes just that", "statement": "Parse a document and run `for e in list(doc.xml_xpath('//m[t]...')): e.xml_parent.xml_remove(e)`. The list has each element called m of which the tests hold once and nothing else; the loop runs to its end exactly if the document element is not one of them; the tree is then the document without those elements and with everything else as it was; saved and read again it is that document (adjacent texts merged); and if the tests look only at the name and the attributes of the element itself, the same query then finds nothing. (With tests on what is inside the element it can find more, as //r[not(r)] does.)", "quantifier": "every document, builder and garbage collector run, every name, every list of tests of C166 (queries, comparisons, counts, contains, starts-with, name, not, and, or, nested at will), every text of the query", "why_tests_cant": "documents and tests are unbounded; a test deletes a few elements of a few documents", "anchors": [{"file": "pylib/uxml/tree.py", "symbols": ["xml_xpath", "xml_remove", "parse"]}, {"file": "pylib/uxml/uxpath/xast.py", "symbols": ["predicated_expression", "absolute_path"]}]}
{"id": "C176", "title": "A stream with a pattern of names and '*' sends what the query with the same text finds", "statement": "Feed a document to a sender with a pattern (h, g1, ..., gk) of names and '*'. The elements sent are those at depth k whose ancestors and themselves are what the stages ask for, each once, in document order, and they are exactly what the query h/g1/.../gk on the whole document finds. Asking each of them '*/l', where l looks down and counts nothing, gives in turn just what the query h/g1/.../gk/l on the whole document gives; and a sink that writes those that pass '*[t]...' writes just what h/g1/.../gk[t]... finds. The same pattern sends the same elements when full XML is fed in pieces of any size. (With '**' this fails: only outermost elements are sent.)", "quantifier": "every document, every non-empty list of names and '*', every query and test of C166 that looks down, every way of writing them, every partition into pieces", "why_tests_cant": "documents, patterns, queries and partitions are unbounded; a test sends a few documents through a few patterns", "anchors": [{"file": "pylib/uxml/treeiter.py", "symbols": ["sender", "sender._prep_patterns"]}, {"file": "pylib/uxml/xmliter.py", "symbols": ["sender"]}, {"file": "pylib/uxml/tree.py", "symbols": ["xml_xpath"]}, {"file": "pylib/uxml/uxpath/xast.py", "symbols": ["step"]}]}
{"id": "C177", "title": "A program that marks or renames what a query with tests finds changes the tags of just those elements", "statement": "Run `for e in list(doc.xml_xpath('//m[t]...')): e.xml_attributes[k] = v` (or `e.xml_attributes.pop(k, None)` or `e.xml_name = m2` as the body) on one of the trees a program holds. The list has each element called m of which the tests hold once and nothing else. Afterwards the tree is what it was but for the tags of those elements: every other tag, every text and every position is the same, every object is where it was, and the program's other trees are unchanged. Then //m[@k='v'] finds exactly the objects marked and those that had the mark before; after dropping k, //m[@k] finds exactly those that had it before and of which the tests did not hold; after renaming, //m2 finds exactly the objects renamed and those called so before, and //m exactly those of which the tests did not hold. A document parsed, marked and saved reads back as the document with the new tags (adjacent texts merged).", "quantifier": "every program that loads and edits trees up to then, every tree without empty texts, every name, every list of tests of C166 (nested at will), every text of the queries, every attribute and value or new name", "why_tests_cant": "documents, tests and histories are unbounded; a test marks a few elements of a few documents", "anchors": [{"file": "pylib/uxml/tree.py", "symbols": ["xml_xpath", "element", "parse"]}, {"file": "pylib/uxml/uxpath/xast.py", "symbols": ["predicated_expression", "absolute_path"]}, {"file": "pylib/uxml/writer.py", "symbols": ["raw"]}]}
{"id": "C178", "title": "A program that moves what a query with tests finds to another tree moves just that", "statement": "Run `xs = list(doc.xml_xpath('//m[t]...'))`, then `for x in xs: x.xml_parent.xml_remove(x)` and `for x in xs: w.xml_append(x)`, where doc and w are two of the trees a program holds. The list has each element called m of which the tests hold once and nothing else. The loops run to their ends exactly if the document element is not one of them. Then doc is what it was without those elements; w has them as its last children, the same objects in the order of the list, after the children it had; a result that was inside another one is beside it and no longer in it, and all else inside a result is as it was; no other tree of the program has changed. The two trees together have every tag and every text as often as before, and if they could be saved as MicroXML they still can. If the tests look only at the name and the attributes of the element itself and the query found nothing in w before, the query then finds nothing in doc and in w exactly the moved objects, each once.", "quantifier": "every program that loads and edits trees up to then, every two different trees without empty texts, every name, every list of tests of C166 (nested at will), every text of the query", "why_tests_cant": "documents, tests and histories are unbounded, and results may be inside one another; a test moves a few elements of a few documents", "anchors": [{"file": "pylib/uxml/tree.py", "symbols": ["xml_xpath", "xml_remove", "xml_append"]}, {"file": "pylib/uxml/uxpath/xast.py", "symbols": ["predicated_expression", "absolute_path"]}]}
{"id": "C179", "title": "A program that adds a child to what a query with tests finds adds just that", "statement": "Run `for e in list(doc.xml_xpath('//m[t]...')): e.xml_append(s)`, or with `e.xml_append(element(n, attrs))` as the body, on one of the trees a program holds. The list has each element called m of which the tests hold once and nothing else, and the loop always runs to its end. Afterwards the tree is what it was, but each of those elements has one more child, after those it had; every object is in its old place; the program's other trees are unchanged. If the tests look only at the name and the attributes of the element itself and what is added is not called m, the query then finds the same objects again; and if elements called n were added, //n finds exactly the objects it found before and the new last children. A tree that could be saved as MicroXML still can, if what is added can.", "quantifier": "every program that loads and edits trees up to then, every tree without empty texts, every name, every list of tests of C166 (nested at will), every text of the queries, every string or element added", "why_tests_cant": "documents, tests and histories are unbounded, and results may be inside one another; a test adds a few children in a few documents", "anchors": [{"file": "pylib/uxml/tree.py", "symbols": ["xml_xpath", "xml_append", "element"]}, {"file": "pylib/uxml/uxpath/xast.py", "symbols": ["predicated_expression", "absolute_path"]}, {"file": "pylib/uxml/writer.py", "symbols": ["raw"]}]}
{"id": "C180", "title": "Copying what a query with tests finds", "statement": "A program lists the results of //m[t] in a document that can be written as MicroXML, then copies each one to the end of an element w at the top of another tree, by parsing what it serialises to: w.xml_append(tb.parse(x.xml_encode())). The loop always runs to its end, whatever the garbage collector does during the parses, as long as the program holds its trees. Afterwards the document is what it was, with every object at its place. The element w has, after the children it had, the tree of each result, in the order of the results, with adjacent texts merged; a result inside another result is copied twice, once with it and once by itself. No object is in both trees, so changing a copy changes nothing in the document. All other trees are as before. Queries //m[t] on the document find the same objects as before, in the same order. If the tests look only at the name and the attributes of the element itself, the query asked of w then finds every copy. If the tree of w could be written as MicroXML, it still can, and reads back as it is with adjacent texts merged.", "quantifier": "every program history, document, target tree, name, tests, way of writing the query, builder used for each copy and behaviour of the garbage collector", "why_tests_cant": "each copy depends on the serialiser, the parser and the tree builder agreeing on that subtree, and on the parse leaving every object of the other trees alone; a test copies a few small elements", "anchors": [{"file": "pylib/uxml/tree.py", "symbols": ["xml_xpath", "xml_encode", "xml_append", "treebuilder.parse"]}, {"file": "pylib/uxml/uxpath/xast.py", "symbols": ["predicated_expression", "absolute_path"]}, {"file": "pylib/uxml/writer.py", "symbols": ["raw"]}]}
