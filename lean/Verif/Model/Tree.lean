import Verif.Model.Node
/-
Serialisation and string values of finished trees: `xml_encode`, `xml_value`, `strval` of
`pylib/uxml/tree.py`, with `escape` and `quoteattr` of the standard library's
`xml/sax/saxutils.py`, which it uses.
-/
namespace Amara

/-- `s.replace(c, r)` for a one-character string `c`. -/
def replaceChar (c : Char) (r : Str) (s : Str) : Str := s.flatMap fun d => if d = c then r else [d]

/-- `escape(data)` of `xml.sax.saxutils`: '&' first, then '>', then '<'; used in
`uxml/tree.py` 101 and `uxml/writer.py` 70, 157. -/
def escape (s : Str) : Str :=
  replaceChar '<' "&lt;".toList (replaceChar '>' "&gt;".toList (replaceChar '&' "&amp;".toList s))

/-- `escape(data, entities)` with the entities `quoteattr` adds, in the order of the dictionary. -/
def escapeAttr (s : Str) : Str :=
  replaceChar '\t' "&#9;".toList (replaceChar '\r' "&#13;".toList
    (replaceChar '\n' "&#10;".toList (escape s)))

/-- `quoteattr(data)` of `xml.sax.saxutils`; used in `uxml/tree.py` 89, `uxml/writer.py` 97, 166. -/
def quoteattr (s : Str) : Str :=
  let d := escapeAttr s
  if '"' ∈ d then
    if '\'' ∈ d then '"' :: (replaceChar '"' "&quot;".toList d ++ ['"'])
    else '\'' :: (d ++ ['\''])
  else '"' :: (d ++ ['"'])

/-- The attribute part of a start tag, `uxml/tree.py` 88-89. -/
def encodeAttrs : Attrs → Str
  | [] => []
  | (k, v) :: r => ' ' :: (k ++ '=' :: (quoteattr v ++ encodeAttrs r))

/-- `indent*depth`. -/
def repeatStr (ind : Str) : Nat → Str
  | 0 => []
  | n + 1 => ind ++ repeatStr ind n

/-- `if indent: '\n', indent*depth`, `uxml/tree.py` 91-93 and 97-99.  No indent (None) is the empty
string: both are false. -/
def indentRun (ind : Str) (depth : Nat) : Str :=
  if ind = [] then [] else '\n' :: repeatStr ind depth

mutual
  /-- `element.xml_encode(indent, depth)`, `uxml/tree.py` 78-105, and `text.xml_encode`, 175-176
  (which does not escape). -/
  def Node.encodeI (ind : Str) (depth : Nat) : Node → Str
    | .elem n as cs =>
      '<' :: (n ++ (encodeAttrs as ++ '>' :: (indentRun ind depth ++
        (Node.encodeChildren ind depth cs ++ '<' :: '/' :: (n ++ ['>'])))))
    | .text s => s
  /-- The loop over the children, `uxml/tree.py` 94-103. -/
  def Node.encodeChildren (ind : Str) (depth : Nat) : List Node → Str
    | [] => []
    | .elem n as cs :: r =>
      Node.encodeI ind (depth + 1) (.elem n as cs) ++ (indentRun ind depth ++ Node.encodeChildren ind depth r)
    | .text s :: r => escape s ++ Node.encodeChildren ind depth r
end

/-- `e.xml_encode()`, `uxml/tree.py` 78. -/
def Node.encode (e : Node) : Str := e.encodeI [] 0

mutual
  /-- `xml_value`, `uxml/tree.py` 109-114, 178-180. -/
  def Node.xmlValue : Node → Str
    | .elem _ _ cs => Node.xmlValues cs
    | .text s => s
  def Node.xmlValues : List Node → Str
    | [] => []
    | x :: r => Node.xmlValue x ++ Node.xmlValues r
end

mutual
  /-- `strval(node, outermost=False)`, `uxml/tree.py` 190-203: the accumulator. -/
  def Node.strvalAcc : Node → List Str
    | .elem _ _ cs => Node.strvalAccs cs
    | .text s => [s]
  def Node.strvalAccs : List Node → List Str
    | [] => []
    | .text s :: r => s :: Node.strvalAccs r
    | .elem n as cs :: r => Node.strvalAcc (.elem n as cs) ++ Node.strvalAccs r
end

/-- `strval(node)`, `uxml/tree.py` 190-203. -/
def Node.strval : Node → Str
  | .text s => s
  | .elem n as cs => (Node.strvalAcc (.elem n as cs)).flatten

end Amara
