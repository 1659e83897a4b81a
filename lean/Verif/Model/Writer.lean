import Verif.Model.Tree
/-
The serialising writers of `pylib/uxml/writer.py`.

Simplification: here `_whandler` is the writer itself (60); a writer with a custom one is in `WriterHandler`. The file
object is only the text written to it.
-/
namespace Amara

/-- `class token`, `uxml/writer.py` 11-20 (`attr_quote` is never written). -/
inductive Tok where
  | startOpen | startClose | endOpen | endClose | emptyClose | betweenAttr | preAttr | attrEquals
deriving DecidableEq, Repr

/-- `TOKENS`, `uxml/writer.py` 23-33. -/
def Tok.str : Tok → Str
  | .startOpen => ['<']
  | .startClose => ['>']
  | .endOpen => ['<', '/']
  | .endClose => ['>']
  | .emptyClose => ['/', '>']
  | .preAttr => [' ']
  | .betweenAttr => [' ']
  | .attrEquals => ['=']

/-- `class context`, `uxml/writer.py` 36-42. -/
inductive Ctx where
  | startElement | endElement | elementName | attributeName | attributeText | text
deriving DecidableEq, Repr

/-- The second argument of `write`: a token or a string. -/
inductive WArg where
  | tok (t : Tok)
  | str (s : Str)
deriving DecidableEq, Repr

/-- `if isinstance(text, token): text = TOKENS[text]`, `uxml/writer.py` 71, 179. -/
def WArg.str' : WArg → Str
  | .tok t => t.str
  | .str s => s

/-- The additional attributes of a `namespacer`, `uxml/writer.py` 141-146.  `mapping` is the dictionary
from names to pairs (namespace, prefix), kept as name and prefix. -/
structure Ns where
  mapping : List (Str × Str)
  prefixes : List (Str × Str)
  firstElement : Bool
  nsHandled : Bool
deriving DecidableEq, Repr

/-- A writer object: what has been written to `_fp`, `_indent` (None is the empty string), `_depth`,
`_awaiting_indent`, `uxml/writer.py` 57-64, and, for a `namespacer`, its own attributes. -/
structure Writer where
  out : Str
  indent : Str
  depth : Int
  awaiting : Bool
  ns : Option Ns
deriving DecidableEq, Repr

/-- `writer.raw(fp, indent=indent, depth=depth)`, `uxml/writer.py` 57-64. -/
def Writer.raw (indent : Str) (depth : Int) : Writer := ⟨[], indent, depth, false, none⟩

/-- `writer.namespacer(fp, prefixes=prefixes, mapping=mapping)`, `uxml/writer.py` 141-146.  Before the first
`start_element` there is no attribute `_ns_handled`; it is not read before it is set (149). -/
def Writer.namespacer (prefixes mapping : List (Str × Str)) : Writer :=
  ⟨[], [], 0, false, some ⟨mapping, prefixes, true, false⟩⟩

/-- `self._fp.write(s)`. -/
def Writer.put (w : Writer) (s : Str) : Writer := { w with out := w.out ++ s }

/-- `self._mapping.get(name, ('', ''))[1]`, `uxml/writer.py` 171, 176. -/
def Ns.prefixOf (n : Ns) (name : Str) : Str := (Attrs.get n.mapping name).getD []

/-- The loop writing namespace declarations, `uxml/writer.py` 161-166. -/
def Writer.putDecls (w : Writer) : List (Str × Str) → Writer
  | [] => w
  | (k, v) :: r =>
    ((((w.put Tok.preAttr.str).put (if k = [] then "xmlns".toList else "xmlns:".toList ++ k)).put
      Tok.attrEquals.str).put (quoteattr v)).putDecls r

/-- `if prefix: self._fp.write(prefix + ':')`, `uxml/writer.py` 172-173, 177-178. -/
def Writer.putPrefix (w : Writer) (p : Str) : Writer := if p = [] then w else w.put (p ++ [':'])

/-- `write(ctx, text)`: `raw.write`, `uxml/writer.py` 66-73, or `namespacer.write`, 153-181. -/
def Writer.write (w : Writer) (ctx : Ctx) (a : WArg) : Writer :=
  let a := if ctx = .text then WArg.str (escape a.str') else a
  match w.ns with
  | none => w.put a.str'
  | some ns =>
    let w1 :=
      if ctx = .startElement then
        if ns.firstElement = true ∧ (a = .tok .preAttr ∨ a = .tok .startClose) ∧ ns.nsHandled = false then
          { (w.putDecls ns.prefixes) with ns := some { ns with nsHandled := true } }
        else w
      else if ctx = .elementName then w.putPrefix (ns.prefixOf a.str')
      else if ctx = .attributeName then w.putPrefix (ns.prefixOf ('@' :: a.str'))
      else w
    w1.put a.str'

/-- `'\n'` then `self._indent*self._depth`, in text context, `uxml/writer.py` 80-81, 101-102, 114-115. -/
def Writer.newline (w : Writer) : Writer :=
  (w.write .text (.str ['\n'])).write .text (.str (repeatStr w.indent w.depth.toNat))

/-- The loop over the attributes, `uxml/writer.py` 88-97. -/
def Writer.attrs (w : Writer) (first : Bool) : Attrs → Writer
  | [] => w
  | (k, v) :: r =>
    ((((w.write .startElement (.tok (if first then .preAttr else .betweenAttr))).write
      .attributeName (.str k)).write .startElement (.tok .attrEquals)).write
      .attributeText (.str (quoteattr v))).attrs false r

/-- `raw.start_element(name, attribs, empty)`, `uxml/writer.py` 75-107. -/
def Writer.rawStart (w : Writer) (name : Str) (as : Attrs) (empty : Bool) : Writer :=
  let w := if w.awaiting = true ∧ w.indent ≠ [] then { w.newline with awaiting := false } else w
  let w := (w.write .startElement (.tok .startOpen)).write .elementName (.str name)
  let w := w.attrs true as
  if empty then
    let w := w.write .startElement (.tok .emptyClose)
    if w.indent ≠ [] then w.newline else w
  else
    let w := w.write .startElement (.tok .startClose)
    { w with depth := w.depth + 1, awaiting := true }

/-- `start_element` of either class; `namespacer.start_element`, `uxml/writer.py` 148-151, has no parameter
`empty` (passing it is a TypeError: `none`). -/
def Writer.start (w : Writer) (name : Str) (as : Attrs) (empty : Bool) : Option Writer :=
  match w.ns with
  | none => some (w.rawStart name as empty)
  | some ns =>
    if empty then none
    else
      let w := { w with ns := some { ns with nsHandled := false } }
      let w := w.rawStart name as false
      some { w with ns := w.ns.map fun n => { n with firstElement := false } }

/-- `end_element(name)`, `uxml/writer.py` 109-118. -/
def Writer.stop (w : Writer) (name : Str) : Writer :=
  let w := ((w.write .endElement (.tok .endOpen)).write .elementName (.str name)).write
    .endElement (.tok .endClose)
  let w := if w.indent ≠ [] then w.newline else w
  { w with depth := w.depth - 1, awaiting := false }

/-- `text(text)`, `uxml/writer.py` 120-122. -/
def Writer.text (w : Writer) (s : Str) : Writer := w.write .text (.str s)

/-- A call of a method of the writer. -/
inductive Call where
  | start (name : Str) (attrs : Attrs) (empty : Bool)
  | text (s : Str)
  | stop (name : Str)
deriving DecidableEq, Repr

/-- Making a call; `none` is an exception. -/
def Writer.call (w : Writer) : Call → Option Writer
  | .start n as e => w.start n as e
  | .text s => some (w.text s)
  | .stop n => some (w.stop n)

/-- A sequence of calls. -/
def Writer.calls (w : Writer) : List Call → Option Writer
  | [] => some w
  | c :: cs => (w.call c).bind fun w' => w'.calls cs

mutual
  /-- `write(elem, a_writer)`, `uxml/writer.py` 184-197.  (On a text node `write` would fail; it is only
  called on elements.) -/
  def Writer.writeElem (w : Writer) : Node → Option Writer
    | .elem n as cs => (w.start n as false).bind fun w => (w.writeChildren cs).map fun w => w.stop n
    | .text _ => none
  /-- The loop, `uxml/writer.py` 191-195. -/
  def Writer.writeChildren (w : Writer) : List Node → Option Writer
    | [] => some w
    | .elem n as cs :: r => (w.writeElem (.elem n as cs)).bind fun w => w.writeChildren r
    | .text s :: r => (w.text s).writeChildren r
end

end Amara
