import Verif.Model.Writer
/-
The writers of `pylib/uxml/writer.py` with a write handler of the caller's, `whandler` (57-60): a class whose instances
have a method `write(ctx, text)`, called for every piece of the output.

Simplifications: a handler is any function from its state and the two arguments to its next state; that it raises is not
modelled.
-/
namespace Amara

/-- A `raw` writer with a write handler: the state of `_whandler`, `_indent`, `_depth`, `_awaiting_indent`,
`uxml/writer.py` 57-64. -/
structure HWriter (σ : Type) where
  st : σ
  indent : Str
  depth : Int
  awaiting : Bool

/-- What a handler's `write` does. -/
abbrev WHandler (σ : Type) := σ → Ctx → WArg → σ

/-- `writer.raw(fp, whandler, indent, depth)`, `uxml/writer.py` 57-64; `st` is the state of `whandler(fp)`. -/
def HWriter.new {σ} (st : σ) (indent : Str) (depth : Int) : HWriter σ := ⟨st, indent, depth, false⟩

variable {σ : Type} (f : WHandler σ)

/-- `self._whandler.write(ctx, text)`. -/
def HWriter.write (w : HWriter σ) (c : Ctx) (a : WArg) : HWriter σ := { w with st := f w.st c a }

/-- `'\n'` then `self._indent*self._depth`, `uxml/writer.py` 80-81, 101-102, 114-115. -/
def HWriter.newline (w : HWriter σ) : HWriter σ :=
  (w.write f .text (.str ['\n'])).write f .text (.str (repeatStr w.indent w.depth.toNat))

/-- The loop over the attributes, `uxml/writer.py` 88-97. -/
def HWriter.attrs (w : HWriter σ) (first : Bool) : Attrs → HWriter σ
  | [] => w
  | (k, v) :: r =>
    ((((w.write f .startElement (.tok (if first then .preAttr else .betweenAttr))).write f
      .attributeName (.str k)).write f .startElement (.tok .attrEquals)).write f
      .attributeText (.str (quoteattr v))).attrs false r

/-- `start_element(name, attribs, empty)`, `uxml/writer.py` 75-107. -/
def HWriter.start (w : HWriter σ) (name : Str) (as : Attrs) (empty : Bool) : HWriter σ :=
  let w := if w.awaiting = true ∧ w.indent ≠ [] then { w.newline f with awaiting := false } else w
  let w := (w.write f .startElement (.tok .startOpen)).write f .elementName (.str name)
  let w := w.attrs f true as
  if empty then
    let w := w.write f .startElement (.tok .emptyClose)
    if w.indent ≠ [] then w.newline f else w
  else
    let w := w.write f .startElement (.tok .startClose)
    { w with depth := w.depth + 1, awaiting := true }

/-- `end_element(name)`, `uxml/writer.py` 109-118. -/
def HWriter.stop (w : HWriter σ) (name : Str) : HWriter σ :=
  let w := ((w.write f .endElement (.tok .endOpen)).write f .elementName (.str name)).write f
    .endElement (.tok .endClose)
  let w := if w.indent ≠ [] then w.newline f else w
  { w with depth := w.depth - 1, awaiting := false }

/-- A call of a method; `text(text)` is `uxml/writer.py` 120-122. -/
def HWriter.call (w : HWriter σ) : Call → HWriter σ
  | .start n as e => w.start f n as e
  | .text s => w.write f .text (.str s)
  | .stop n => w.stop f n

/-- A sequence of calls. -/
def HWriter.calls (w : HWriter σ) : List Call → HWriter σ
  | [] => w
  | c :: cs => (w.call f c).calls cs

/-- A `namespacer` with a write handler, `uxml/writer.py` 141-146. -/
structure HNamespacer (σ : Type) where
  base : HWriter σ
  ns : Ns

/-- `writer.namespacer(fp, whandler, prefixes, mapping)`, `uxml/writer.py` 141-146. -/
def HNamespacer.new {σ} (st : σ) (prefixes mapping : List (Str × Str)) : HNamespacer σ :=
  ⟨.new st [] 0, ⟨mapping, prefixes, true, false⟩⟩

/-- A call of a method of a `namespacer` with a write handler: `start_element`, `uxml/writer.py` 148-151, has no parameter
`empty` (`none` is TypeError); its own `write`, 153-181, is not the one that is called. -/
def HNamespacer.call (w : HNamespacer σ) : Call → Option (HNamespacer σ)
  | .start n as false => some ⟨w.base.start f n as false, { w.ns with firstElement := false, nsHandled := false }⟩
  | .start _ _ true => none
  | c => some ⟨w.base.call f c, w.ns⟩

/-- A sequence of calls. -/
def HNamespacer.calls (w : HNamespacer σ) : List Call → Option (HNamespacer σ)
  | [] => some w
  | c :: cs => (w.call f c).bind fun w' => w'.calls cs

end Amara
