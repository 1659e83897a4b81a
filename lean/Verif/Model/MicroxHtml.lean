import Verif.Model.MicroxRun
import Verif.Model.Html5
/-
The command line tool `exec/microx` with `--html` and `--lax`: `run` (129-214) with `parse_html` and `parse_lax`.

What html5lib does with a source is represented by the heap its calls have left and by what it has appended to the
`document`; each call of `html5.parse` makes a new tree builder (`uxml/html5.py` 315-321), so the sources do not share
anything.
-/
namespace Amara

variable {F : Type}

/-- What the parsers make of one source: the callbacks of expat, and what html5lib leaves in memory. -/
structure AnySource where
  xml : List XCall × Bool
  heap : Heap
  roots : List RootNode

/-- What `root` is when it is read, `exec/microx` 203-206: an element in a heap, or an exception, or None or a text (what
the tool does then is not modelled). -/
inductive HtmlRead where
  | elem (h : Heap) (i : Id)
  | error
  | noTree

/-- `html5.parse(source)`, `exec/microx` 204, `uxml/html5.py` 322-323. -/
def AnySource.html (s : AnySource) : HtmlRead :=
  match firstElement s.roots with
  | some (.elem i) => .elem s.heap i
  | _ => .noTree

/-- `html5.parse_lax_xml(source)`, `exec/microx` 206, `uxml/html5.py` 341-350: if `parse` returns None that is an
AttributeError. -/
def AnySource.lax (s : AnySource) : HtmlRead :=
  match firstElement s.roots with
  | some (.elem i) => match s.heap.laxTop i with
    | .ok top h' => match h'.obj top with
      | some (.elem ..) => .elem h' top
      | _ => .noTree
    | _ => .error
  | _ => .error

/-- The loop over the sources with `--html` or `--lax`, `exec/microx` 196, 202-206, 210: all executions. -/
def RunHtml (process : Node → Printed) (read : AnySource → HtmlRead) : List AnySource → RunOut → Prop
  | [], out => out = ⟨[], .tail .done⟩
  | s :: rest, out => match read s with
    | .error => out = ⟨[], .parseError⟩
    | .noTree => out = ⟨[], .noTree⟩
    | .elem h i => ∃ doc, Rep h none i doc ∧ ∃ out', RunHtml process read rest out' ∧ out = (process doc).andThen out'

/-- `run(...)`, `exec/microx` 129-214, with all its options: `--partition` is looked at first, then `--html`, then
`--lax`. -/
def MicroxRunAll (fo : FloatOps F) (n : Nat) (a : MicroxArgs) (html lax : Bool) (sources : List AnySource) (out : RunOut) : Prop :=
  match a.command.parse fo with
  | .error e => out = ⟨[], .tail (.err e)⟩
  | .ok cmd => match parseForeach fo a.foreach with
    | .error e => out = ⟨[], .tail (.err e)⟩
    | .ok fe =>
      let process := processPartition fo n a.showAttrs cmd fe
      match a.partition with
      | some (c :: p) => out = runPartition process (c :: p) (sources.map AnySource.xml)
      | _ =>
        if html then RunHtml process AnySource.html sources out
        else if lax then RunHtml process AnySource.lax sources out
        else RunSources process (Builder.new ⟨0, fun _ => none⟩) (sources.map AnySource.xml) out

end Amara
