import Verif.Model.Heap
/-
Trees from full XML: the callbacks given to the expat parser and the tree builder of `pylib/uxml/xml.py`.

The expat parser itself is outside the model: its behaviour on a text is represented by the sequence of
callbacks it makes and whether it ends with an error.  `ns_expat_callbacks` (51-82) is not modelled: its
constructor passes an argument its base class does not have and always raises TypeError.
-/
namespace Amara

/-- Characters for which `str.isspace()` holds, at which `str.split()` splits (Python's Unicode data). -/
def isPySpace (c : Char) : Bool :=
  inRanges [(0x9, 0xD), (0x1C, 0x20), (0x85, 0x85), (0xA0, 0xA0), (0x1680, 0x1680), (0x2000, 0x200A),
    (0x2028, 0x2029), (0x202F, 0x202F), (0x205F, 0x205F), (0x3000, 0x3000)] c.toNat

/-- The loop of `str.split()`: `cur` is the word being read. -/
def pySplitFrom (cur : Str) : Str → List Str
  | [] => if cur = [] then [] else [cur]
  | c :: r =>
    if isPySpace c then (if cur = [] then pySplitFrom [] r else cur :: pySplitFrom [] r)
    else pySplitFrom (cur ++ [c]) r

/-- `s.split()`. -/
def pySplit (s : Str) : List Str := pySplitFrom [] s

/-- A callback made by expat. -/
inductive XCall where
  | start (name : Str) (attrs : List (Str × Str))
  | stop (name : Str)
  | chars (data : Str)
deriving DecidableEq, Repr

/-- `name.split()[-1]`, `uxml/xml.py` 26, 30; `none` is IndexError. -/
def localOfStart (name : Str) : Option Str := (pySplit name).getLast?

/-- `name.split()[1] if ' ' in name else name`, `uxml/xml.py` 36; `none` is IndexError. -/
def localOfStop (name : Str) : Option Str := if ' ' ∈ name then (pySplit name)[1]? else some name

/-- `new_attrs`, `uxml/xml.py` 28-30. -/
def stripAttrs : Attrs → List (Str × Str) → Option Attrs
  | acc, [] => some acc
  | acc, (k, v) :: r => (localOfStart k).bind fun l => stripAttrs (acc.set l v) r

/-- The callbacks with the element stack `_elem_stack` (here innermost first), `uxml/xml.py` 24-42: the
events sent to the handler, and whether an IndexError escaped. -/
def expatEvents : List Str → List XCall → List Event × Bool
  | _, [] => ([], false)
  | stk, .start name attrs :: r =>
    match localOfStart name, stripAttrs [] attrs with
    | some l, some as =>
      let x := expatEvents (l :: stk) r
      (.start l as stk.reverse :: x.1, x.2)
    | _, _ => ([], true)
  | stk, .stop name :: r =>
    match localOfStop name, stk with
    | some l, _ :: stk' =>
      let x := expatEvents stk' r
      (.stop l stk'.reverse :: x.1, x.2)
    | _, _ => ([], true)
  | stk, .chars data :: r =>
    let x := expatEvents stk r
    (.chars data :: x.1, x.2)

/-- How a parse of full XML ends. -/
inductive XRes where
  | returned (root : Option Id)
  | raised
deriving DecidableEq, Repr

/-- `xml.treebuilder.parse(source)`, `uxml/xml.py` 119-129, when expat makes the callbacks `cbs` and then
reports an error or not: all executions.  The generator is new, so it has no locals yet, but `_root` and
`_parent` are not reset.  (`Parse` is called without `isfinal`, so a text that merely ends early is no
error.) -/
def XTreeParse (b : Builder) (cbs : List XCall) (expatError : Bool) (r : XRes) (b' : Builder) : Prop :=
  Runs ((expatEvents [] cbs).1.flatMap Event.ops) { b with newElement := none, newText := none } b' ∧
  r = if (expatEvents [] cbs).2 || expatError then .raised else .returned b'.root

end Amara
