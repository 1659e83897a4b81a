import Verif.Model.Microx
import Verif.Model.Query
import Verif.Model.TreeIter
import Verif.Spec.Heap
/-
The command line tool `exec/microx` as a whole: `run` (129-214) over several sources.

A source is represented by the callbacks expat makes for it and whether it then reports an error.  `--html` and
`--lax`, where the sources are read by html5lib instead, are not modelled here (see `Model/Html5`).  The expressions
are given as the strings on the command line.
-/
namespace Amara

variable {F : Type}

/-- The command and its detail, `exec/microx` 217, 269-272. -/
inductive Command where
  | expr (s : Str)
  | match_ (s : Str)
  | findText (s : Str)
deriving DecidableEq

/-- The arguments of `run` other than the sources, `exec/microx` 129-130. -/
structure MicroxArgs where
  command : Command
  foreach : Option Str := none
  partition : Option Str := none
  limit : Option Nat := none
  showAttrs : List Str := []

/-- What there is after lines 142-147: the expressions are parsed. -/
inductive Parsed (F : Type) where
  | expr (e : Expr F)
  | match_ (e : Expr F)
  | findText (s : Str)

/-- `exec/microx` 142-145. -/
def Command.parse (fo : FloatOps F) : Command → Except XErr (Parsed F)
  | .expr s => (parseText fo s).map .expr
  | .match_ s => (parseText fo s).map .match_
  | .findText s => .ok (.findText s)

/-- `if foreach: parsed_foreach = uxpathparse(foreach)`, `exec/microx` 146-147: an empty string is as good as none. -/
def parseForeach (fo : FloatOps F) : Option Str → Except XErr (Option (Expr F))
  | none => .ok none
  | some [] => .ok none
  | some (c :: s) => (parseText fo (c :: s)).map some

/-- `process_partition(root)`, `exec/microx` 155-189, for an element that is the top of its tree; `varmap` is empty
(140). -/
def processPartition (fo : FloatOps F) (n : Nat) (attrs : List Str) (cmd : Parsed F) (fe : Option (Expr F))
    (doc : Node) : Printed :=
  let E := queryEnv fo (fun _ => none) doc
  match cmd with
  | .expr e => runExpr fo doc (E.run n e) (fe.map fun f => E.run n f)
  | .match_ e => runMatch fo doc (E.run n e) (fe.map fun f => E.run n f)
  | .findText s => ⟨runFindText doc attrs s, .done⟩

/-- How the tool ends: as the processing of a tree does, with an exception from a parser, or because a source without
any element gave None as the tree (what happens then is not modelled). -/
inductive RunEnd where
  | tail (t : Tail)
  | parseError
  | noTree
deriving DecidableEq, Repr

/-- What the tool prints and how it ends. -/
structure RunOut where
  lines : List Str
  end_ : RunEnd
deriving DecidableEq, Repr

/-- One part of a run after another. -/
def Printed.andThen (a : Printed) (b : RunOut) : RunOut :=
  match a.tail with
  | .done => ⟨a.lines ++ b.lines, b.end_⟩
  | t => ⟨a.lines, .tail t⟩

/-- The loop over the sources without `--partition`, `exec/microx` 196, 202-212: all executions.  The tree builder
`TB` (109-110) is the same for all sources. -/
def RunSources (process : Node → Printed) : Builder → List (List XCall × Bool) → RunOut → Prop
  | _, [], out => out = ⟨[], .tail .done⟩
  | b, (cbs, x) :: rest, out => ∃ r b', XTreeParse b cbs x r b' ∧ match r with
    | .raised => out = ⟨[], .parseError⟩
    | .returned none => out = ⟨[], .noTree⟩
    | .returned (some i) => ∃ doc, Rep b'.heap none i doc ∧ ∃ out', RunSources process b' rest out' ∧
        out = (process doc).andThen out'

/-- The stage of a pattern given by a string, `uxml/treeiter.py` 98-104. -/
def stageOf (s : Str) : Stage Event := if s = ['*'] then .star else if s = ['*', '*'] then .dstar else .name s

/-- What the sink does with the elements it is sent, `exec/microx` 191-194: an exception goes back through the sender
and expat and ends the run. -/
def processAll (process : Node → Printed) (rest : RunOut) : List Node → RunOut
  | [] => rest
  | x :: xs => (process x).andThen (processAll process rest xs)

/-- What is sent to the only sink. -/
def SOut.sent : SOut → Option Node
  | .send ix x => if ix = 0 then some x else none
  | .stray _ _ => none

/-- The loop over the sources with `--partition`, `exec/microx` 196-200: a new sender for each. -/
def runPartition (process : Node → Printed) (name : Str) : List (List XCall × Bool) → RunOut
  | [] => ⟨[], .tail .done⟩
  | (cbs, x) :: rest =>
    let o := (newSender [[.dstar, stageOf name]]).xmlParse cbs
    processAll process (if o.2.isNone || x then ⟨[], .parseError⟩ else runPartition process name rest)
      (o.1.flatten.filterMap SOut.sent)

/-- `run(...)`, `exec/microx` 129-214, started with nothing parsed before: all executions.  `limit` is never used.
`if partition:` (197) takes an empty name for none. -/
def MicroxRun (fo : FloatOps F) (n : Nat) (a : MicroxArgs) (sources : List (List XCall × Bool)) (out : RunOut) : Prop :=
  match a.command.parse fo with
  | .error e => out = ⟨[], .tail (.err e)⟩
  | .ok cmd => match parseForeach fo a.foreach with
    | .error e => out = ⟨[], .tail (.err e)⟩
    | .ok fe =>
      let process := processPartition fo n a.showAttrs cmd fe
      match a.partition with
      | some (c :: p) => out = runPartition process (c :: p) sources
      | _ => RunSources process (Builder.new ⟨0, fun _ => none⟩) sources out

end Amara
