import Verif.Model.Microx
import Verif.Spec.XPath
/-
Specification for the command line tool.
-/
namespace Amara

variable {F : Type}

/-- The line printed for an item other than the root: for an element its serialisation, for a text node its
characters, for an attribute its value in `{="..."}`, otherwise the value as Python prints it. -/
def Env.line (E : Env F) : Item F → Str
  | .node p => match E.doc.at? p with
    | some (.text s) => s
    | some x => x.encode
    | none => []
  | .attr _ _ v => "{=\"".toList ++ v ++ "\"}".toList
  | x => E.strVal x

/-- One step of a location path: the name of the element at a position, and a test for each of the given
attributes that it has. -/
def Node.stepTo (doc : Node) (attrs : List Str) (p : Path) : Str :=
  match doc.at? p with
  | some (.elem n as _) => n ++ (attrs.filterMap fun k => (as.get k).map fun v =>
      "[@".toList ++ k ++ "=\"".toList ++ v ++ "\"]".toList).flatten
  | _ => []

/-- The location path from the top through the first `k` elements on the way to a position. -/
def Node.pathTo (doc : Node) (attrs : List Str) (p : Path) (k : Nat) : Str :=
  ['/'].intercalate ((List.range k).map fun i => doc.stepTo attrs (p.take i))

end Amara
