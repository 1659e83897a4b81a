import Verif.Model.Writer
import Verif.Spec.Tree
/-
Specification for the writers.
-/
namespace Amara

/-- The text a fresh `raw` writer has written after the given calls (`raw` accepts every call). -/
def rawText (indent : Str) (depth : Int) (cs : List Call) : Option Str :=
  ((Writer.raw indent depth).calls cs).map Writer.out

/-- The text a fresh `namespacer` has written after the given calls. -/
def nsText (prefixes mapping : List (Str × Str)) (cs : List Call) : Option Str :=
  ((Writer.namespacer prefixes mapping).calls cs).map Writer.out

/-- No call asks for an empty-element tag. -/
def NoEmpty (cs : List Call) : Prop := ∀ n as, Call.start n as true ∉ cs

/-- A call is not the start of an element. -/
def Call.isStart : Call → Bool
  | .start .. => true
  | _ => false

/-- Namespace declarations, each preceded by a space. -/
def declarations : List (Str × Str) → Str
  | [] => []
  | (k, v) :: r => ' ' :: ((if k = [] then "xmlns".toList else "xmlns:".toList ++ k) ++
      '=' :: (quoteattr v ++ declarations r))

/-- A name with the prefix a mapping gives it. -/
def prefixed (mapping : List (Str × Str)) (key name : Str) : Str :=
  match Attrs.get mapping key with
  | none => name
  | some p => if p = [] then name else p ++ ':' :: name

/-- Calls with the names of elements and attributes prefixed as the mapping says; the mapping's keys for
attributes begin with '@'. -/
def Call.prefixed (mapping : List (Str × Str)) : Call → Call
  | .start n as e => .start (Amara.prefixed mapping n n)
      (as.map fun p => (Amara.prefixed mapping ('@' :: p.1) p.1, p.2)) e
  | .text s => .text s
  | .stop n => .stop (Amara.prefixed mapping n n)

mutual
  /-- The calls describing an element. -/
  def Node.calls : Node → List Call
    | .elem n as cs => .start n as false :: (Node.callsList cs ++ [.stop n])
    | .text s => [.text s]
  def Node.callsList : List Node → List Call
    | [] => []
    | x :: r => Node.calls x ++ Node.callsList r
end

/-- How many elements are open after the given calls, starting from depth `d`. -/
def depthAfter (d : Int) (cs : List Call) : Int :=
  d + (cs.countP fun c => match c with | .start _ _ false => true | _ => false) -
    (cs.countP fun c => match c with | .stop _ => true | _ => false)

/-- The last call that is not `text` is the start of an element. -/
def justOpened (cs : List Call) : Bool :=
  match (cs.filter fun c => match c with | .text _ => false | _ => true).getLast? with
  | some (.start _ _ false) => true
  | _ => false

/-- What indentation adds, as calls: a text made of a newline and indents, as deep as the element is
nested, before a start tag that follows a start tag, after an end tag and after an empty-element tag. -/
def padded (indent : Str) (d : Int) (before : List Call) : List Call → List Call
  | [] => []
  | c :: cs =>
    let pad := Call.text ('\n' :: copies (depthAfter d before).toNat indent)
    (match c with
      | .start _ _ e => (if justOpened before then [pad] else []) ++ c :: (if e then [pad] else [])
      | .stop _ => [c, pad]
      | .text _ => [c]) ++ padded indent d (before ++ [c]) cs

end Amara
