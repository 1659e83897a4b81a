import Verif.Model.WriterHandler
import Verif.Spec.Writer
/-
Specification: the pieces of the output that a write handler is given.
-/
namespace Amara

/-- What a write handler is given with one call. -/
abbrev Piece := Ctx × WArg

/-- The state of a handler after it was given some pieces. -/
def feed {σ} (f : WHandler σ) (st : σ) (ps : List Piece) : σ := ps.foldl (fun s p => f s p.1 p.2) st

/-- The pieces of the attributes: the first is preceded by the token that opens the attributes, the others by the one
between attributes; values are quoted and escaped. -/
def attrPieces (as : Attrs) : List Piece :=
  as.zipIdx.flatMap fun p => [(.startElement, .tok (if p.2 = 0 then .preAttr else .betweenAttr)),
    (.attributeName, .str p.1.1), (.startElement, .tok .attrEquals), (.attributeText, .str (quoteattr p.1.2))]

/-- The pieces of a call, without indentation; text is given as it is, not escaped. -/
def Call.pieces : Call → List Piece
  | .start n as e => (.startElement, .tok .startOpen) :: (.elementName, .str n) ::
      (attrPieces as ++ [(.startElement, .tok (if e then .emptyClose else .startClose))])
  | .text s => [(.text, .str s)]
  | .stop n => [(.endElement, .tok .endOpen), (.elementName, .str n), (.endElement, .tok .endClose)]

/-- The two pieces of an indentation; none without indent. -/
def padPieces (indent : Str) (depth : Nat) : List Piece :=
  if indent = [] then [] else [(.text, .str ['\n']), (.text, .str (copies depth indent))]

/-- The pieces of a sequence of calls, with the indentation where `padded` has it. -/
def indentedPieces (indent : Str) (d : Int) (before : List Call) : List Call → List Piece
  | [] => []
  | c :: cs =>
    let pad := padPieces indent (depthAfter d before).toNat
    (match c with
      | .start _ _ e => (if justOpened before then pad else []) ++ (c.pieces ++ if e then pad else [])
      | .stop _ => c.pieces ++ pad
      | .text _ => c.pieces) ++ indentedPieces indent d (before ++ [c]) cs

end Amara
