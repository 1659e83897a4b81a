import Verif.Model.Writer
import Verif.Spec.Writer
/-
Specification for writing the records of a stream into a new document, as `test/uxml/test_chunk_parse_write.py` does.
-/
namespace Amara

/-- What a sink does that has received `xs`: `writer.write(rec, writer_obj)` for each. -/
def Writer.writeAll (w : Writer) : List Node → Option Writer
  | [] => some w
  | x :: xs => (w.writeElem x).bind fun w' => w'.writeAll xs

/-- The output file, when a namespacer has been made, `start_element(wrapper)` called, and the records `xs` received so
far. -/
def writtenSoFar (prefixes : List (Str × Str)) (wrapper : Str) (xs : List Node) : Option Str :=
  (((Writer.namespacer prefixes []).start wrapper [] false).bind fun w => w.writeAll xs).map Writer.out

/-- The same after `end_element(wrapper)`. -/
def writtenAtEnd (prefixes : List (Str × Str)) (wrapper : Str) (xs : List Node) : Option Str :=
  (((Writer.namespacer prefixes []).start wrapper [] false).bind fun w => w.writeAll xs).map fun w => (w.stop wrapper).out

end Amara
