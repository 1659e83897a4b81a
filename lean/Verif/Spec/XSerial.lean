import Verif.Spec.XGrammar
import Verif.Spec.XTokens
/-
Specification for serialising MicroXPath expressions: which expressions can be read back.
-/
namespace Amara.X

variable {F : Type}

/-- The text of the expression ends with a name, which a `-` would continue. -/
def endsName : Expr F → Bool
  | .neg e => endsName e
  | .slash _ r | .dslash _ r | .union _ r | .eq _ r | .ne _ r | .rel _ _ r | .or _ r | .and _ r | .arith _ _ r
  | .abs (some r) | .absAll r => endsName r
  | .step _ (.name _) | .test (.name _) | .var _ => true
  | _ => false

/-- The text of the expression ends with a lone `/`, which another `/` would turn into `//`. -/
def endsRoot : Expr F → Bool
  | .neg e => endsRoot e
  | .slash _ r | .dslash _ r | .union _ r | .eq _ r | .ne _ r | .rel _ _ r | .or _ r | .and _ r | .arith _ _ r => endsRoot r
  | .abs none => true
  | _ => false

mutual
  /-- Nothing is lost in the text of the expression: it contains no string, every float in it is shown as digits with a
  point, no minus comes right after a name and no slash right after a slash. -/
  def Clean (fo : FloatOps F) : Expr F → Prop
    | .lit (.int _) => True
    | .lit (.float f) => SpellsTok fo (.float f) (fo.show_ f)
    | .lit _ => False
    | .neg e | .abs (some e) | .absAll e => Clean fo e
    | .slash l r | .dslash l r => Clean fo l ∧ Clean fo r ∧ endsRoot l = false
    | .arith .sub l r => Clean fo l ∧ Clean fo r ∧ endsName l = false
    | .arith _ l r | .union l r | .eq l r | .ne l r | .rel _ l r | .or l r | .and l r => Clean fo l ∧ Clean fo r
    | .pred e ps => Clean fo e ∧ CleanAll fo ps
    | .call _ es | .seq es => CleanAll fo es
    | .abs none | .step _ _ | .test _ | .dot | .dotdot | .var _ => True
  def CleanAll (fo : FloatOps F) : List (Expr F) → Prop
    | [] => True
    | e :: es => Clean fo e ∧ CleanAll fo es
end

end Amara.X
