import Verif.Model.XHeap
import Verif.Spec.XPathItems
import Verif.Spec.Edit
import Verif.Spec.SenderMem
/-
A query on objects in memory and on the document they stand for (C153): when an item of the one is an item of the other.
-/
namespace Amara

variable {F : Type}

/-- The item of the document stands for the item in memory, where `t` is the document element: a position for the object that is found
there, counting children; the root for the root node of `t`; an attribute for a node made for that attribute; a value for itself. -/
def Item.StandsFor (h : Heap) (t : Id) : Item F → Mem.Item F → Prop
  | .root, .root s => s = t
  | .node p, .obj i => h.locate t p = some i
  | .attr p k v, .attr e k' v' => h.locate t p = some e ∧ k' = k ∧ v' = v
  | .str s, .str s' => s' = s
  | .int i, .int i' => i' = i
  | .float f, .float f' => f' = f
  | .bool b, .bool b' => b' = b
  | _, _ => False

/-- What is yielded in the document stands for what is yielded in memory: item by item, as many of them, and the end is the same. -/
def Res.StandsFor (h : Heap) (t : Id) (r : Res F) (r' : Mem.Res F) : Prop :=
  r.items.length = r'.items.length ∧
    (∀ (j : Nat) x y, r.items[j]? = some x → r'.items[j]? = some y → x.StandsFor h t y) ∧ r.tail = r'.tail

/-- The variables in the document stand for the variables in memory, by name. -/
def VarsStandFor (h : Heap) (t : Id) (vars : Str → Option (Item F)) (vars' : Str → Option (Mem.Item F)) : Prop :=
  ∀ v, match vars v, vars' v with
    | some x, some y => x.StandsFor h t y
    | none, none => True
    | _, _ => False

mutual
  /-- All literals of the expression are strings, numbers or booleans. -/
  def Expr.LitsPlain : Expr F → Prop
    | .lit y => y.Atomic
    | .abs none | .test _ | .dot | .dotdot | .step _ _ | .var _ => True
    | .neg e | .abs (some e) | .absAll e => e.LitsPlain
    | .slash l r | .dslash l r | .union l r | .eq l r | .ne l r | .rel _ l r | .or l r | .and l r | .arith _ l r => l.LitsPlain ∧ r.LitsPlain
    | .pred l ps => l.LitsPlain ∧ Expr.LitsPlainAll ps
    | .call _ as => Expr.LitsPlainAll as
    | .seq es => Expr.LitsPlainAll es
  def Expr.LitsPlainAll : List (Expr F) → Prop
    | [] => True
    | e :: es => e.LitsPlain ∧ Expr.LitsPlainAll es
end

end Amara
