import Verif.Spec.Context
import Verif.Model.Parser
/-
Specification: which exception bad input raises.
-/
namespace Amara

/-- The digits of a hexadecimal reference that Python cannot turn into a character: none at all, or a number beyond
U+10FFFF. -/
def NoCharacter (ds : Str) : Prop :=
  (∀ d ∈ ds, (hexDigit? d).isSome) ∧ (ds = [] ∨ 0x110000 ≤ hexValue ds)

/-- Somewhere in the text stands `&#x`, such digits, and `;`. -/
def HasNoCharacter (w : Str) : Prop := ∃ ds, NoCharacter ds ∧ ("&#x".toList ++ ds ++ [';']) <:+: w

/-- `BadRefAs b e`: the text `b` starts with a reference that denotes no legal character, and `e` is the exception for it
(`Err.value` stands for ValueError, and for OverflowError when the number does not fit a C int). -/
inductive BadRefAs : Str → Err → Prop
  | name {n t} : (∀ c ∈ n, c.isAlphanum = true) → (∀ p ∈ namedRefs, p.1.toList ≠ n) →
      BadRefAs ('&' :: (n ++ ';' :: t)) .runtime
  | noCharacter {ds t} : NoCharacter ds → BadRefAs ('&' :: '#' :: 'x' :: (ds ++ ';' :: t)) .value
  | illegal {ds t} : (∀ d ∈ ds, (hexDigit? d).isSome) → ds ≠ [] → hexValue ds < 0x110000 → ¬ LegalCode (hexValue ds) →
      BadRefAs ('&' :: '#' :: 'x' :: (ds ++ ';' :: t)) .runtime
  | digit {ds c t} : (∀ d ∈ ds, (hexDigit? d).isSome) → hexDigit? c = none → c ≠ ';' →
      BadRefAs ('&' :: '#' :: 'x' :: (ds ++ c :: t)) .runtime

end Amara
