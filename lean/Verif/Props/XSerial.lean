import Verif.Lemmas.XSerial
import Verif.Props.XParse
/-
What the serialisation of a MicroXPath expression says: C69.
-/
namespace Amara

variable {F : Type}

open X (xparse Written Denotes Clean)

/-! ### C69 -/

/-- Reading the text of an expression that came from the parser gives the expression back, if it is clean: see
`X.Clean`. Missing: expressions with strings, which lose their quotes, with floats that Python shows with an exponent,
with a minus after a name or with a slash after the root. `C69_full_statement_is_false` has the reasons. -/
theorem C69_read_back_partial (fo : FloatOps F) (s : Str) (e : Expr F) (h : xparse fo s = some (.ok e)) (hc : Clean fo e) :
    xparse fo (e.serialize fo) = some (.ok e) := by
  obtain ⟨ts, hw, hd⟩ := (C77_parser_follows_the_grammar fo s e).mp h
  exact (C77_parser_follows_the_grammar fo _ e).mpr ⟨_, X.serialize_written hw hd hc, X.toks_denote hd⟩

/-- Different expressions have different texts. -/
theorem C69_injective_partial (fo : FloatOps F) (s s' : Str) (e e' : Expr F) (h : xparse fo s = some (.ok e))
    (h' : xparse fo s' = some (.ok e')) (hc : Clean fo e) (hc' : Clean fo e') (hs : e.serialize fo = e'.serialize fo) :
    e = e' := by
  have h1 := C69_read_back_partial fo s e h hc
  rw [hs, C69_read_back_partial fo s' e' h' hc'] at h1
  cases h1
  rfl

/-- Serialising is stable: the text of the expression read from the text is the text. -/
theorem C69_stable_partial (fo : FloatOps F) (s : Str) (e : Expr F) (h : xparse fo s = some (.ok e)) (hc : Clean fo e) :
    ∃ e', xparse fo (e.serialize fo) = some (.ok e') ∧ e'.serialize fo = e.serialize fo :=
  ⟨e, C69_read_back_partial fo s e h hc, rfl⟩

/-- An expression with a path, predicates, a call, operators and a variable that meets the hypotheses. -/
example : ∃ e : Expr NoF, xparse noFloats "//a[@i = count(b, 12)]/.. div -$v or text()".toList = some (.ok e) ∧
    Clean noFloats e ∧ e.serialize noFloats = "//child::a[@i=count(child::b,12)]/.. div -$v or text()".toList := by
  refine ⟨.or (.arith .div (.slash (.pred (.absAll (.step .child (.name ['a']))) [.eq (.step .attribute (.name ['i']))
    (.call "count".toList [.step .child (.name ['b']), .lit (.int 12)])]) .dotdot) (.neg (.var ['v']))) (.test .text), ?_, ?_, ?_⟩
  · with_unfolding_all rfl
  · simp [Clean, X.CleanAll, X.endsRoot]
  · with_unfolding_all rfl

/-- Strings lose their quotes, so two different expressions have the text `1`; `/ / a` becomes `//a`; and the text of
`a - b` is `child::a-child::b`, where the first name takes the minus in, and is rejected. -/
theorem C69_full_statement_is_false :
    (∃ (s s' : Str) (e e' : Expr NoF), xparse noFloats s = some (.ok e) ∧ xparse noFloats s' = some (.ok e') ∧ e ≠ e' ∧
      e.serialize noFloats = e'.serialize noFloats) ∧
    (∃ (s : Str) (e e' : Expr NoF), xparse noFloats s = some (.ok e) ∧
      xparse noFloats (e.serialize noFloats) = some (.ok e') ∧ e ≠ e') ∧
    ∃ (s : Str) (e : Expr NoF), xparse noFloats s = some (.ok e) ∧ xparse noFloats (e.serialize noFloats) = some (.error .runtime) := by
  refine ⟨⟨['1'], "'1'".toList, .lit (.int 1), .lit (.str ['1']), ?_, ?_, fun h => by (injection h with h; cases h), ?_⟩,
    ⟨"/ / a".toList, .slash (.abs none) (.step .child (.name ['a'])), .absAll (.step .child (.name ['a'])), ?_, ?_,
      fun h => by cases h⟩,
    ⟨"a - b".toList, .arith .sub (.step .child (.name ['a'])) (.step .child (.name ['b'])), ?_, ?_⟩⟩ <;> with_unfolding_all rfl

end Amara
