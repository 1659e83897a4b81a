import Verif.Spec.MeaningTests
import Verif.Spec.XGrammar
/-
Specification for C167: how the queries of C156, C164 and C166 are written, as tokens.  Each rule says how one form is
written; for every query there may be several ways (`b` and `child::b`).

What decides where brackets are needed: a bracket or a slash after a bracket takes in everything before it (C80), and `and` and
`or` have the same strength and group to the left (C79).  So the right side of `and` and `or` must not be another `and` or `or`,
nor a comparison with a bracket in it, unless this stands inside a function call.
-/
namespace Amara
open X (Tok)

variable {F : Type}

/-- Steps. -/
inductive WritesStep : List (Tok F) → CorePath → Prop where
  | here : WritesStep [.dot] .here
  | up : WritesStep [.dotdot] .up
  | children : WritesStep [.star] .children
  | childrenAxis : WritesStep [.name "child".toList, .axisSep, .star] .children
  | child {m : Tok F} : m.isName → WritesStep [m] (.step .child m.word)
  | axis {m : Tok F} {x : Str} {a : CoreAxis} : (x, a.axis) ∈ X.axisTable → m.isName → WritesStep [.name x, .axisSep, m] (.step a m.word)

/-- Steps between slashes. -/
inductive WritesRel : List (Tok F) → CorePath → Prop where
  | step {w : List (Tok F)} {p : CorePath} : WritesStep w p → WritesRel w p
  | slash {w w' : List (Tok F)} {p q : CorePath} : WritesRel w p → WritesStep w' q → WritesRel (w ++ .pathSep :: w') (.seq p q)
  | deep {w : List (Tok F)} {p : CorePath} {m : Tok F} : WritesRel w p → m.isName → WritesRel (w ++ [.abbrevSep, m]) (.deep p m.word)

/-- Paths without brackets. -/
inductive WritesPath : List (Tok F) → CorePath → Prop where
  | rel {w : List (Tok F)} {p : CorePath} : WritesRel w p → WritesPath w p
  | abs {w : List (Tok F)} {p : CorePath} : WritesRel w p → WritesPath (.pathSep :: w) (.abs p)
  | anywhere {w : List (Tok F)} {p : CorePath} : WritesRel w p → WritesPath (.abbrevSep :: w) (.anywhere p)

/-- Last steps.  `b`: there is a slash before it. -/
inductive WritesEnd : Bool → List (Tok F) → CoreEnd → Prop where
  | texts : WritesEnd true [.name "text".toList, .lparen, .rparen] .texts
  | nodes : WritesEnd true [.name "node".toList, .lparen, .rparen] .nodes
  | textsAxis {b : Bool} : WritesEnd b [.name "child".toList, .axisSep, .name "text".toList, .lparen, .rparen] .texts
  | nodesAxis {b : Bool} : WritesEnd b [.name "child".toList, .axisSep, .name "node".toList, .lparen, .rparen] .nodes
  | attr {b : Bool} {k : Tok F} : k.isName → WritesEnd b [.at, k] (.attr k.word)
  | attrs {b : Bool} : WritesEnd b [.at, .star] .attrs

/-- Steps between slashes, with a last step to values or without.  `b`: there is a slash before it. -/
inductive WritesRelList : Bool → List (Tok F) → CoreList → Prop where
  | path {b : Bool} {w : List (Tok F)} {p : CorePath} : WritesRel w p → WritesRelList b w (.path p)
  | last {b : Bool} {w : List (Tok F)} {e : CoreEnd} : WritesEnd b w e → WritesRelList b w (.last e)
  | after {b : Bool} {w w' : List (Tok F)} {p : CorePath} {e : CoreEnd} : WritesRel w p → WritesEnd true w' e →
      WritesRelList b (w ++ .pathSep :: w') (.after p e)
  | allTexts {b : Bool} {w : List (Tok F)} {p : CorePath} : WritesRel w p →
      WritesRelList b (w ++ [.abbrevSep, .name "text".toList, .lparen, .rparen]) (.allTexts p)

/-- Queries for nodes and attributes without brackets. -/
inductive WritesList : List (Tok F) → CoreList → Prop where
  | rel {w : List (Tok F)} {l : CoreList} : WritesRelList false w l → WritesList w l
  | abs {w : List (Tok F)} {l : CoreList} : WritesRelList true w l → WritesList (.pathSep :: w) (.abs l)
  | anywhere {w : List (Tok F)} {l : CoreList} : WritesRelList true w l → WritesList (.abbrevSep :: w) (.anywhere l)

/-- How a query with brackets ends. -/
inductive EndsIn where
  | noBracket | bracket | slashAfterBracket
deriving DecidableEq

mutual
  /-- Paths with brackets. -/
  inductive WritesTested : EndsIn → List (Tok F) → TestedPath → Prop where
    | core {w : List (Tok F)} {p : CorePath} : WritesPath w p → WritesTested .noBracket w (.core p)
    | filter {k : EndsIn} {w w' : List (Tok F)} {p : TestedPath} {ts : Tests} : WritesTested k w p → k ≠ .bracket → WritesTests w' ts →
        WritesTested .bracket (w ++ w') (.filter p ts)
    | number {k : EndsIn} {w : List (Tok F)} {p : TestedPath} {i : Nat} : WritesTested k w p → k ≠ .bracket →
        WritesTested .bracket (w ++ [.lbrack, .integer i, .rbrack]) (.number p i)
    | numberThen {k : EndsIn} {w w' : List (Tok F)} {p : TestedPath} {i : Nat} {ts : Tests} : WritesTested k w p → k ≠ .bracket → WritesTests w' ts →
        WritesTested .bracket (w ++ .lbrack :: .integer i :: .rbrack :: w') (.numberThen p i ts)
    | seq {w w' : List (Tok F)} {p : TestedPath} {q : CorePath} : WritesTested .bracket w p → WritesRel w' q →
        WritesTested .slashAfterBracket (w ++ .pathSep :: w') (.seq p (.core q))
    | deep {w : List (Tok F)} {p : TestedPath} {m : Tok F} : WritesTested .bracket w p → m.isName →
        WritesTested .slashAfterBracket (w ++ [.abbrevSep, m]) (.deep p m.word)

  /-- Queries with brackets.  `b`: without brackets after all. -/
  inductive WritesTestedList : Bool → List (Tok F) → TestedList → Prop where
    | path {k : EndsIn} {w : List (Tok F)} {p : TestedPath} : WritesTested k w p → WritesTestedList (decide (k = .noBracket)) w (.path p)
    | core {w : List (Tok F)} {l : CoreList} : WritesList w l → WritesTestedList true w (.core l)
    | seq {w w' : List (Tok F)} {p : TestedPath} {l : CoreList} : WritesTested .bracket w p → WritesRelList true w' l →
        WritesTestedList false (w ++ .pathSep :: w') (.seq p l)

  /-- Tests, each in brackets. -/
  inductive WritesTests : List (Tok F) → Tests → Prop where
    | one {b : Bool} {w : List (Tok F)} {t : ValueTest} : WritesTest b w t → WritesTests (.lbrack :: (w ++ [.rbrack])) (.one t)
    | more {b : Bool} {w w' : List (Tok F)} {t : ValueTest} {ts : Tests} : WritesTest b w t → WritesTests w' ts →
        WritesTests (.lbrack :: (w ++ [.rbrack]) ++ w') (.more t ts)

  /-- Tests.  `b`: it can stand right of `and` and `or`. -/
  inductive WritesTest : Bool → List (Tok F) → ValueTest → Prop where
    | found {b : Bool} {w : List (Tok F)} {l : TestedList} : WritesTestedList b w l → WritesTest b w (.found l)
    | is {b : Bool} {w : List (Tok F)} {l : TestedList} {s : Str} : WritesTestedList b w l →
        WritesTest b (w ++ [.equal false, .literal s]) (.is l s)
    | count {b : Bool} {w : List (Tok F)} {l : TestedList} {op : Rel} {k : Nat} : WritesTestedList b w l →
        WritesTest true (.name "count".toList :: .lparen :: (w ++ [.rparen, .rel op, .integer k])) (.count l op k)
    | countIs {b : Bool} {w : List (Tok F)} {l : TestedList} {k : Nat} : WritesTestedList b w l →
        WritesTest true (.name "count".toList :: .lparen :: (w ++ [.rparen, .equal false, .integer k])) (.countIs l k)
    | contains {b : Bool} {w : List (Tok F)} {l : TestedList} {s : Str} : WritesTestedList b w l →
        WritesTest true (.name "contains".toList :: .lparen :: (w ++ [.comma, .literal s, .rparen])) (.contains l s)
    | startsWith {b : Bool} {w : List (Tok F)} {l : TestedList} {s : Str} : WritesTestedList b w l →
        WritesTest true (.name "starts-with".toList :: .lparen :: (w ++ [.comma, .literal s, .rparen])) (.startsWith l s)
    | nameIs {m : Str} : WritesTest true [.name "name".toList, .lparen, .rparen, .equal false, .literal m] (.nameIs m)
    | not {b : Bool} {w : List (Tok F)} {t : ValueTest} : WritesTest b w t →
        WritesTest true (.name "not".toList :: .lparen :: (w ++ [.rparen])) (.not t)
    | and {b : Bool} {w w' : List (Tok F)} {t t' : ValueTest} : WritesOperand b w t → WritesOperand true w' t' →
        WritesTest false (w ++ .logical true :: w') (.and t t')
    | or {b : Bool} {w w' : List (Tok F)} {t t' : ValueTest} : WritesOperand b w t → WritesOperand true w' t' →
        WritesTest false (w ++ .logical false :: w') (.or t t')

  /-- Operands of `and` and `or`: a query that may find nothing stands in `boolean()`. -/
  inductive WritesOperand : Bool → List (Tok F) → ValueTest → Prop where
    | test {b : Bool} {w : List (Tok F)} {t : ValueTest} : t.mayBeEmpty = false → WritesTest b w t → WritesOperand b w t
    | boolean {b : Bool} {w : List (Tok F)} {t : ValueTest} : t.mayBeEmpty = true → WritesTest b w t →
        WritesOperand true (.name "boolean".toList :: .lparen :: (w ++ [.rparen])) t
end

end Amara
