import Verif.Spec.StreamTests
import Verif.Model.TreeUtil
/-
Specification for C173: the functions of treeutil and the queries for the same thing.
-/
namespace Amara

variable {F : Type}

/-- The first selector: `select_elements(e)` or `select_name(e, m)`. -/
inductive Head where
  | all
  | named (m : Str)
deriving DecidableEq

def Head.select (src : Source) : Head → List Node
  | .all => selectElements src
  | .named m => selectName src m

/-- The tokens of the query: `*` or `m`. -/
def Head.tokens : Head → List (X.Tok F)
  | .all => [.star]
  | .named m => [X.nameTok m]

/-- A selector applied to what another one has selected: `select_attribute(xs, k)`, `select_attribute(xs, k, v)`,
`select_value(xs, v)`. -/
inductive Sieve where
  | has (k : Str)
  | is (k v : Str)
  | value (v : Str)
deriving DecidableEq

def Sieve.select (xs : List Node) : Sieve → List Node
  | .has k => selectAttribute (.items xs) k none
  | .is k v => selectAttribute (.items xs) k (some v)
  | .value v => selectValue (.items xs) v

/-- The tokens of the bracket: `[@k]`, `[@k='v']`, `[.='v']`. -/
def Sieve.tokens : Sieve → List (X.Tok F)
  | .has k => [.lbrack, .at, X.nameTok k, .rbrack]
  | .is k v => [.lbrack, .at, X.nameTok k, .equal false, .literal v, .rbrack]
  | .value v => [.lbrack, .dot, .equal false, .literal v, .rbrack]

/-- `@*` asks for all attributes. -/
def Sieve.Ok : Sieve → Prop
  | .has k | .is k _ => k ≠ ['*']
  | .value _ => True

/-- One selector applied to the other. -/
def selected (src : Source) (h : Head) (ss : List Sieve) : List Node := ss.foldl Sieve.select (h.select src)

/-- The tokens of the query. -/
def selectorTokens (h : Head) (ss : List Sieve) : List (X.Tok F) := h.tokens ++ ss.flatMap Sieve.tokens

/-- How the query is asked: with `*/` in front if it is asked of the document element, since it is then asked of the root node
(C84). -/
def fromElement (q : Path) (w : List (X.Tok F)) : List (X.Tok F) := if q = [] then .star :: .pathSep :: w else w

/-- The tokens of a pattern of names and `*`, with slashes between. -/
def patternTokens : Head → List Head → List (X.Tok F)
  | h, hs => h.tokens ++ hs.flatMap fun g => .pathSep :: g.tokens

/-- The stage of a pattern. -/
def Head.stage : Head → Stage Node
  | .all => .star
  | .named m => .name m

end Amara
