import Verif.Model.XLex
/-
Specification of the syntax of MicroXPath as this library understands it: a grammar without ambiguities, over
tokens, that says which expression a list of tokens stands for.

Binary operators group by precedence, weakest first: `or and`, `= !=`, `< <= > >=`, `+ -`, `div mod`, (unary minus),
`|`; operators of the same precedence group to the left.  What comes after an expression with a `[`, or with a `/` that
does not continue a location path, applies to all of the expression before it, back to the last opening bracket
or comma: it binds weaker than any operator.
-/
namespace Amara.X

variable {F : Type}

/-- The names of functions, elements, attributes and variables; the names of the operators are also names. -/
def Tok.isName : Tok F → Prop
  | .name _ | .logical _ | .divmod _ => True
  | _ => False

/-- What such a token reads as a name. -/
def Tok.word : Tok F → Str
  | .name s => s
  | .logical isAnd => if isAnd then "and".toList else "or".toList
  | .divmod isMod => if isMod then "mod".toList else "div".toList
  | _ => []

/-- The axes. -/
def axisTable : List (Str × Axis) :=
  [("self".toList, .self), ("child".toList, .child), ("parent".toList, .parent), ("attribute".toList, .attribute),
   ("ancestor".toList, .ancestor), ("ancestor-or-self".toList, .ancestorOrSelf), ("descendant".toList, .descendant),
   ("descendant-or-self".toList, .descendantOrSelf), ("following".toList, .following),
   ("following-sibling".toList, .followingSibling), ("preceding".toList, .preceding),
   ("preceding-sibling".toList, .precedingSibling)]

/-- A name with arguments: `text` and `node` are node type tests, the arguments are forgotten; anything else is a call. -/
def called (n : Str) (args : List (Expr F)) : Expr F :=
  if n = "text".toList then .test .text else if n = "node".toList then .test .node else .call n args

/-- What a binary operator means. -/
def meaning (l : Expr F) (o : Tok F) (r : Expr F) : Option (Expr F) :=
  match o with
  | .logical isAnd => some (if isAnd then .and l r else .or l r)
  | .equal negated => some (if negated then .ne l r else .eq l r)
  | .rel c => some (.rel c l r)
  | .plus => some (.arith .add l r)
  | .minus => some (.arith .sub l r)
  | .divmod isMod => some (.arith (if isMod then .mod else .div) l r)
  | .union => some (.union l r)
  | _ => none

/-- How strongly a binary operator binds. -/
def Tok.strength : Tok F → Option Nat
  | .logical _ => some 2
  | .equal _ => some 3
  | .rel _ => some 4
  | .plus | .minus => some 5
  | .divmod _ => some 6
  | .union => some 8
  | _ => none

/-- How strongly unary minus binds, what follows an expression in brackets or after a slash, and what is stronger
than any operator. -/
def minusStrength : Nat := 7
def suffixStrength : Nat := 1
def topStrength : Nat := 9

/-- How an expression ends: with a location path, which a `/` would continue; with a lone `/`, which a name would
continue; with predicates, which a `[` would continue; otherwise. -/
inductive Last where
  | closed | path | root | preds
deriving DecidableEq, Repr

mutual
  /-- Node tests.  `b`: a node type test is allowed. -/
  inductive GTest : Bool → List (Tok F) → Test → Prop where
    | star {b} : GTest b [.star] .star
    | name {b n} : n.isName → GTest b [n] (.name n.word)
    | type {n w as t} : n.isName → GArgs w as → called n.word as = .test t → GTest true (n :: w) t

  /-- Steps.  `b`: a node type test without an axis is allowed. -/
  inductive GStep : Bool → List (Tok F) → Expr F → Prop where
    | dot {b} : GStep b [.dot] .dot
    | dotdot {b} : GStep b [.dotdot] .dotdot
    | child {b w t} : GTest b w t → GStep b w (.step .child t)
    | attr {b w t} : GTest true w t → GStep b (.at :: w) (.step .attribute t)
    | axis {b n a w t} : (n, a) ∈ axisTable → GTest true w t → GStep b (.name n :: .axisSep :: w) (.step a t)

  /-- Relative location paths, steps between slashes.  `b`: the first step may be a node type test without an axis. -/
  inductive GRel : Bool → List (Tok F) → Expr F → Prop where
    | step {b w e} : GStep b w e → GRel b w e
    | slash {b w₁ l w₂ r} : GRel b w₁ l → GStep true w₂ r → GRel b (w₁ ++ .pathSep :: w₂) (.slash l r)
    | dslash {b w₁ l w₂ r} : GRel b w₁ l → GStep true w₂ r → GRel b (w₁ ++ .abbrevSep :: w₂) (.dslash l r)

  /-- Arguments in parentheses. -/
  inductive GArgs : List (Tok F) → List (Expr F) → Prop where
    | none : GArgs [.lparen, .rparen] []
    | some {w es} : GList w es → GArgs (.lparen :: (w ++ [.rparen])) es

  /-- One or more expressions with commas between them. -/
  inductive GList : List (Tok F) → List (Expr F) → Prop where
    | one {l r k w e} : GExpr l r k w e → GList w [e]
    | more {w₁ es l r k w₂ e} : GList w₁ es → GExpr l r k w₂ e → GList (w₁ ++ .comma :: w₂) (es ++ [e])

  /-- One or more expressions, each in brackets. -/
  inductive GPreds : List (Tok F) → List (Expr F) → Prop where
    | one {l r k w e} : GExpr l r k w e → GPreds (.lbrack :: (w ++ [.rbrack])) [e]
    | more {w₁ es l r k w₂ e} : GPreds w₁ es → GExpr l r k w₂ e →
        GPreds (w₁ ++ .lbrack :: (w₂ ++ [.rbrack])) (es ++ [e])

  /-- Expressions without operators. -/
  inductive GPrim : Last → List (Tok F) → Expr F → Prop where
    | literal {s} : GPrim .closed [.literal s] (.lit (.str s))
    | float {f} : GPrim .closed [.float f] (.lit (.float f))
    | integer {n : Nat} : GPrim .closed [.integer n] (.lit (.int n))
    | var {n} : n.isName → GPrim .closed [.dollar, n] (.var n.word)
    | call {n w as} : n.isName → GArgs w as → GPrim .closed (n :: w) (called n.word as)
    | nil : GPrim .closed [.lparen, .rparen] (.seq [])
    | seq {w es} : GList w es → GPrim .closed (.lparen :: (w ++ [.rparen])) (.seq es)
    | root : GPrim .root [.pathSep] (.abs none)
    | abs {w e} : GRel true w e → GPrim .path (.pathSep :: w) (.abs (some e))
    | absAll {w e} : GRel true w e → GPrim .path (.abbrevSep :: w) (.absAll e)
    | rel {w e} : GRel false w e → GPrim .path w e

  /-- Expressions.  `l` is the strength of the weakest operator that is open to the left (such an expression can stand
  right of any weaker operator), `r` that of the weakest operator open to the right, `k` how the expression ends. -/
  inductive GExpr : (l r : Nat) → (k : Last) → List (Tok F) → Expr F → Prop where
    | prim {k w e} : GPrim k w e → GExpr topStrength topStrength k w e
    | neg {l r k w e} : GExpr l r k w e → minusStrength < l →
        GExpr topStrength (min minusStrength r) k (.minus :: w) (.neg e)
    | binary {l₁ r₁ k₁ w₁ e₁ o s l₂ r₂ k₂ w₂ e₂ e} :
        GExpr l₁ r₁ k₁ w₁ e₁ → o.strength = some s → GExpr l₂ r₂ k₂ w₂ e₂ →
        s ≤ r₁ → s < l₂ → (o.isName → k₁ ≠ .root) → meaning e₁ o e₂ = some e →
        GExpr (min s l₁) (min s r₂) k₂ (w₁ ++ o :: w₂) e
    | slash {l r k w₁ e₁ w₂ e₂} : GExpr l r k w₁ e₁ → k ≠ .path → GRel true w₂ e₂ →
        GExpr suffixStrength topStrength .path (w₁ ++ .pathSep :: w₂) (.slash e₁ e₂)
    | dslash {l r k w₁ e₁ w₂ e₂} : GExpr l r k w₁ e₁ → k ≠ .path → GRel true w₂ e₂ →
        GExpr suffixStrength topStrength .path (w₁ ++ .abbrevSep :: w₂) (.dslash e₁ e₂)
    | pred {l r k w₁ e w₂ ps} : GExpr l r k w₁ e → k ≠ .preds → GPreds w₂ ps →
        GExpr suffixStrength topStrength .preds (w₁ ++ w₂) (.pred e ps)
end

/-- The expression a list of tokens stands for. -/
def Denotes (w : List (Tok F)) (e : Expr F) : Prop := ∃ l r k, GExpr l r k w e

/-- Operators between operands, applied from left to right. -/
def applyAll (e : Expr F) : List (Tok F × Expr F) → Option (Expr F)
  | [] => some e
  | (o, x) :: r => match meaning e o x with
    | some e' => applyAll e' r
    | none => none

/-- Operands with operators of one strength between them. -/
inductive OpChain (s : Nat) : Last → List (Tok F) → List (Tok F × Expr F) → Prop where
  | nil {k} : OpChain s k [] []
  | cons {k k' o w x ws r} : o.strength = some s → (o.isName → k ≠ .root) → GPrim k' w x → OpChain s k' ws r →
      OpChain s k (o :: (w ++ ws)) ((o, x) :: r)

end Amara.X
