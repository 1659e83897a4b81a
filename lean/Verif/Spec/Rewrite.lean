import Verif.Spec.XPath
/-
Specification for rewriting queries: laws between expressions.  A law `Rewrites e f` says that `e` and `f` can be used for
one another.
-/
namespace Amara

variable {F : Type}

/-- Paths: what is made of steps. -/
inductive IsPath : Expr F → Prop
  | step (a : Axis) (t : Test) : IsPath (.step a t)
  | dot : IsPath .dot
  | root : IsPath (.abs none)
  | slash {l r} : IsPath r → IsPath (.slash l r)
  | pred {e} (ps) : IsPath e → IsPath (.pred e ps)
  | seq {es : List (Expr F)} : (∀ e ∈ es, IsPath e) → IsPath (.seq es)

/-- `true()` -/
def trueE : Expr F := .call "true".toList []
/-- `false()` -/
def falseE : Expr F := .call "false".toList []
/-- `not(e)` -/
def notE (e : Expr F) : Expr F := .call "not".toList [e]
/-- `boolean(e)` -/
def booleanE (e : Expr F) : Expr F := .call "boolean".toList [e]

/-- Tests: what gives one boolean. -/
inductive IsTest : Expr F → Prop
  | eq (l r) : IsTest (.eq l r)
  | ne (l r) : IsTest (.ne l r)
  | rel (op l r) : IsTest (.rel op l r)
  | true : IsTest trueE
  | false : IsTest falseE
  | not (e) : IsTest (notE e)
  | boolean (e) : IsTest (booleanE e)
  | and {l r} : IsTest l → IsTest r → IsTest (.and l r)
  | or {l r} : IsTest l → IsTest r → IsTest (.or l r)

/-- Laws for expressions, and their use anywhere inside of an expression. -/
inductive Rewrites : Expr F → Expr F → Prop
  -- equivalence
  | refl (e) : Rewrites e e
  | symm {e f} : Rewrites e f → Rewrites f e
  | trans {e f g} : Rewrites e f → Rewrites f g → Rewrites e g
  -- sequences: `(e)` is `e`; `(a, (b, c), d)` is `(a, b, c, d)`; `(a, b)/c` is `(a/c, b/c)`
  | seqOne (e) : Rewrites (.seq [e]) e
  | seqFlat (es fs gs) : Rewrites (.seq (es ++ .seq fs :: gs)) (.seq (es ++ fs ++ gs))
  | seqPath (es r) : Rewrites (.slash (.seq es) r) (.seq (es.map fun e => .slash e r))
  -- paths: `./e` is `e`; `e/.` is `e`; `(a/b)/c` is `a/(b/c)`; `(/a)/b` is `/(a/b)`; `l//a` is `l/descendant-or-self::a`
  | dotPath (e) : Rewrites (.slash .dot e) e
  | pathDot {e} : IsPath e → Rewrites (.slash e .dot) e
  | pathAssoc (a) {b} (c) : IsPath b → Rewrites (.slash (.slash a b) c) (.slash a (.slash b c))
  | absPath {a} (b) : IsPath a → (∀ ax, a ≠ .step ax .node) → Rewrites (.slash (.abs (some a)) b) (.abs (some (.slash a b)))
  | deepStep (l a t) : Rewrites (.dslash l (.step a t)) (.slash l (.step .descendantOrSelf t))
  -- predicates: `e[true()]` is `e`; `e[p][p]` is `e[p]`; `(e[p])[q]` is `e[p][q]`; `e[p and q]` is `e[p][q]`
  | predTrue (e) : Rewrites (.pred e [trueE]) e
  | predTwice (e ps p qs) : Rewrites (.pred e (ps ++ p :: p :: qs)) (.pred e (ps ++ p :: qs))
  | predNest {e} (ps) {qs} : IsPath e → (∀ q ∈ qs, IsTest q) → Rewrites (.pred (.pred e ps) qs) (.pred e (ps ++ qs))
  | predAnd (e ps) {p q} (qs) : IsTest p → IsTest q → Rewrites (.pred e (ps ++ .and p q :: qs)) (.pred e (ps ++ p :: q :: qs))
  -- booleans
  | notNot (e) : Rewrites (notE (notE e)) (booleanE e)
  | boolTest {t} : IsTest t → Rewrites (booleanE t) t
  | andAssoc (a b c) : Rewrites (.and (.and a b) c) (.and a (.and b c))
  | orAssoc (a b c) : Rewrites (.or (.or a b) c) (.or a (.or b c))
  | trueAnd {t} : IsTest t → Rewrites (.and trueE t) t
  | andTrue {t} : IsTest t → Rewrites (.and t trueE) t
  | falseOr {t} : IsTest t → Rewrites (.or falseE t) t
  | orFalse {t} : IsTest t → Rewrites (.or t falseE) t
  | andSelf {t} : IsTest t → Rewrites (.and t t) t
  | orSelf {t} : IsTest t → Rewrites (.or t t) t
  | notAnd {p q} : IsTest p → IsTest q → Rewrites (notE (.and p q)) (.or (notE p) (notE q))
  | notOr {p q} : IsTest p → IsTest q → Rewrites (notE (.or p q)) (.and (notE p) (notE q))
  | andOr {p q r} : IsTest p → IsTest q → IsTest r → Rewrites (.and p (.or q r)) (.or (.and p q) (.and p r))
  -- inside of an expression
  | inNeg {e f} : Rewrites e f → Rewrites (.neg e) (.neg f)
  | inSlash {l l' r r'} : Rewrites l l' → Rewrites r r' → Rewrites (.slash l r) (.slash l' r')
  | inDslash {l l'} (r) : Rewrites l l' → Rewrites (.dslash l r) (.dslash l' r)
  | inUnion {l l' r r'} : Rewrites l l' → Rewrites r r' → Rewrites (.union l r) (.union l' r')
  | inEq {l l' r r'} : Rewrites l l' → Rewrites r r' → Rewrites (.eq l r) (.eq l' r')
  | inNe {l l' r r'} : Rewrites l l' → Rewrites r r' → Rewrites (.ne l r) (.ne l' r')
  | inRel (op) {l l' r r'} : Rewrites l l' → Rewrites r r' → Rewrites (.rel op l r) (.rel op l' r')
  | inOr {l l' r r'} : Rewrites l l' → Rewrites r r' → Rewrites (.or l r) (.or l' r')
  | inAnd {l l' r r'} : Rewrites l l' → Rewrites r r' → Rewrites (.and l r) (.and l' r')
  | inAbs {r r'} : Rewrites r r' → (∀ ax, r ≠ .step ax .node) → (∀ ax, r' ≠ .step ax .node) → Rewrites (.abs (some r)) (.abs (some r'))
  | inAbsAll {r r'} : Rewrites r r' → (∀ ax, r ≠ .step ax .node) → (∀ ax, r' ≠ .step ax .node) → Rewrites (.absAll r) (.absAll r')
  | inPred {e f} (ps) : Rewrites e f → Rewrites (.pred e ps) (.pred f ps)
  | inPreds (e ps) {p q} (qs) : Rewrites p q → Rewrites (.pred e (ps ++ p :: qs)) (.pred e (ps ++ q :: qs))
  | inCall (f as) {a b} (bs) : f ≠ "substring".toList → Rewrites a b → Rewrites (.call f (as ++ a :: bs)) (.call f (as ++ b :: bs))
  | inSeq (es) {e f} (fs) : Rewrites e f → Rewrites (.seq (es ++ e :: fs)) (.seq (es ++ f :: fs))

end Amara
