import Verif.Model.XPath
/-
Serialising an expression, `serialize` and the `_serialize` methods of `pylib/uxml/uxpath/xast.py`.
-/
namespace Amara

/-- The name of an axis. -/
def Axis.name : Axis → Str
  | .self => "self".toList
  | .child => "child".toList
  | .attribute => "attribute".toList
  | .ancestor => "ancestor".toList
  | .ancestorOrSelf => "ancestor-or-self".toList
  | .descendant => "descendant".toList
  | .descendantOrSelf => "descendant-or-self".toList
  | .following => "following".toList
  | .followingSibling => "following-sibling".toList
  | .parent => "parent".toList
  | .preceding => "preceding".toList
  | .precedingSibling => "preceding-sibling".toList

/-- `node_test._serialize`, `uxml/uxpath/xast.py` 570-571, 603-606. -/
def Test.serialize : Test → Str
  | .name n => n
  | .star => ['*']
  | .node => "node()".toList
  | .text => "text()".toList

/-- The operator of a comparison. -/
def Rel.name : Rel → Str
  | .lt => ['<']
  | .gt => ['>']
  | .le => ['<', '=']
  | .ge => ['>', '=']

/-- An arithmetic operator as it is serialised: `div` and `mod` between blanks, `uxml/uxpath/xast.py` 216, 239-244. -/
def Arith.name : Arith → Str
  | .add => ['+']
  | .sub => ['-']
  | .mul => ['*']
  | .div => " div ".toList
  | .mod => " mod ".toList

/-- `str(obj)` of a literal (`uxml/uxpath/xast.py` 175-176): the characters of a string without quotes.  The parser
makes literals of strings, integers and floats only. -/
def Item.show {F : Type} (fo : FloatOps F) : Item F → Str
  | .str s => s
  | .int i => (toString i).toList
  | .float f => fo.show_ f
  | .bool true => "True".toList
  | .bool false => "False".toList
  | _ => []

section
variable {F : Type} (fo : FloatOps F)

/-- `_serialize` of a binary expression with an operator written without spaces, `uxml/uxpath/xast.py` 235-247. -/
def infix' (l op r : Str) : Str := l ++ op ++ r

mutual
  /-- `serialize`, `uxml/uxpath/xast.py` 756-769 and the methods it calls (lines beside). -/
  def Expr.serialize : Expr F → Str
    | .lit y => y.show fo                                                       -- 175-176
    | .neg e => '-' :: e.serialize                                              -- 202-205
    | .slash l r => infix' l.serialize ['/'] r.serialize                        -- 235-247
    | .dslash l r => infix' l.serialize ['/', '/'] r.serialize
    | .union l r => infix' l.serialize ['|'] r.serialize
    | .eq l r => infix' l.serialize ['='] r.serialize
    | .ne l r => infix' l.serialize ['!', '='] r.serialize
    | .rel op l r => infix' l.serialize op.name r.serialize
    | .or l r => infix' l.serialize [' ', 'o', 'r', ' '] r.serialize
    | .and l r => infix' l.serialize [' ', 'a', 'n', 'd', ' '] r.serialize
    | .arith op l r => infix' l.serialize op.name r.serialize
    | .abs none => ['/']                                                        -- 349-352
    | .abs (some r) => '/' :: r.serialize
    | .absAll r => '/' :: '/' :: r.serialize
    | .step .attribute t => '@' :: t.serialize                                  -- 404-412
    | .step a t => a.name ++ [':', ':'] ++ t.serialize
    | .test t => t.serialize
    | .pred l ps => l.serialize ++ Expr.serializePreds ps                       -- 520-528
    | .dot => ['.']                                                             -- 634-635
    | .dotdot => ['.', '.']
    | .var v => '$' :: v                                                        -- 666-668
    | .call f args => f ++ ['('] ++ Expr.serializeList args ++ [')']            -- 692-703
    | .seq es => ['('] ++ Expr.serializeList es ++ [')']                        -- 730-740
  def Expr.serializePreds : List (Expr F) → Str
    | [] => []
    | p :: r => ['['] ++ p.serialize ++ [']'] ++ Expr.serializePreds r
  def Expr.serializeList : List (Expr F) → Str
    | [] => []
    | e :: r => e.serialize ++ Expr.serializeTail r
  def Expr.serializeTail : List (Expr F) → Str
    | [] => []
    | e :: r => [','] ++ e.serialize ++ Expr.serializeTail r
end

end

/-- What evaluating a `//` does to the expression itself, `uxml/uxpath/xast.py` 263-267: `right.axis` becomes
`descendant-or-self`, which is only looked at if `right` is a step. -/
def Expr.setAxis {F : Type} : Expr F → Expr F
  | .step _ t => .step .descendantOrSelf t
  | r => r

mutual
  /-- `Rewritten e e'`: `e'` is what `e` has become after some of the `//` operators in it have been evaluated
  (each evaluation rewrites the right operand of the operators it reaches). -/
  inductive Rewritten {F : Type} : Expr F → Expr F → Prop where
    | lit (y) : Rewritten (.lit y) (.lit y)
    | neg {e e'} : Rewritten e e' → Rewritten (.neg e) (.neg e')
    | slash {l l' r r'} : Rewritten l l' → Rewritten r r' → Rewritten (.slash l r) (.slash l' r')
    | dslash {l l' r r'} : Rewritten l l' → Rewritten r r' → Rewritten (.dslash l r) (.dslash l' r')
    | evaluated {l l' r r'} : Rewritten l l' → Rewritten r r' → Rewritten (.dslash l r) (.dslash l' r'.setAxis)
    | union {l l' r r'} : Rewritten l l' → Rewritten r r' → Rewritten (.union l r) (.union l' r')
    | eq {l l' r r'} : Rewritten l l' → Rewritten r r' → Rewritten (.eq l r) (.eq l' r')
    | ne {l l' r r'} : Rewritten l l' → Rewritten r r' → Rewritten (.ne l r) (.ne l' r')
    | rel {op l l' r r'} : Rewritten l l' → Rewritten r r' → Rewritten (.rel op l r) (.rel op l' r')
    | or {l l' r r'} : Rewritten l l' → Rewritten r r' → Rewritten (.or l r) (.or l' r')
    | and {l l' r r'} : Rewritten l l' → Rewritten r r' → Rewritten (.and l r) (.and l' r')
    | arith {op l l' r r'} : Rewritten l l' → Rewritten r r' → Rewritten (.arith op l r) (.arith op l' r')
    | root : Rewritten (.abs none) (.abs none)
    | abs {r r'} : Rewritten r r' → Rewritten (.abs (some r)) (.abs (some r'))
    | absAll {r r'} : Rewritten r r' → Rewritten (.absAll r) (.absAll r')
    | step (a t) : Rewritten (.step a t) (.step a t)
    | test (t) : Rewritten (.test t) (.test t)
    | pred {l l' ps ps'} : Rewritten l l' → RewrittenAll ps ps' → Rewritten (.pred l ps) (.pred l' ps')
    | dot : Rewritten .dot .dot
    | dotdot : Rewritten .dotdot .dotdot
    | var (v) : Rewritten (.var v) (.var v)
    | call {f as as'} : RewrittenAll as as' → Rewritten (.call f as) (.call f as')
    | seq {es es'} : RewrittenAll es es' → Rewritten (.seq es) (.seq es')
  inductive RewrittenAll {F : Type} : List (Expr F) → List (Expr F) → Prop where
    | nil : RewrittenAll [] []
    | cons {e e' es es'} : Rewritten e e' → RewrittenAll es es' → RewrittenAll (e :: es) (e' :: es')
end

end Amara
