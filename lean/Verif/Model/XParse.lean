import Verif.Model.XLex
/-
The parser of MicroXPath expressions: `parse` of `pylib/uxml/uxpath/__init__.py` 63-71, with the rules of
`pylib/uxml/uxpath/parserules.py` and the driver of `ply.yacc` (not part of the repository; the tables are in
`Model/XTables`).

Simplification: the driver fetches a token when it needs one; here the tokens are read beforehand, with a mark where
the lexer would raise.
-/
namespace Amara.X

variable {F : Type}

/-- The values of the symbols on the stack of the parser. -/
inductive Val (F : Type) where
  | tok (t : Tok F)
  | expr (e : Expr F)
  | exprs (es : List (Expr F))
  | axis (a : Axis)
  | test (t : Test)

/-- The names of the axes, `uxml/uxpath/parserules.py` 175. -/
def axisOf (n : Str) : Option Axis :=
  if n = "self".toList then some .self
  else if n = "attribute".toList then some .attribute
  else if n = "ancestor".toList then some .ancestor
  else if n = "ancestor-or-self".toList then some .ancestorOrSelf
  else if n = "child".toList then some .child
  else if n = "descendant".toList then some .descendant
  else if n = "descendant-or-self".toList then some .descendantOrSelf
  else if n = "following".toList then some .following
  else if n = "following-sibling".toList then some .followingSibling
  else if n = "parent".toList then some .parent
  else if n = "preceding".toList then some .preceding
  else if n = "preceding-sibling".toList then some .precedingSibling
  else none

/-- The text of a token that can be a name: `t.value` of `NAME`, `LOGICAL_OP` and `DIVMOD_OP`. -/
def Tok.text : Tok F → Str
  | .name s => s
  | .logical false => "or".toList
  | .logical true => "and".toList
  | .divmod false => "div".toList
  | .divmod true => "mod".toList
  | _ => []

/-- `p_expr_boolean`, `p_path_union_expr`, `p_path_expr_binary`, `p_relative_location_path_binary`,
`uxml/uxpath/parserules.py` 25-35, 76-87, 135-140: `binary_expression(l, op, r)`, where the operator is the text of the
token. -/
def binary (l : Expr F) (op : Tok F) (r : Expr F) : Option (Expr F) :=
  match op with
  | .logical false => some (.or l r)
  | .logical true => some (.and l r)
  | .equal false => some (.eq l r)
  | .equal true => some (.ne l r)
  | .rel o => some (.rel o l r)
  | .plus => some (.arith .add l r)
  | .minus => some (.arith .sub l r)
  | .divmod false => some (.arith .div l r)
  | .divmod true => some (.arith .mod l r)
  | .union => some (.union l r)
  | .pathSep => some (.slash l r)
  | .abbrevSep => some (.dslash l r)
  | _ => none

/-- `p_function_call`, `uxml/uxpath/parserules.py` 285-295: `node` and `text` are node type tests, whatever the
arguments. -/
def funCall (n : Str) (args : List (Expr F)) : Expr F :=
  if n = "node".toList then .test .node
  else if n = "text".toList then .test .text
  else .call n args

/-- The rules for binary operators, see `binary`.  The last case does not arise. -/
def binaryAct (l : Expr F) (o : Tok F) (r : Expr F) : Except XErr (Val F) :=
  match binary l o r with
  | some e => .ok (.expr e)
  | none => .error .assertion

/-- `p_axis_specifier_full`, `uxml/uxpath/parserules.py` 170-177: RuntimeError if there is no such axis. -/
def axisAct (n : Tok F) : Except XErr (Val F) :=
  match axisOf n.text with
  | some a => .ok (.axis a)
  | none => .error .runtime

/-- `p_node_test_type`, `uxml/uxpath/parserules.py` 195-203: RuntimeError if the call is not one of the node type
tests. -/
def testAct (e : Expr F) : Except XErr (Val F) :=
  match e with
  | .test t => .ok (.test t)
  | _ => .error .runtime

/-- The functions of the rules, by number of production.  Errors are RuntimeError (175-176, 201-202).  `Number`
(274-279) is wrapped as a literal at once rather than in 100-105.  The last case does not arise. -/
def act (p : Nat) (vs : List (Val F)) : Except XErr (Val F) :=
  match p, vs with
  -- 25-35, 76-87, 135-140: binary operators
  | 1, [.expr l, .tok o, .expr r] | 2, [.expr l, .tok o, .expr r] | 3, [.expr l, .tok o, .expr r]
  | 4, [.expr l, .tok o, .expr r] | 5, [.expr l, .tok o, .expr r] | 6, [.expr l, .tok o, .expr r]
  | 7, [.expr l, .tok o, .expr r] | 13, [.expr l, .tok o, .expr r] | 14, [.expr l, .tok o, .expr r]
  | 15, [.expr l, .tok o, .expr r] | 28, [.expr l, .tok o, .expr r] | 29, [.expr l, .tok o, .expr r] =>
    binaryAct l o r
  | 8, [.tok _, .expr e] => .ok (.expr (.neg e))                                -- 37-41
  | 9, [_, _] => .ok (.expr (.seq []))                                          -- 47-51
  | 10, [_, .exprs es, _] => .ok (.expr (.seq es))                              -- 53-57
  | 11, [.expr e] => .ok (.exprs [e])                                           -- 59-63
  | 12, [.exprs es, _, .expr e] => .ok (.exprs (es ++ [e]))                     -- 65-70
  | 16, [v] | 17, [v] | 18, [v] | 19, [v] | 20, [v] | 21, [v] => .ok v          -- 89-98
  | 22, [.tok (.literal s)] => .ok (.expr (.lit (.str s)))                      -- 100-105
  | 23, [v] => .ok v
  | 24, [_] => .ok (.expr (.abs none))                                          -- 111-115
  | 25, [_, .expr e] => .ok (.expr (.abs (some e)))                             -- 117-121
  | 26, [_, .expr e] => .ok (.expr (.absAll e))                                 -- 123-127
  | 27, [v] => .ok v                                                            -- 129-133
  | 30, [.axis a, .test t] => .ok (.expr (.step a t))                           -- 146-150
  | 31, [.test t] => .ok (.expr (.step .child t))                               -- 152-157
  | 32, [_] => .ok (.expr .dot)                                                 -- 159-164
  | 33, [_] => .ok (.expr .dotdot)
  | 34, [.tok n, _] =>                                                          -- 170-177
    axisAct n
  | 35, [_] => .ok (.axis .attribute)                                           -- 179-183
  | 36, [v] => .ok v                                                            -- 189-193
  | 37, [.expr e] =>                                                            -- 195-203
    testAct e
  | 38, [_] => .ok (.test .star)                                                -- 209-213
  | 39, [.tok n] | 40, [.tok n] | 41, [.tok n] => .ok (.test (.name n.text))    -- 217-223
  | 42, [.expr e, .exprs ps] => .ok (.expr (.pred e ps))                        -- 229-233
  | 43, [.expr e] => .ok (.exprs [e])                                           -- 239-243
  | 44, [.exprs es, .expr e] => .ok (.exprs (es ++ [e]))                        -- 245-250
  | 45, [_, v, _] => .ok v                                                      -- 252-256
  | 46, [_, .tok n] | 47, [_, .tok n] | 48, [_, .tok n] => .ok (.expr (.var n.text))   -- 262-268
  | 49, [.tok (.float f)] => .ok (.expr (.lit (.float f)))                      -- 274-279
  | 50, [.tok (.integer n)] => .ok (.expr (.lit (.int n)))
  | 51, [.tok n, .exprs as] | 52, [.tok n, .exprs as] | 53, [.tok n, .exprs as] =>   -- 285-295
    .ok (.expr (funCall n.text as))
  | 54, [_, _] => .ok (.exprs [])                                               -- 297-301
  | 55, [_, v, _] => .ok v                                                      -- 303-307
  | 56, [.expr e] => .ok (.exprs [e])                                           -- 309-313
  | 57, [.exprs es, _, .expr e] => .ok (.exprs (es ++ [e]))                     -- 315-320
  | _, _ => .error .assertion

/-- The state on top of the stack; the start state is 0. -/
def topState : List (Nat × Val F) → Nat
  | [] => 0
  | (s, _) :: _ => s

/-- The kind of the next token; `none` where the lexer raises. -/
def lookahead (bad : Bool) : List (Tok F) → Option Term
  | [] => if bad then none else some .eof
  | t :: _ => some t.kind

/-- What one step of the driver leads to. -/
inductive PStep (F : Type) where
  | next (st : List (Nat × Val F)) (inp : List (Tok F))
  | done (e : Expr F)
  | fail (e : XErr)

/-- A reduction: `n` values are taken off the stack, the result is pushed. -/
def reduceBy (p : Nat) (st : List (Nat × Val F)) (inp : List (Tok F)) : PStep F :=
  match prods[p]? with
  | none => .fail .assertion
  | some (a, rhs) =>
    match act p ((st.take rhs.length).reverse.map (·.2)) with
    | .error e => .fail e
    | .ok v => .next ((goto (topState (st.drop rhs.length)) a, v) :: st.drop rhs.length) inp

/-- One round of the driver's loop.  There is no state with a single action, so PLY looks at the next token every
time.  The error is `p_error`, `uxml/uxpath/parserules.py` 326-330. -/
def pstep (bad : Bool) (st : List (Nat × Val F)) (inp : List (Tok F)) : PStep F :=
  match lookahead bad inp with
  | none => .fail .type
  | some a => match action (topState st) a with
    | .shift s => match inp with
      | t :: r => .next ((s, .tok t) :: st) r
      | [] => .fail .assertion
    | .reduce p => reduceBy p st inp
    | .accept => match st with
      | (_, .expr e) :: _ => .done e
      | _ => .fail .assertion
    | .error => .fail .runtime

/-- The driver's loop, `n` rounds; `none` if that is not enough. -/
def pdrive (bad : Bool) : Nat → List (Nat × Val F) → List (Tok F) → Option (Except XErr (Expr F))
  | 0, _, _ => none
  | n + 1, st, inp => match pstep bad st inp with
    | .next st' inp' => pdrive bad n st' inp'
    | .done e => some (.ok e)
    | .fail e => some (.error e)

/-- The number of rounds allowed: more than are ever needed, see `Props/XParse`. -/
def rounds (ts : List (Tok F)) : Nat := 40 * ts.length + 40

/-- `parse(xpath)`, `uxml/uxpath/__init__.py` 63-71. -/
def xparse (fo : FloatOps F) (s : Str) : Option (Except XErr (Expr F)) :=
  pdrive (xlex fo s).2 (rounds (xlex fo s).1) [] (xlex fo s).1

end Amara.X
