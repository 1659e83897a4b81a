/-
The tables of the parser of MicroXPath expressions.  `pylib/uxml/uxpath/__init__.py` 60 has them computed by
`ply.yacc` (not part of the repository) from the grammar and the precedences of
`pylib/uxml/uxpath/parserules.py`.  This file is printed by `tools/lalr.py`, which does what PLY does;
`Props/XParse` proves which expressions the driver accepts with these tables.
-/
namespace Amara.X

/-- The kinds of tokens, `uxml/uxpath/lexrules.py` 20-45, and the end of the input.  `NODETEXTTEST` is left out: no
rule of the grammar uses it.  The lexer never produces `mult`. -/
inductive Term where
  | logical | equal | rel | plus | minus | mult | divmod | union | pathSep | abbrevSep | lbrack | rbrack | rparen | comma
  | eof | lparen | literal | float | integer | star | name | dollar | at | axisSep | dot | dotdot
deriving DecidableEq, Repr

/-- The nonterminals of the grammar, `uxml/uxpath/parserules.py`. -/
inductive NonTerm where
  | expr | exprList | relPath | absPath | abbrevAbsPath | step | axisSpec | nodeTest | nameTest
  | predicated | predList | pred | varRef | number | funCall | formalArgs | argList
deriving DecidableEq, Repr

inductive Sym where
  | t (a : Term)
  | n (a : NonTerm)
deriving DecidableEq, Repr

/-- An entry of the action table. -/
inductive Act where
  | shift (s : Nat)
  | reduce (p : Nat)
  | accept
  | error
deriving DecidableEq, Repr

/-- The number of a kind of token: its column in the action table. -/
def Term.num : Term → Nat
  | .logical => 0
  | .equal => 1
  | .rel => 2
  | .plus => 3
  | .minus => 4
  | .mult => 5
  | .divmod => 6
  | .union => 7
  | .pathSep => 8
  | .abbrevSep => 9
  | .lbrack => 10
  | .rbrack => 11
  | .rparen => 12
  | .comma => 13
  | .eof => 14
  | .lparen => 15
  | .literal => 16
  | .float => 17
  | .integer => 18
  | .star => 19
  | .name => 20
  | .dollar => 21
  | .at => 22
  | .axisSep => 23
  | .dot => 24
  | .dotdot => 25

/-- The number of a nonterminal: its column in the table of transitions. -/
def NonTerm.num : NonTerm → Nat
  | .expr => 0
  | .exprList => 1
  | .relPath => 2
  | .absPath => 3
  | .abbrevAbsPath => 4
  | .step => 5
  | .axisSpec => 6
  | .nodeTest => 7
  | .nameTest => 8
  | .predicated => 9
  | .predList => 10
  | .pred => 11
  | .varRef => 12
  | .number => 13
  | .funCall => 14
  | .formalArgs => 15
  | .argList => 16

/-- The productions, in the order of `uxml/uxpath/parserules.py` 27-341, numbered from 1; number 0 is the one PLY adds
for the start symbol.  The result is the left side and the right side. -/
def prods : List (NonTerm × List Sym) := [
  (.expr, [.n .expr]),
  (.expr, [.n .expr, .t .logical, .n .expr]),
  (.expr, [.n .expr, .t .equal, .n .expr]),
  (.expr, [.n .expr, .t .rel, .n .expr]),
  (.expr, [.n .expr, .t .plus, .n .expr]),
  (.expr, [.n .expr, .t .minus, .n .expr]),
  (.expr, [.n .expr, .t .mult, .n .expr]),
  (.expr, [.n .expr, .t .divmod, .n .expr]),
  (.expr, [.t .minus, .n .expr]),
  (.expr, [.t .lparen, .t .rparen]),
  (.expr, [.t .lparen, .n .exprList, .t .rparen]),
  (.exprList, [.n .expr]),
  (.exprList, [.n .exprList, .t .comma, .n .expr]),
  (.expr, [.n .expr, .t .union, .n .expr]),
  (.expr, [.n .expr, .t .pathSep, .n .relPath]),
  (.expr, [.n .expr, .t .abbrevSep, .n .relPath]),
  (.expr, [.n .relPath]),
  (.expr, [.n .absPath]),
  (.expr, [.n .abbrevAbsPath]),
  (.expr, [.n .predicated]),
  (.expr, [.n .funCall]),
  (.expr, [.n .varRef]),
  (.expr, [.t .literal]),
  (.expr, [.n .number]),
  (.absPath, [.t .pathSep]),
  (.absPath, [.t .pathSep, .n .relPath]),
  (.abbrevAbsPath, [.t .abbrevSep, .n .relPath]),
  (.relPath, [.n .step]),
  (.relPath, [.n .relPath, .t .pathSep, .n .step]),
  (.relPath, [.n .relPath, .t .abbrevSep, .n .step]),
  (.step, [.n .axisSpec, .n .nodeTest]),
  (.step, [.n .nodeTest]),
  (.step, [.t .dot]),
  (.step, [.t .dotdot]),
  (.axisSpec, [.t .name, .t .axisSep]),
  (.axisSpec, [.t .at]),
  (.nodeTest, [.n .nameTest]),
  (.nodeTest, [.n .funCall]),
  (.nameTest, [.t .star]),
  (.nameTest, [.t .name]),
  (.nameTest, [.t .logical]),
  (.nameTest, [.t .divmod]),
  (.predicated, [.n .expr, .n .predList]),
  (.predList, [.n .pred]),
  (.predList, [.n .predList, .n .pred]),
  (.pred, [.t .lbrack, .n .expr, .t .rbrack]),
  (.varRef, [.t .dollar, .t .name]),
  (.varRef, [.t .dollar, .t .logical]),
  (.varRef, [.t .dollar, .t .divmod]),
  (.number, [.t .float]),
  (.number, [.t .integer]),
  (.funCall, [.t .name, .n .formalArgs]),
  (.funCall, [.t .logical, .n .formalArgs]),
  (.funCall, [.t .divmod, .n .formalArgs]),
  (.formalArgs, [.t .lparen, .t .rparen]),
  (.formalArgs, [.t .lparen, .n .argList, .t .rparen]),
  (.argList, [.n .expr]),
  (.argList, [.n .argList, .t .comma, .n .expr])]

/-- The action table: a row for each state, a column for each kind of token. -/
def actTable : List (List Act) := [
  [.shift 16, .error, .error, .error, .shift 2, .error, .shift 17, .error, .shift 13, .shift 14, .error, .error, .error, .error, .error, .shift 3, .shift 10, .shift 19, .shift 20, .shift 27, .shift 15, .shift 18, .shift 25, .error, .shift 23, .shift 24],
  [.shift 34, .shift 29, .shift 32, .shift 38, .shift 37, .shift 33, .shift 28, .shift 30, .shift 35, .shift 36, .shift 40, .error, .error, .error, .accept, .error, .error, .error, .error, .error, .error, .error, .error, .error, .error, .error],
  [.shift 16, .error, .error, .error, .shift 2, .error, .shift 17, .error, .shift 13, .shift 14, .error, .error, .error, .error, .error, .shift 3, .shift 10, .shift 19, .shift 20, .shift 27, .shift 15, .shift 18, .shift 25, .error, .shift 23, .shift 24],
  [.shift 16, .error, .error, .error, .shift 2, .error, .shift 17, .error, .shift 13, .shift 14, .error, .error, .shift 42, .error, .error, .shift 3, .shift 10, .shift 19, .shift 20, .shift 27, .shift 15, .shift 18, .shift 25, .error, .shift 23, .shift 24],
  [.reduce 16, .reduce 16, .reduce 16, .reduce 16, .reduce 16, .reduce 16, .reduce 16, .reduce 16, .shift 45, .shift 46, .reduce 16, .reduce 16, .reduce 16, .reduce 16, .reduce 16, .error, .error, .error, .error, .error, .error, .error, .error, .error, .error, .error],
  [.reduce 17, .reduce 17, .reduce 17, .reduce 17, .reduce 17, .reduce 17, .reduce 17, .reduce 17, .reduce 17, .reduce 17, .reduce 17, .reduce 17, .reduce 17, .reduce 17, .reduce 17, .error, .error, .error, .error, .error, .error, .error, .error, .error, .error, .error],
  [.reduce 18, .reduce 18, .reduce 18, .reduce 18, .reduce 18, .reduce 18, .reduce 18, .reduce 18, .reduce 18, .reduce 18, .reduce 18, .reduce 18, .reduce 18, .reduce 18, .reduce 18, .error, .error, .error, .error, .error, .error, .error, .error, .error, .error, .error],
  [.reduce 19, .reduce 19, .reduce 19, .reduce 19, .reduce 19, .reduce 19, .reduce 19, .reduce 19, .reduce 19, .reduce 19, .reduce 19, .reduce 19, .reduce 19, .reduce 19, .reduce 19, .error, .error, .error, .error, .error, .error, .error, .error, .error, .error, .error],
  [.reduce 20, .reduce 20, .reduce 20, .reduce 20, .reduce 20, .reduce 20, .reduce 20, .reduce 20, .reduce 20, .reduce 20, .reduce 20, .reduce 20, .reduce 20, .reduce 20, .reduce 20, .error, .error, .error, .error, .error, .error, .error, .error, .error, .error, .error],
  [.reduce 21, .reduce 21, .reduce 21, .reduce 21, .reduce 21, .reduce 21, .reduce 21, .reduce 21, .reduce 21, .reduce 21, .reduce 21, .reduce 21, .reduce 21, .reduce 21, .reduce 21, .error, .error, .error, .error, .error, .error, .error, .error, .error, .error, .error],
  [.reduce 22, .reduce 22, .reduce 22, .reduce 22, .reduce 22, .reduce 22, .reduce 22, .reduce 22, .reduce 22, .reduce 22, .reduce 22, .reduce 22, .reduce 22, .reduce 22, .reduce 22, .error, .error, .error, .error, .error, .error, .error, .error, .error, .error, .error],
  [.reduce 23, .reduce 23, .reduce 23, .reduce 23, .reduce 23, .reduce 23, .reduce 23, .reduce 23, .reduce 23, .reduce 23, .reduce 23, .reduce 23, .reduce 23, .reduce 23, .reduce 23, .error, .error, .error, .error, .error, .error, .error, .error, .error, .error, .error],
  [.reduce 27, .reduce 27, .reduce 27, .reduce 27, .reduce 27, .reduce 27, .reduce 27, .reduce 27, .reduce 27, .reduce 27, .reduce 27, .reduce 27, .reduce 27, .reduce 27, .reduce 27, .error, .error, .error, .error, .error, .error, .error, .error, .error, .error, .error],
  [.shift 16, .reduce 24, .reduce 24, .reduce 24, .reduce 24, .reduce 24, .shift 17, .reduce 24, .reduce 24, .reduce 24, .reduce 24, .reduce 24, .reduce 24, .reduce 24, .reduce 24, .error, .error, .error, .error, .shift 27, .shift 15, .error, .shift 25, .error, .shift 23, .shift 24],
  [.shift 16, .error, .error, .error, .error, .error, .shift 17, .error, .error, .error, .error, .error, .error, .error, .error, .error, .error, .error, .error, .shift 27, .shift 15, .error, .shift 25, .error, .shift 23, .shift 24],
  [.reduce 39, .reduce 39, .reduce 39, .reduce 39, .reduce 39, .reduce 39, .reduce 39, .reduce 39, .reduce 39, .reduce 39, .reduce 39, .reduce 39, .reduce 39, .reduce 39, .reduce 39, .shift 52, .error, .error, .error, .error, .error, .error, .error, .shift 50, .error, .error],
  [.reduce 40, .reduce 40, .reduce 40, .reduce 40, .reduce 40, .reduce 40, .reduce 40, .reduce 40, .reduce 40, .reduce 40, .reduce 40, .reduce 40, .reduce 40, .reduce 40, .reduce 40, .shift 52, .error, .error, .error, .error, .error, .error, .error, .error, .error, .error],
  [.reduce 41, .reduce 41, .reduce 41, .reduce 41, .reduce 41, .reduce 41, .reduce 41, .reduce 41, .reduce 41, .reduce 41, .reduce 41, .reduce 41, .reduce 41, .reduce 41, .reduce 41, .shift 52, .error, .error, .error, .error, .error, .error, .error, .error, .error, .error],
  [.shift 55, .error, .error, .error, .error, .error, .shift 56, .error, .error, .error, .error, .error, .error, .error, .error, .error, .error, .error, .error, .error, .shift 57, .error, .error, .error, .error, .error],
  [.reduce 49, .reduce 49, .reduce 49, .reduce 49, .reduce 49, .reduce 49, .reduce 49, .reduce 49, .reduce 49, .reduce 49, .reduce 49, .reduce 49, .reduce 49, .reduce 49, .reduce 49, .error, .error, .error, .error, .error, .error, .error, .error, .error, .error, .error],
  [.reduce 50, .reduce 50, .reduce 50, .reduce 50, .reduce 50, .reduce 50, .reduce 50, .reduce 50, .reduce 50, .reduce 50, .reduce 50, .reduce 50, .reduce 50, .reduce 50, .reduce 50, .error, .error, .error, .error, .error, .error, .error, .error, .error, .error, .error],
  [.shift 16, .error, .error, .error, .error, .error, .shift 17, .error, .error, .error, .error, .error, .error, .error, .error, .error, .error, .error, .error, .shift 27, .shift 59, .error, .error, .error, .error, .error],
  [.reduce 31, .reduce 31, .reduce 31, .reduce 31, .reduce 31, .reduce 31, .reduce 31, .reduce 31, .reduce 31, .reduce 31, .reduce 31, .reduce 31, .reduce 31, .reduce 31, .reduce 31, .error, .error, .error, .error, .error, .error, .error, .error, .error, .error, .error],
  [.reduce 32, .reduce 32, .reduce 32, .reduce 32, .reduce 32, .reduce 32, .reduce 32, .reduce 32, .reduce 32, .reduce 32, .reduce 32, .reduce 32, .reduce 32, .reduce 32, .reduce 32, .error, .error, .error, .error, .error, .error, .error, .error, .error, .error, .error],
  [.reduce 33, .reduce 33, .reduce 33, .reduce 33, .reduce 33, .reduce 33, .reduce 33, .reduce 33, .reduce 33, .reduce 33, .reduce 33, .reduce 33, .reduce 33, .reduce 33, .reduce 33, .error, .error, .error, .error, .error, .error, .error, .error, .error, .error, .error],
  [.reduce 35, .error, .error, .error, .error, .error, .reduce 35, .error, .error, .error, .error, .error, .error, .error, .error, .error, .error, .error, .error, .reduce 35, .reduce 35, .error, .error, .error, .error, .error],
  [.reduce 36, .reduce 36, .reduce 36, .reduce 36, .reduce 36, .reduce 36, .reduce 36, .reduce 36, .reduce 36, .reduce 36, .reduce 36, .reduce 36, .reduce 36, .reduce 36, .reduce 36, .error, .error, .error, .error, .error, .error, .error, .error, .error, .error, .error],
  [.reduce 38, .reduce 38, .reduce 38, .reduce 38, .reduce 38, .reduce 38, .reduce 38, .reduce 38, .reduce 38, .reduce 38, .reduce 38, .reduce 38, .reduce 38, .reduce 38, .reduce 38, .error, .error, .error, .error, .error, .error, .error, .error, .error, .error, .error],
  [.shift 16, .error, .error, .error, .shift 2, .error, .shift 17, .error, .shift 13, .shift 14, .error, .error, .error, .error, .error, .shift 3, .shift 10, .shift 19, .shift 20, .shift 27, .shift 15, .shift 18, .shift 25, .error, .shift 23, .shift 24],
  [.shift 16, .error, .error, .error, .shift 2, .error, .shift 17, .error, .shift 13, .shift 14, .error, .error, .error, .error, .error, .shift 3, .shift 10, .shift 19, .shift 20, .shift 27, .shift 15, .shift 18, .shift 25, .error, .shift 23, .shift 24],
  [.shift 16, .error, .error, .error, .shift 2, .error, .shift 17, .error, .shift 13, .shift 14, .error, .error, .error, .error, .error, .shift 3, .shift 10, .shift 19, .shift 20, .shift 27, .shift 15, .shift 18, .shift 25, .error, .shift 23, .shift 24],
  [.reduce 42, .reduce 42, .reduce 42, .reduce 42, .reduce 42, .reduce 42, .reduce 42, .reduce 42, .reduce 42, .reduce 42, .shift 40, .reduce 42, .reduce 42, .reduce 42, .reduce 42, .error, .error, .error, .error, .error, .error, .error, .error, .error, .error, .error],
  [.shift 16, .error, .error, .error, .shift 2, .error, .shift 17, .error, .shift 13, .shift 14, .error, .error, .error, .error, .error, .shift 3, .shift 10, .shift 19, .shift 20, .shift 27, .shift 15, .shift 18, .shift 25, .error, .shift 23, .shift 24],
  [.shift 16, .error, .error, .error, .shift 2, .error, .shift 17, .error, .shift 13, .shift 14, .error, .error, .error, .error, .error, .shift 3, .shift 10, .shift 19, .shift 20, .shift 27, .shift 15, .shift 18, .shift 25, .error, .shift 23, .shift 24],
  [.shift 16, .error, .error, .error, .shift 2, .error, .shift 17, .error, .shift 13, .shift 14, .error, .error, .error, .error, .error, .shift 3, .shift 10, .shift 19, .shift 20, .shift 27, .shift 15, .shift 18, .shift 25, .error, .shift 23, .shift 24],
  [.shift 16, .error, .error, .error, .error, .error, .shift 17, .error, .error, .error, .error, .error, .error, .error, .error, .error, .error, .error, .error, .shift 27, .shift 15, .error, .shift 25, .error, .shift 23, .shift 24],
  [.shift 16, .error, .error, .error, .error, .error, .shift 17, .error, .error, .error, .error, .error, .error, .error, .error, .error, .error, .error, .error, .shift 27, .shift 15, .error, .shift 25, .error, .shift 23, .shift 24],
  [.shift 16, .error, .error, .error, .shift 2, .error, .shift 17, .error, .shift 13, .shift 14, .error, .error, .error, .error, .error, .shift 3, .shift 10, .shift 19, .shift 20, .shift 27, .shift 15, .shift 18, .shift 25, .error, .shift 23, .shift 24],
  [.shift 16, .error, .error, .error, .shift 2, .error, .shift 17, .error, .shift 13, .shift 14, .error, .error, .error, .error, .error, .shift 3, .shift 10, .shift 19, .shift 20, .shift 27, .shift 15, .shift 18, .shift 25, .error, .shift 23, .shift 24],
  [.reduce 43, .reduce 43, .reduce 43, .reduce 43, .reduce 43, .reduce 43, .reduce 43, .reduce 43, .reduce 43, .reduce 43, .reduce 43, .reduce 43, .reduce 43, .reduce 43, .reduce 43, .error, .error, .error, .error, .error, .error, .error, .error, .error, .error, .error],
  [.shift 16, .error, .error, .error, .shift 2, .error, .shift 17, .error, .shift 13, .shift 14, .error, .error, .error, .error, .error, .shift 3, .shift 10, .shift 19, .shift 20, .shift 27, .shift 15, .shift 18, .shift 25, .error, .shift 23, .shift 24],
  [.reduce 8, .reduce 8, .reduce 8, .reduce 8, .reduce 8, .reduce 8, .reduce 8, .shift 30, .reduce 8, .reduce 8, .reduce 8, .reduce 8, .reduce 8, .reduce 8, .reduce 8, .error, .error, .error, .error, .error, .error, .error, .error, .error, .error, .error],
  [.reduce 9, .reduce 9, .reduce 9, .reduce 9, .reduce 9, .reduce 9, .reduce 9, .reduce 9, .reduce 9, .reduce 9, .reduce 9, .reduce 9, .reduce 9, .reduce 9, .reduce 9, .error, .error, .error, .error, .error, .error, .error, .error, .error, .error, .error],
  [.error, .error, .error, .error, .error, .error, .error, .error, .error, .error, .error, .error, .shift 73, .shift 72, .error, .error, .error, .error, .error, .error, .error, .error, .error, .error, .error, .error],
  [.shift 34, .shift 29, .shift 32, .shift 38, .shift 37, .shift 33, .shift 28, .shift 30, .shift 35, .shift 36, .shift 40, .error, .reduce 11, .reduce 11, .error, .error, .error, .error, .error, .error, .error, .error, .error, .error, .error, .error],
  [.shift 16, .error, .error, .error, .error, .error, .shift 17, .error, .error, .error, .error, .error, .error, .error, .error, .error, .error, .error, .error, .shift 27, .shift 15, .error, .shift 25, .error, .shift 23, .shift 24],
  [.shift 16, .error, .error, .error, .error, .error, .shift 17, .error, .error, .error, .error, .error, .error, .error, .error, .error, .error, .error, .error, .shift 27, .shift 15, .error, .shift 25, .error, .shift 23, .shift 24],
  [.reduce 25, .reduce 25, .reduce 25, .reduce 25, .reduce 25, .reduce 25, .reduce 25, .reduce 25, .shift 45, .shift 46, .reduce 25, .reduce 25, .reduce 25, .reduce 25, .reduce 25, .error, .error, .error, .error, .error, .error, .error, .error, .error, .error, .error],
  [.reduce 37, .reduce 37, .reduce 37, .reduce 37, .reduce 37, .reduce 37, .reduce 37, .reduce 37, .reduce 37, .reduce 37, .reduce 37, .reduce 37, .reduce 37, .reduce 37, .reduce 37, .error, .error, .error, .error, .error, .error, .error, .error, .error, .error, .error],
  [.reduce 26, .reduce 26, .reduce 26, .reduce 26, .reduce 26, .reduce 26, .reduce 26, .reduce 26, .shift 45, .shift 46, .reduce 26, .reduce 26, .reduce 26, .reduce 26, .reduce 26, .error, .error, .error, .error, .error, .error, .error, .error, .error, .error, .error],
  [.reduce 34, .error, .error, .error, .error, .error, .reduce 34, .error, .error, .error, .error, .error, .error, .error, .error, .error, .error, .error, .error, .reduce 34, .reduce 34, .error, .error, .error, .error, .error],
  [.reduce 51, .reduce 51, .reduce 51, .reduce 51, .reduce 51, .reduce 51, .reduce 51, .reduce 51, .reduce 51, .reduce 51, .reduce 51, .reduce 51, .reduce 51, .reduce 51, .reduce 51, .error, .error, .error, .error, .error, .error, .error, .error, .error, .error, .error],
  [.shift 16, .error, .error, .error, .shift 2, .error, .shift 17, .error, .shift 13, .shift 14, .error, .error, .shift 77, .error, .error, .shift 3, .shift 10, .shift 19, .shift 20, .shift 27, .shift 15, .shift 18, .shift 25, .error, .shift 23, .shift 24],
  [.reduce 52, .reduce 52, .reduce 52, .reduce 52, .reduce 52, .reduce 52, .reduce 52, .reduce 52, .reduce 52, .reduce 52, .reduce 52, .reduce 52, .reduce 52, .reduce 52, .reduce 52, .error, .error, .error, .error, .error, .error, .error, .error, .error, .error, .error],
  [.reduce 53, .reduce 53, .reduce 53, .reduce 53, .reduce 53, .reduce 53, .reduce 53, .reduce 53, .reduce 53, .reduce 53, .reduce 53, .reduce 53, .reduce 53, .reduce 53, .reduce 53, .error, .error, .error, .error, .error, .error, .error, .error, .error, .error, .error],
  [.reduce 47, .reduce 47, .reduce 47, .reduce 47, .reduce 47, .reduce 47, .reduce 47, .reduce 47, .reduce 47, .reduce 47, .reduce 47, .reduce 47, .reduce 47, .reduce 47, .reduce 47, .error, .error, .error, .error, .error, .error, .error, .error, .error, .error, .error],
  [.reduce 48, .reduce 48, .reduce 48, .reduce 48, .reduce 48, .reduce 48, .reduce 48, .reduce 48, .reduce 48, .reduce 48, .reduce 48, .reduce 48, .reduce 48, .reduce 48, .reduce 48, .error, .error, .error, .error, .error, .error, .error, .error, .error, .error, .error],
  [.reduce 46, .reduce 46, .reduce 46, .reduce 46, .reduce 46, .reduce 46, .reduce 46, .reduce 46, .reduce 46, .reduce 46, .reduce 46, .reduce 46, .reduce 46, .reduce 46, .reduce 46, .error, .error, .error, .error, .error, .error, .error, .error, .error, .error, .error],
  [.reduce 30, .reduce 30, .reduce 30, .reduce 30, .reduce 30, .reduce 30, .reduce 30, .reduce 30, .reduce 30, .reduce 30, .reduce 30, .reduce 30, .reduce 30, .reduce 30, .reduce 30, .error, .error, .error, .error, .error, .error, .error, .error, .error, .error, .error],
  [.reduce 39, .reduce 39, .reduce 39, .reduce 39, .reduce 39, .reduce 39, .reduce 39, .reduce 39, .reduce 39, .reduce 39, .reduce 39, .reduce 39, .reduce 39, .reduce 39, .reduce 39, .shift 52, .error, .error, .error, .error, .error, .error, .error, .error, .error, .error],
  [.reduce 7, .reduce 7, .reduce 7, .reduce 7, .reduce 7, .reduce 7, .reduce 7, .shift 30, .reduce 7, .reduce 7, .reduce 7, .reduce 7, .reduce 7, .reduce 7, .reduce 7, .error, .error, .error, .error, .error, .error, .error, .error, .error, .error, .error],
  [.reduce 2, .reduce 2, .shift 32, .shift 38, .shift 37, .shift 33, .shift 28, .shift 30, .reduce 2, .reduce 2, .reduce 2, .reduce 2, .reduce 2, .reduce 2, .reduce 2, .error, .error, .error, .error, .error, .error, .error, .error, .error, .error, .error],
  [.reduce 13, .reduce 13, .reduce 13, .reduce 13, .reduce 13, .reduce 13, .reduce 13, .reduce 13, .reduce 13, .reduce 13, .reduce 13, .reduce 13, .reduce 13, .reduce 13, .reduce 13, .error, .error, .error, .error, .error, .error, .error, .error, .error, .error, .error],
  [.reduce 44, .reduce 44, .reduce 44, .reduce 44, .reduce 44, .reduce 44, .reduce 44, .reduce 44, .reduce 44, .reduce 44, .reduce 44, .reduce 44, .reduce 44, .reduce 44, .reduce 44, .error, .error, .error, .error, .error, .error, .error, .error, .error, .error, .error],
  [.reduce 3, .reduce 3, .reduce 3, .shift 38, .shift 37, .shift 33, .shift 28, .shift 30, .reduce 3, .reduce 3, .reduce 3, .reduce 3, .reduce 3, .reduce 3, .reduce 3, .error, .error, .error, .error, .error, .error, .error, .error, .error, .error, .error],
  [.reduce 6, .reduce 6, .reduce 6, .reduce 6, .reduce 6, .reduce 6, .reduce 6, .shift 30, .reduce 6, .reduce 6, .reduce 6, .reduce 6, .reduce 6, .reduce 6, .reduce 6, .error, .error, .error, .error, .error, .error, .error, .error, .error, .error, .error],
  [.reduce 1, .shift 29, .shift 32, .shift 38, .shift 37, .shift 33, .shift 28, .shift 30, .reduce 1, .reduce 1, .reduce 1, .reduce 1, .reduce 1, .reduce 1, .reduce 1, .error, .error, .error, .error, .error, .error, .error, .error, .error, .error, .error],
  [.reduce 14, .reduce 14, .reduce 14, .reduce 14, .reduce 14, .reduce 14, .reduce 14, .reduce 14, .shift 45, .shift 46, .reduce 14, .reduce 14, .reduce 14, .reduce 14, .reduce 14, .error, .error, .error, .error, .error, .error, .error, .error, .error, .error, .error],
  [.reduce 15, .reduce 15, .reduce 15, .reduce 15, .reduce 15, .reduce 15, .reduce 15, .reduce 15, .shift 45, .shift 46, .reduce 15, .reduce 15, .reduce 15, .reduce 15, .reduce 15, .error, .error, .error, .error, .error, .error, .error, .error, .error, .error, .error],
  [.reduce 5, .reduce 5, .reduce 5, .reduce 5, .reduce 5, .shift 33, .shift 28, .shift 30, .reduce 5, .reduce 5, .reduce 5, .reduce 5, .reduce 5, .reduce 5, .reduce 5, .error, .error, .error, .error, .error, .error, .error, .error, .error, .error, .error],
  [.reduce 4, .reduce 4, .reduce 4, .reduce 4, .reduce 4, .shift 33, .shift 28, .shift 30, .reduce 4, .reduce 4, .reduce 4, .reduce 4, .reduce 4, .reduce 4, .reduce 4, .error, .error, .error, .error, .error, .error, .error, .error, .error, .error, .error],
  [.shift 34, .shift 29, .shift 32, .shift 38, .shift 37, .shift 33, .shift 28, .shift 30, .shift 35, .shift 36, .shift 40, .shift 79, .error, .error, .error, .error, .error, .error, .error, .error, .error, .error, .error, .error, .error, .error],
  [.shift 16, .error, .error, .error, .shift 2, .error, .shift 17, .error, .shift 13, .shift 14, .error, .error, .error, .error, .error, .shift 3, .shift 10, .shift 19, .shift 20, .shift 27, .shift 15, .shift 18, .shift 25, .error, .shift 23, .shift 24],
  [.reduce 10, .reduce 10, .reduce 10, .reduce 10, .reduce 10, .reduce 10, .reduce 10, .reduce 10, .reduce 10, .reduce 10, .reduce 10, .reduce 10, .reduce 10, .reduce 10, .reduce 10, .error, .error, .error, .error, .error, .error, .error, .error, .error, .error, .error],
  [.reduce 28, .reduce 28, .reduce 28, .reduce 28, .reduce 28, .reduce 28, .reduce 28, .reduce 28, .reduce 28, .reduce 28, .reduce 28, .reduce 28, .reduce 28, .reduce 28, .reduce 28, .error, .error, .error, .error, .error, .error, .error, .error, .error, .error, .error],
  [.reduce 29, .reduce 29, .reduce 29, .reduce 29, .reduce 29, .reduce 29, .reduce 29, .reduce 29, .reduce 29, .reduce 29, .reduce 29, .reduce 29, .reduce 29, .reduce 29, .reduce 29, .error, .error, .error, .error, .error, .error, .error, .error, .error, .error, .error],
  [.error, .error, .error, .error, .error, .error, .error, .error, .error, .error, .error, .error, .shift 82, .shift 81, .error, .error, .error, .error, .error, .error, .error, .error, .error, .error, .error, .error],
  [.reduce 54, .reduce 54, .reduce 54, .reduce 54, .reduce 54, .reduce 54, .reduce 54, .reduce 54, .reduce 54, .reduce 54, .reduce 54, .reduce 54, .reduce 54, .reduce 54, .reduce 54, .error, .error, .error, .error, .error, .error, .error, .error, .error, .error, .error],
  [.shift 34, .shift 29, .shift 32, .shift 38, .shift 37, .shift 33, .shift 28, .shift 30, .shift 35, .shift 36, .shift 40, .error, .reduce 56, .reduce 56, .error, .error, .error, .error, .error, .error, .error, .error, .error, .error, .error, .error],
  [.reduce 45, .reduce 45, .reduce 45, .reduce 45, .reduce 45, .reduce 45, .reduce 45, .reduce 45, .reduce 45, .reduce 45, .reduce 45, .reduce 45, .reduce 45, .reduce 45, .reduce 45, .error, .error, .error, .error, .error, .error, .error, .error, .error, .error, .error],
  [.shift 34, .shift 29, .shift 32, .shift 38, .shift 37, .shift 33, .shift 28, .shift 30, .shift 35, .shift 36, .shift 40, .error, .reduce 12, .reduce 12, .error, .error, .error, .error, .error, .error, .error, .error, .error, .error, .error, .error],
  [.shift 16, .error, .error, .error, .shift 2, .error, .shift 17, .error, .shift 13, .shift 14, .error, .error, .error, .error, .error, .shift 3, .shift 10, .shift 19, .shift 20, .shift 27, .shift 15, .shift 18, .shift 25, .error, .shift 23, .shift 24],
  [.reduce 55, .reduce 55, .reduce 55, .reduce 55, .reduce 55, .reduce 55, .reduce 55, .reduce 55, .reduce 55, .reduce 55, .reduce 55, .reduce 55, .reduce 55, .reduce 55, .reduce 55, .error, .error, .error, .error, .error, .error, .error, .error, .error, .error, .error],
  [.shift 34, .shift 29, .shift 32, .shift 38, .shift 37, .shift 33, .shift 28, .shift 30, .shift 35, .shift 36, .shift 40, .error, .reduce 57, .reduce 57, .error, .error, .error, .error, .error, .error, .error, .error, .error, .error, .error, .error]]

/-- The transitions on nonterminals: a row for each state, a column for each nonterminal; 0 is none. -/
def gotoTable : List (List Nat) := [
  [1, 0, 4, 5, 6, 12, 21, 22, 26, 7, 0, 0, 9, 11, 8, 0, 0],
  [0, 0, 0, 0, 0, 0, 0, 0, 0, 0, 31, 39, 0, 0, 0, 0, 0],
  [41, 0, 4, 5, 6, 12, 21, 22, 26, 7, 0, 0, 9, 11, 8, 0, 0],
  [44, 43, 4, 5, 6, 12, 21, 22, 26, 7, 0, 0, 9, 11, 8, 0, 0],
  [0, 0, 0, 0, 0, 0, 0, 0, 0, 0, 0, 0, 0, 0, 0, 0, 0],
  [0, 0, 0, 0, 0, 0, 0, 0, 0, 0, 0, 0, 0, 0, 0, 0, 0],
  [0, 0, 0, 0, 0, 0, 0, 0, 0, 0, 0, 0, 0, 0, 0, 0, 0],
  [0, 0, 0, 0, 0, 0, 0, 0, 0, 0, 0, 0, 0, 0, 0, 0, 0],
  [0, 0, 0, 0, 0, 0, 0, 0, 0, 0, 0, 0, 0, 0, 0, 0, 0],
  [0, 0, 0, 0, 0, 0, 0, 0, 0, 0, 0, 0, 0, 0, 0, 0, 0],
  [0, 0, 0, 0, 0, 0, 0, 0, 0, 0, 0, 0, 0, 0, 0, 0, 0],
  [0, 0, 0, 0, 0, 0, 0, 0, 0, 0, 0, 0, 0, 0, 0, 0, 0],
  [0, 0, 0, 0, 0, 0, 0, 0, 0, 0, 0, 0, 0, 0, 0, 0, 0],
  [0, 0, 47, 0, 0, 12, 21, 22, 26, 0, 0, 0, 0, 0, 48, 0, 0],
  [0, 0, 49, 0, 0, 12, 21, 22, 26, 0, 0, 0, 0, 0, 48, 0, 0],
  [0, 0, 0, 0, 0, 0, 0, 0, 0, 0, 0, 0, 0, 0, 0, 51, 0],
  [0, 0, 0, 0, 0, 0, 0, 0, 0, 0, 0, 0, 0, 0, 0, 53, 0],
  [0, 0, 0, 0, 0, 0, 0, 0, 0, 0, 0, 0, 0, 0, 0, 54, 0],
  [0, 0, 0, 0, 0, 0, 0, 0, 0, 0, 0, 0, 0, 0, 0, 0, 0],
  [0, 0, 0, 0, 0, 0, 0, 0, 0, 0, 0, 0, 0, 0, 0, 0, 0],
  [0, 0, 0, 0, 0, 0, 0, 0, 0, 0, 0, 0, 0, 0, 0, 0, 0],
  [0, 0, 0, 0, 0, 0, 0, 58, 26, 0, 0, 0, 0, 0, 48, 0, 0],
  [0, 0, 0, 0, 0, 0, 0, 0, 0, 0, 0, 0, 0, 0, 0, 0, 0],
  [0, 0, 0, 0, 0, 0, 0, 0, 0, 0, 0, 0, 0, 0, 0, 0, 0],
  [0, 0, 0, 0, 0, 0, 0, 0, 0, 0, 0, 0, 0, 0, 0, 0, 0],
  [0, 0, 0, 0, 0, 0, 0, 0, 0, 0, 0, 0, 0, 0, 0, 0, 0],
  [0, 0, 0, 0, 0, 0, 0, 0, 0, 0, 0, 0, 0, 0, 0, 0, 0],
  [0, 0, 0, 0, 0, 0, 0, 0, 0, 0, 0, 0, 0, 0, 0, 0, 0],
  [60, 0, 4, 5, 6, 12, 21, 22, 26, 7, 0, 0, 9, 11, 8, 0, 0],
  [61, 0, 4, 5, 6, 12, 21, 22, 26, 7, 0, 0, 9, 11, 8, 0, 0],
  [62, 0, 4, 5, 6, 12, 21, 22, 26, 7, 0, 0, 9, 11, 8, 0, 0],
  [0, 0, 0, 0, 0, 0, 0, 0, 0, 0, 0, 63, 0, 0, 0, 0, 0],
  [64, 0, 4, 5, 6, 12, 21, 22, 26, 7, 0, 0, 9, 11, 8, 0, 0],
  [65, 0, 4, 5, 6, 12, 21, 22, 26, 7, 0, 0, 9, 11, 8, 0, 0],
  [66, 0, 4, 5, 6, 12, 21, 22, 26, 7, 0, 0, 9, 11, 8, 0, 0],
  [0, 0, 67, 0, 0, 12, 21, 22, 26, 0, 0, 0, 0, 0, 48, 0, 0],
  [0, 0, 68, 0, 0, 12, 21, 22, 26, 0, 0, 0, 0, 0, 48, 0, 0],
  [69, 0, 4, 5, 6, 12, 21, 22, 26, 7, 0, 0, 9, 11, 8, 0, 0],
  [70, 0, 4, 5, 6, 12, 21, 22, 26, 7, 0, 0, 9, 11, 8, 0, 0],
  [0, 0, 0, 0, 0, 0, 0, 0, 0, 0, 0, 0, 0, 0, 0, 0, 0],
  [71, 0, 4, 5, 6, 12, 21, 22, 26, 7, 0, 0, 9, 11, 8, 0, 0],
  [0, 0, 0, 0, 0, 0, 0, 0, 0, 0, 31, 39, 0, 0, 0, 0, 0],
  [0, 0, 0, 0, 0, 0, 0, 0, 0, 0, 0, 0, 0, 0, 0, 0, 0],
  [0, 0, 0, 0, 0, 0, 0, 0, 0, 0, 0, 0, 0, 0, 0, 0, 0],
  [0, 0, 0, 0, 0, 0, 0, 0, 0, 0, 31, 39, 0, 0, 0, 0, 0],
  [0, 0, 0, 0, 0, 74, 21, 22, 26, 0, 0, 0, 0, 0, 48, 0, 0],
  [0, 0, 0, 0, 0, 75, 21, 22, 26, 0, 0, 0, 0, 0, 48, 0, 0],
  [0, 0, 0, 0, 0, 0, 0, 0, 0, 0, 0, 0, 0, 0, 0, 0, 0],
  [0, 0, 0, 0, 0, 0, 0, 0, 0, 0, 0, 0, 0, 0, 0, 0, 0],
  [0, 0, 0, 0, 0, 0, 0, 0, 0, 0, 0, 0, 0, 0, 0, 0, 0],
  [0, 0, 0, 0, 0, 0, 0, 0, 0, 0, 0, 0, 0, 0, 0, 0, 0],
  [0, 0, 0, 0, 0, 0, 0, 0, 0, 0, 0, 0, 0, 0, 0, 0, 0],
  [78, 0, 4, 5, 6, 12, 21, 22, 26, 7, 0, 0, 9, 11, 8, 0, 76],
  [0, 0, 0, 0, 0, 0, 0, 0, 0, 0, 0, 0, 0, 0, 0, 0, 0],
  [0, 0, 0, 0, 0, 0, 0, 0, 0, 0, 0, 0, 0, 0, 0, 0, 0],
  [0, 0, 0, 0, 0, 0, 0, 0, 0, 0, 0, 0, 0, 0, 0, 0, 0],
  [0, 0, 0, 0, 0, 0, 0, 0, 0, 0, 0, 0, 0, 0, 0, 0, 0],
  [0, 0, 0, 0, 0, 0, 0, 0, 0, 0, 0, 0, 0, 0, 0, 0, 0],
  [0, 0, 0, 0, 0, 0, 0, 0, 0, 0, 0, 0, 0, 0, 0, 0, 0],
  [0, 0, 0, 0, 0, 0, 0, 0, 0, 0, 0, 0, 0, 0, 0, 51, 0],
  [0, 0, 0, 0, 0, 0, 0, 0, 0, 0, 31, 39, 0, 0, 0, 0, 0],
  [0, 0, 0, 0, 0, 0, 0, 0, 0, 0, 31, 39, 0, 0, 0, 0, 0],
  [0, 0, 0, 0, 0, 0, 0, 0, 0, 0, 31, 39, 0, 0, 0, 0, 0],
  [0, 0, 0, 0, 0, 0, 0, 0, 0, 0, 0, 0, 0, 0, 0, 0, 0],
  [0, 0, 0, 0, 0, 0, 0, 0, 0, 0, 31, 39, 0, 0, 0, 0, 0],
  [0, 0, 0, 0, 0, 0, 0, 0, 0, 0, 31, 39, 0, 0, 0, 0, 0],
  [0, 0, 0, 0, 0, 0, 0, 0, 0, 0, 31, 39, 0, 0, 0, 0, 0],
  [0, 0, 0, 0, 0, 0, 0, 0, 0, 0, 0, 0, 0, 0, 0, 0, 0],
  [0, 0, 0, 0, 0, 0, 0, 0, 0, 0, 0, 0, 0, 0, 0, 0, 0],
  [0, 0, 0, 0, 0, 0, 0, 0, 0, 0, 31, 39, 0, 0, 0, 0, 0],
  [0, 0, 0, 0, 0, 0, 0, 0, 0, 0, 31, 39, 0, 0, 0, 0, 0],
  [0, 0, 0, 0, 0, 0, 0, 0, 0, 0, 31, 39, 0, 0, 0, 0, 0],
  [80, 0, 4, 5, 6, 12, 21, 22, 26, 7, 0, 0, 9, 11, 8, 0, 0],
  [0, 0, 0, 0, 0, 0, 0, 0, 0, 0, 0, 0, 0, 0, 0, 0, 0],
  [0, 0, 0, 0, 0, 0, 0, 0, 0, 0, 0, 0, 0, 0, 0, 0, 0],
  [0, 0, 0, 0, 0, 0, 0, 0, 0, 0, 0, 0, 0, 0, 0, 0, 0],
  [0, 0, 0, 0, 0, 0, 0, 0, 0, 0, 0, 0, 0, 0, 0, 0, 0],
  [0, 0, 0, 0, 0, 0, 0, 0, 0, 0, 0, 0, 0, 0, 0, 0, 0],
  [0, 0, 0, 0, 0, 0, 0, 0, 0, 0, 31, 39, 0, 0, 0, 0, 0],
  [0, 0, 0, 0, 0, 0, 0, 0, 0, 0, 0, 0, 0, 0, 0, 0, 0],
  [0, 0, 0, 0, 0, 0, 0, 0, 0, 0, 31, 39, 0, 0, 0, 0, 0],
  [83, 0, 4, 5, 6, 12, 21, 22, 26, 7, 0, 0, 9, 11, 8, 0, 0],
  [0, 0, 0, 0, 0, 0, 0, 0, 0, 0, 0, 0, 0, 0, 0, 0, 0],
  [0, 0, 0, 0, 0, 0, 0, 0, 0, 0, 31, 39, 0, 0, 0, 0, 0]]

def action (s : Nat) (a : Term) : Act := (actTable.getD s []).getD a.num .error

def goto (s : Nat) (a : NonTerm) : Nat := (gotoTable.getD s []).getD a.num 0

end Amara.X
