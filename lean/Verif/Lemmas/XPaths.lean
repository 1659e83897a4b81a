import Verif.Model.XTables
/-
The symbol that leads to each state and the states it leads from.  Printed by `tools/lalr.py -p`; `Lemmas/XSound` checks
it against the tables.
-/
namespace Amara.X

/-- The symbol on the transitions to each state; nothing leads to state 0, for which it is the end of the input. -/
def symTable : List Sym := [
  .t .eof, .n .expr, .t .minus, .t .lparen, .n .relPath, .n .absPath,
  .n .abbrevAbsPath, .n .predicated, .n .funCall, .n .varRef, .t .literal, .n .number,
  .n .step, .t .pathSep, .t .abbrevSep, .t .name, .t .logical, .t .divmod,
  .t .dollar, .t .float, .t .integer, .n .axisSpec, .n .nodeTest, .t .dot,
  .t .dotdot, .t .at, .n .nameTest, .t .star, .t .divmod, .t .equal,
  .t .union, .n .predList, .t .rel, .t .mult, .t .logical, .t .pathSep,
  .t .abbrevSep, .t .minus, .t .plus, .n .pred, .t .lbrack, .n .expr,
  .t .rparen, .n .exprList, .n .expr, .t .pathSep, .t .abbrevSep, .n .relPath,
  .n .funCall, .n .relPath, .t .axisSep, .n .formalArgs, .t .lparen, .n .formalArgs,
  .n .formalArgs, .t .logical, .t .divmod, .t .name, .n .nodeTest, .t .name,
  .n .expr, .n .expr, .n .expr, .n .pred, .n .expr, .n .expr,
  .n .expr, .n .relPath, .n .relPath, .n .expr, .n .expr, .n .expr,
  .t .comma, .t .rparen, .n .step, .n .step, .n .argList, .t .rparen,
  .n .expr, .t .rbrack, .n .expr, .t .comma, .t .rparen, .n .expr]

/-- The states with a transition to each state. -/
def prevTable : List (List Nat) := [
  [],
  [0],
  [0, 2, 3, 28, 29, 30, 32, 33, 34, 37, 38, 40, 52, 72, 81],
  [0, 2, 3, 28, 29, 30, 32, 33, 34, 37, 38, 40, 52, 72, 81],
  [0, 2, 3, 28, 29, 30, 32, 33, 34, 37, 38, 40, 52, 72, 81],
  [0, 2, 3, 28, 29, 30, 32, 33, 34, 37, 38, 40, 52, 72, 81],
  [0, 2, 3, 28, 29, 30, 32, 33, 34, 37, 38, 40, 52, 72, 81],
  [0, 2, 3, 28, 29, 30, 32, 33, 34, 37, 38, 40, 52, 72, 81],
  [0, 2, 3, 28, 29, 30, 32, 33, 34, 37, 38, 40, 52, 72, 81],
  [0, 2, 3, 28, 29, 30, 32, 33, 34, 37, 38, 40, 52, 72, 81],
  [0, 2, 3, 28, 29, 30, 32, 33, 34, 37, 38, 40, 52, 72, 81],
  [0, 2, 3, 28, 29, 30, 32, 33, 34, 37, 38, 40, 52, 72, 81],
  [0, 2, 3, 13, 14, 28, 29, 30, 32, 33, 34, 35, 36, 37, 38, 40, 52, 72, 81],
  [0, 2, 3, 28, 29, 30, 32, 33, 34, 37, 38, 40, 52, 72, 81],
  [0, 2, 3, 28, 29, 30, 32, 33, 34, 37, 38, 40, 52, 72, 81],
  [0, 2, 3, 13, 14, 28, 29, 30, 32, 33, 34, 35, 36, 37, 38, 40, 45, 46, 52, 72, 81],
  [0, 2, 3, 13, 14, 21, 28, 29, 30, 32, 33, 34, 35, 36, 37, 38, 40, 45, 46, 52, 72, 81],
  [0, 2, 3, 13, 14, 21, 28, 29, 30, 32, 33, 34, 35, 36, 37, 38, 40, 45, 46, 52, 72, 81],
  [0, 2, 3, 28, 29, 30, 32, 33, 34, 37, 38, 40, 52, 72, 81],
  [0, 2, 3, 28, 29, 30, 32, 33, 34, 37, 38, 40, 52, 72, 81],
  [0, 2, 3, 28, 29, 30, 32, 33, 34, 37, 38, 40, 52, 72, 81],
  [0, 2, 3, 13, 14, 28, 29, 30, 32, 33, 34, 35, 36, 37, 38, 40, 45, 46, 52, 72, 81],
  [0, 2, 3, 13, 14, 28, 29, 30, 32, 33, 34, 35, 36, 37, 38, 40, 45, 46, 52, 72, 81],
  [0, 2, 3, 13, 14, 28, 29, 30, 32, 33, 34, 35, 36, 37, 38, 40, 45, 46, 52, 72, 81],
  [0, 2, 3, 13, 14, 28, 29, 30, 32, 33, 34, 35, 36, 37, 38, 40, 45, 46, 52, 72, 81],
  [0, 2, 3, 13, 14, 28, 29, 30, 32, 33, 34, 35, 36, 37, 38, 40, 45, 46, 52, 72, 81],
  [0, 2, 3, 13, 14, 21, 28, 29, 30, 32, 33, 34, 35, 36, 37, 38, 40, 45, 46, 52, 72, 81],
  [0, 2, 3, 13, 14, 21, 28, 29, 30, 32, 33, 34, 35, 36, 37, 38, 40, 45, 46, 52, 72, 81],
  [1, 41, 44, 60, 61, 62, 64, 65, 66, 69, 70, 71, 78, 80, 83],
  [1, 41, 44, 60, 61, 62, 64, 65, 66, 69, 70, 71, 78, 80, 83],
  [1, 41, 44, 60, 61, 62, 64, 65, 66, 69, 70, 71, 78, 80, 83],
  [1, 41, 44, 60, 61, 62, 64, 65, 66, 69, 70, 71, 78, 80, 83],
  [1, 41, 44, 60, 61, 62, 64, 65, 66, 69, 70, 71, 78, 80, 83],
  [1, 41, 44, 60, 61, 62, 64, 65, 66, 69, 70, 71, 78, 80, 83],
  [1, 41, 44, 60, 61, 62, 64, 65, 66, 69, 70, 71, 78, 80, 83],
  [1, 41, 44, 60, 61, 62, 64, 65, 66, 69, 70, 71, 78, 80, 83],
  [1, 41, 44, 60, 61, 62, 64, 65, 66, 69, 70, 71, 78, 80, 83],
  [1, 41, 44, 60, 61, 62, 64, 65, 66, 69, 70, 71, 78, 80, 83],
  [1, 41, 44, 60, 61, 62, 64, 65, 66, 69, 70, 71, 78, 80, 83],
  [1, 41, 44, 60, 61, 62, 64, 65, 66, 69, 70, 71, 78, 80, 83],
  [1, 31, 41, 44, 60, 61, 62, 64, 65, 66, 69, 70, 71, 78, 80, 83],
  [2],
  [3],
  [3],
  [3],
  [4, 47, 49, 67, 68],
  [4, 47, 49, 67, 68],
  [13],
  [13, 14, 21, 35, 36, 45, 46],
  [14],
  [15],
  [15, 59],
  [15, 16, 17, 59],
  [16],
  [17],
  [18],
  [18],
  [18],
  [21],
  [21],
  [28],
  [29],
  [30],
  [31],
  [32],
  [33],
  [34],
  [35],
  [36],
  [37],
  [38],
  [40],
  [43],
  [43],
  [45],
  [46],
  [52],
  [52],
  [52],
  [71],
  [72],
  [76],
  [76],
  [81]]

end Amara.X
