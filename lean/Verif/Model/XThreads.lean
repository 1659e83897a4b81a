import Verif.Model.XParse
/-
Calls of `uxpath.parse` that share the one lexer of the module, `pylib/uxml/uxpath/__init__.py` 39-53, 63-71: calls one
after the other, calls that are given up, and calls in several threads.

`ply.yacc` keeps its stacks in local variables of `parser.parse` and asks the lexer for a token when it needs one;
`ply.lex` keeps the text and the position in the lexer object.  Simplifications: text and position are represented by
the unread rest of the text; setting the text (`lexer.input`) and reading a token (`lexer.token`) are one step each,
and the scheduler may switch after each step.
-/
namespace Amara.X

variable {F : Type}

/-- Where a call of `parser.parse(xpath, lexer=lexer)` is: not begun; running, with its stack and the token it has
looked at (`some none`: the end of the input); or ended. -/
inductive XPhase (F : Type) where
  | fresh
  | run (st : List (Nat × Val F)) (look : Option (Option (Tok F)))
  | done (r : Except XErr (Expr F))

/-- A call of `uxpath.parse`, `uxml/uxpath/__init__.py` 63-71. -/
structure PCall (F : Type) where
  text : Str
  phase : XPhase F

/-- `lexer.token()`, with the rules of `uxml/uxpath/lexrules.py`: the rest and the token, `some none` at the end,
`none` if `t_error` (106-107) raises. -/
def lexerToken (fo : FloatOps F) (rest : Str) : Str × Option (Option (Tok F)) :=
  match lexOne fo (rest.dropWhile isIgnored) with
  | .tok t r => (r, some (some t))
  | .eof => ([], some none)
  | .bad => (rest.dropWhile isIgnored, none)

/-- One step of the driver with the token it has looked at, see `pstep`. -/
def lookStep (st : List (Nat × Val F)) (a : Option (Tok F)) : XPhase F :=
  match pstep false st a.toList with
  | .next st' inp => .run st' (if a.isSome && inp.isEmpty then none else some a)
  | .done e => .done (.ok e)
  | .fail e => .done (.error e)

/-- One step of a call: the lexer after it, and the call.  `uxml/uxpath/__init__.py` 71. -/
def PCall.step (fo : FloatOps F) (lexer : Str) (c : PCall F) : Str × PCall F :=
  match c.phase with
  | .fresh => (c.text, { c with phase := .run [] none })
  | .run st none =>
    match lexerToken fo lexer with
    | (l, some a) => (l, { c with phase := .run st (some a) })
    | (l, none) => (l, { c with phase := .done (.error .type) })
  | .run st (some a) => (lexer, { c with phase := lookStep st a })
  | .done _ => (lexer, c)

/-- The lexer of the module and the calls, each made by some thread. -/
structure XWorld (F : Type) where
  lexer : Str
  calls : List (PCall F)

/-- Call number `k` makes its next step. -/
def XWorld.step (fo : FloatOps F) (w : XWorld F) (k : Nat) : XWorld F :=
  match w.calls[k]? with
  | some c => ⟨(c.step fo w.lexer).1, w.calls.set k (c.step fo w.lexer).2⟩
  | none => w

/-- A call that has not begun. -/
def PCall.new (text : Str) : PCall F := ⟨text, .fresh⟩

end Amara.X
