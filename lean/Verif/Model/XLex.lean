import Verif.Model.XPath
import Verif.Model.XTables
/-
The lexer of MicroXPath expressions, `pylib/uxml/uxpath/lexrules.py`, as `ply.lex` runs it
(`pylib/uxml/uxpath/__init__.py` 39-53): the blanks are skipped, then the rules that are functions are tried in the
order of the file (`t_NAME`, `t_LITERAL`, `t_FLOAT`, `t_INTEGER`, `t_NODETEXTTEST`), then the others, longest regular
expression first; the first that matches wins.

Simplifications: `\d` stands for the ASCII digits only (every other decimal digit begins a name, but may follow an
ASCII digit in a number).  `t_NODETEXTTEST` is left out: whatever it matches begins with a name, which `t_NAME`
matches first.  Python's `float` is `FloatOps.parse`.
-/
namespace Amara.X

/-- Tokens with their values, `uxml/uxpath/lexrules.py`. -/
inductive Tok (F : Type) where
  | logical (isAnd : Bool)
  | divmod (isMod : Bool)
  | equal (negated : Bool)
  | rel (op : Rel)
  | plus | minus | star | union
  | pathSep | abbrevSep
  | lbrack | rbrack | lparen | rparen | comma | dollar | at | axisSep
  | dot | dotdot
  | literal (s : Str)
  | float (f : F)
  | integer (n : Nat)
  | name (s : Str)
deriving DecidableEq, Repr

/-- The kind of a token. -/
def Tok.kind {F : Type} : Tok F → Term
  | .logical _ => .logical
  | .divmod _ => .divmod
  | .equal _ => .equal
  | .rel _ => .rel
  | .plus => .plus
  | .minus => .minus
  | .star => .star
  | .union => .union
  | .pathSep => .pathSep
  | .abbrevSep => .abbrevSep
  | .lbrack => .lbrack
  | .rbrack => .rbrack
  | .lparen => .lparen
  | .rparen => .rparen
  | .comma => .comma
  | .dollar => .dollar
  | .at => .at
  | .axisSep => .axisSep
  | .dot => .dot
  | .dotdot => .dotdot
  | .literal _ => .literal
  | .float _ => .float
  | .integer _ => .integer
  | .name _ => .name

/-- One attempt to read a token: the token and what is left, the end of the input, or no rule matches. -/
inductive Lexed (F : Type) where
  | tok (t : Tok F) (rest : Str)
  | eof
  | bad

def Char.between (a b : Nat) (c : Char) : Bool := a ≤ c.toNat && c.toNat ≤ b

/-- The ranges of `NameStartChar`, `uxml/uxpath/lexrules.py` 68-71.  The range from U+C0 to U+D6 is missing: its
opening bracket was forgotten (see `oddName`). -/
def lexNameStart (c : Char) : Bool :=
  Char.between 0x41 0x5a c || c == '_' || Char.between 0x61 0x7a c || Char.between 0xd8 0xf6 c ||
  Char.between 0xf8 0x2ff c || Char.between 0x370 0x37d c || Char.between 0x37f 0x1fff c ||
  Char.between 0x200c 0x200d c || Char.between 0x2070 0x218f c || Char.between 0x2c00 0x2fef c ||
  Char.between 0x3001 0xd7ff c || Char.between 0xf900 0xfdcf c || Char.between 0xfdf0 0xfffd c ||
  Char.between 0x10000 0xeffff c

/-- `NameChar_extras`, `uxml/uxpath/lexrules.py` 73. -/
def lexNameExtra (c : Char) : Bool :=
  c == '-' || c == '.' || Char.between 0x30 0x39 c || c.toNat == 0xb7 || Char.between 0x300 0x36f c ||
  Char.between 0x203f 0x2040 c

/-- What the alternative `\xc0-\xd6]` of `NameStartChar` matches, `uxml/uxpath/lexrules.py` 68: these four
characters. -/
def oddName : Str := [Char.ofNat 0xc0, '-', Char.ofNat 0xd6, ']']

/-- A character inside a name. -/
def lexNameChar (c : Char) : Bool := lexNameStart c || lexNameExtra c

/-- `(NameStartChar|NameChar_extras)*`, `uxml/uxpath/lexrules.py` 75-76, at most `n` times. -/
def lexNameRun : Nat → Str → Str × Str
  | 0, s => ([], s)
  | _ + 1, [] => ([], [])
  | n + 1, c :: r =>
    if lexNameChar c then (c :: (lexNameRun n r).1, (lexNameRun n r).2)
    else if oddName.isPrefixOf (c :: r) then
      (oddName ++ (lexNameRun n (r.drop 3)).1, (lexNameRun n (r.drop 3)).2)
    else ([], c :: r)

/-- The name that a string begins with and what is left. -/
def lexNameRest (s : Str) : Str × Str := lexNameRun s.length s

/-- `NameStartChar` matches here. -/
def lexNameHere (s : Str) : Bool :=
  match s with
  | [] => false
  | c :: _ => lexNameStart c || oddName.isPrefixOf s

/-- `t_NAME`, `uxml/uxpath/lexrules.py` 80-85: the names in `OPERATOR_NAMES` (12-17) are operators. -/
def nameTok {F : Type} (n : Str) : Tok F :=
  if n = "or".toList then .logical false
  else if n = "and".toList then .logical true
  else if n = "div".toList then .divmod false
  else if n = "mod".toList then .divmod true
  else .name n

def isDigit (c : Char) : Bool := Char.between 0x30 0x39 c

/-- `int(s)` of decimal digits.  Simplification: `\d` also matches digits of other scripts, which can follow a digit here;
they are taken for names. -/
def digitsNat (ds : Str) : Nat := ds.foldl (fun n c => 10 * n + (c.toNat - 0x30)) 0

section
variable {F : Type} (fo : FloatOps F)

/-- `float(t.value)`, `uxml/uxpath/lexrules.py` 92-95. -/
def floatTok (s : Str) (rest : Str) : Lexed F :=
  match fo.parse s with
  | some f => .tok (.float f) rest
  | none => .bad

/-- `t_FLOAT` and `t_INTEGER`, `uxml/uxpath/lexrules.py` 92-100, on a string that begins with a digit. -/
def lexNumber (s : Str) : Lexed F :=
  match s.dropWhile isDigit with
  | '.' :: r => floatTok fo (s.takeWhile isDigit ++ '.' :: r.takeWhile isDigit) (r.dropWhile isDigit)
  | r => .tok (.integer (digitsNat (s.takeWhile isDigit))) r

/-- `t_LITERAL`, `uxml/uxpath/lexrules.py` 87-90, after the opening quote `q`. -/
def lexLiteral (q : Char) (r : Str) : Lexed F :=
  match r.dropWhile (· != q) with
  | _ :: r' => .tok (.literal (r.takeWhile (· != q))) r'
  | [] => .bad

/-- A string that begins with `.`: `t_FLOAT`, `t_ABBREV_STEP_PARENT`, `t_ABBREV_STEP_SELF`,
`uxml/uxpath/lexrules.py` 49-50, 92-95. -/
def lexDot (r : Str) : Lexed F :=
  match r with
  | c :: r' =>
    if isDigit c then floatTok fo ('.' :: r.takeWhile isDigit) (r.dropWhile isDigit)
    else if c = '.' then .tok .dotdot r'
    else .tok .dot r
  | [] => .tok .dot r

/-- A second character of a rule. -/
def ifNext (d : Char) (r : Str) (yes : Str → Lexed F) (no : Lexed F) : Lexed F :=
  match r with
  | c :: r' => if c = d then yes r' else no
  | [] => no

/-- A comparison operator: `t_REL_OP`, `uxml/uxpath/lexrules.py` 58. -/
def lexRel (c : Char) (r : Str) : Lexed F :=
  ifNext '=' r (.tok (.rel (if c = '<' then .le else .ge))) (.tok (.rel (if c = '<' then .lt else .gt)) r)

/-- The rules that are single characters or pairs, `uxml/uxpath/lexrules.py` 47-63. -/
def lexPunct (c : Char) (r : Str) : Lexed F :=
  if c = '/' then ifNext '/' r (.tok .abbrevSep) (.tok .pathSep r)
  else if c = ':' then ifNext ':' r (.tok .axisSep) .bad
  else if c = '@' then .tok .at r
  else if c = '(' then .tok .lparen r
  else if c = ')' then .tok .rparen r
  else if c = '[' then .tok .lbrack r
  else if c = ']' then .tok .rbrack r
  else if c = '|' then .tok .union r
  else if c = '=' then .tok (.equal false) r
  else if c = '!' then ifNext '=' r (.tok (.equal true)) .bad
  else if c = '<' || c = '>' then lexRel c r
  else if c = '+' then .tok .plus r
  else if c = '-' then .tok .minus r
  else if c = ',' then .tok .comma r
  else if c = '$' then .tok .dollar r
  else if c = '*' then .tok .star r
  else .bad

/-- One token from a string without leading blanks. -/
def lexOne (s : Str) : Lexed F :=
  match s with
  | [] => .eof
  | c :: r =>
    if lexNameHere s then .tok (nameTok (lexNameRest s).1) (lexNameRest s).2
    else if c = '"' || c = '\'' then lexLiteral c r
    else if isDigit c then lexNumber fo s
    else if c = '.' then lexDot fo r
    else lexPunct c r

/-- `t_ignore`, `uxml/uxpath/lexrules.py` 66. -/
def isIgnored (c : Char) : Bool := c == ' ' || c == '\t' || c == '\r' || c == '\n'

/-- The tokens of a string (at most `n`), and whether the lexer then raises TypeError (`t_error`,
`uxml/uxpath/lexrules.py` 106-107). -/
def lexN : Nat → Str → List (Tok F) × Bool
  | 0, _ => ([], false)
  | n + 1, s => match lexOne fo (s.dropWhile isIgnored) with
    | .tok t r => let x := lexN n r; (t :: x.1, x.2)
    | .eof => ([], false)
    | .bad => ([], true)

/-- All the tokens: every one takes at least one character. -/
def xlex (s : Str) : List (Tok F) × Bool := lexN fo (s.length + 1) s

end

end Amara.X
