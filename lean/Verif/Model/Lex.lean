import Verif.Model.Chars
import Verif.Model.Expat
/-
The MicroXML scanner, `pylib/uxml/lex.py`, as `ply.lex` runs it: in each state the rules that are functions are tried
in the order of the file, then the others; the first that matches wins.  PLY compiles the rules with `re.VERBOSE`,
which changes nothing here: white space and '#' occur only in brackets or escaped.

The character classes of `lex.py` 31-60 are written with the same text as those of `parser.py` 34-63, so the
definitions of `Model/Chars.lean` are used.  The state INITIAL and its rule for a byte order mark (66-69) are never
used: line 163 leaves that state at once and nothing returns to it.
-/
namespace Amara.Lex

/-- The states, `uxml/lex.py` 22-27. -/
inductive LState where
  | data | tag | attrsgl | attrdbl
deriving DecidableEq, Repr

/-- The kinds of tokens that rules exist for, `uxml/lex.py` 15-20, in the states other than INITIAL. -/
inductive Kind where
  | name | starttag | endtag | gt | eq | comment | chardata | sglQuote | dblQuote
  | ampEnt | ltEnt | gtEnt | aposEnt | quotEnt | numEnt
deriving DecidableEq, Repr

/-- A token: its `type`, `value` and `lexpos`. -/
structure Tok where
  kind : Kind
  value : Str
  pos : Nat
deriving DecidableEq, Repr

/-- WS, `uxml/lex.py` 64. -/
def isLexWs (c : Char) : Bool := c == '\t' || c == '\n' || c == ' '

/-- `str.strip()`, used at `uxml/lex.py` 81, 87. -/
def pyStrip (s : Str) : Str := ((s.dropWhile isPySpace).reverse.dropWhile isPySpace).reverse

/-- NAME_PAT at the beginning of the text, `uxml/lex.py` 72: what it matches. -/
def matchName : Str → Option Str
  | c :: r => if isNameStart c then some (c :: r.takeWhile isNameChar) else none
  | [] => none

/-- `WS* NAME WS*`: what it matches.  No character is both white space and in a name, so the regular expression has
only this one way to match. -/
def matchSpacedName (s : Str) : Option Str :=
  let w := s.takeWhile isLexWs
  match matchName (s.drop w.length) with
  | some n => some (w ++ n ++ (s.drop (w.length + n.length)).takeWhile isLexWs)
  | none => none

/-- `&\#x[0-9A-Fa-f]+;` after the ampersand, number sign and x, `uxml/lex.py` 123: the digits. -/
def matchHex (s : Str) : Option Str :=
  let ds := s.takeWhile isHexDigit
  if ds ≠ [] ∧ (s.drop ds.length).head? = some ';' then some ds else none

/-- `DATACHAR*-->` after `<!--`, `uxml/lex.py` 128: the text of the comment.  DATACHAR contains '-' and not '>', so
the regular expression backs up by two from the end of the longest run of DATACHAR. -/
def matchComment (s : Str) : Option Str :=
  let r := s.takeWhile isDataChar
  if (s.drop r.length).head? = some '>' ∧ ['-', '-'] <:+ r then some (r.take (r.length - 2)) else none

/-- `C+` for a character class. -/
def matchRun (p : Char → Bool) (s : Str) : Option Str :=
  let r := s.takeWhile p
  if r ≠ [] then some r else none

/-- The named entities, `uxml/lex.py` 138-142. -/
def matchEnt (s : Str) : Option (Kind × Str) :=
  if "&amp;".toList.isPrefixOf s then some (.ampEnt, "&amp;".toList)
  else if "&lt;".toList.isPrefixOf s then some (.ltEnt, "&lt;".toList)
  else if "&gt;".toList.isPrefixOf s then some (.gtEnt, "&gt;".toList)
  else if "&quot;".toList.isPrefixOf s then some (.quotEnt, "&quot;".toList)
  else if "&apos;".toList.isPrefixOf s then some (.aposEnt, "&apos;".toList)
  else none

/-- A rule has matched: the kind and value of the token, the state afterwards and how many characters matched. -/
structure Match where
  kind : Kind
  value : Str
  next : LState
  len : Nat
deriving DecidableEq, Repr

/-- The numeric character references of the states data, attrsgl and attrdbl, `uxml/lex.py` 123-126, 143. -/
def numEnt (st : LState) (s : Str) : Option Match :=
  if "&#x".toList.isPrefixOf s then (matchHex (s.drop 3)).map fun ds => ⟨.numEnt, ds, st, ds.length + 4⟩ else none

/-- The named entities of a state. -/
def namedEnt (st : LState) (s : Str) : Option Match := (matchEnt s).map fun kv => ⟨kv.1, kv.2, st, kv.2.length⟩

/-- `t_data_STARTTAG`, `uxml/lex.py` 78-82. -/
def ruleStart : Str → Option Match
  | '<' :: r => (matchSpacedName r).map fun m => ⟨.starttag, pyStrip m, .tag, m.length + 1⟩
  | _ => none

/-- `t_data_ENDTAG`, `uxml/lex.py` 84-88. -/
def ruleEnd : Str → Option Match
  | '<' :: '/' :: r =>
    match matchSpacedName r with
    | some m => if (r.drop m.length).head? = some '>' then some ⟨.endtag, pyStrip m, .data, m.length + 3⟩ else none
    | none => none
  | _ => none

/-- `t_data_COMMENT`, `uxml/lex.py` 128-131. -/
def ruleComment (s : Str) : Option Match :=
  if "<!--".toList.isPrefixOf s then (matchComment (s.drop 4)).map fun m => ⟨.comment, m, .data, m.length + 7⟩ else none

/-- A rule for one character. -/
def ruleChar (c : Char) (k : Kind) (next : LState) (s : Str) : Option Match :=
  if s.head? = some c then some ⟨k, [c], next, 1⟩ else none

/-- A rule for the longest run of characters of a class: `t_data_CHARDATA`, `t_attrsgl_CHARDATA`,
`t_attrdbl_CHARDATA`, `uxml/lex.py` 115-121, 136. -/
def ruleRun (p : Char → Bool) (next : LState) (s : Str) : Option Match :=
  (matchRun p s).map fun m => ⟨.chardata, m, next, m.length⟩

/-- `t_tag_NAME`, `uxml/lex.py` 73-75. -/
def ruleName (s : Str) : Option Match := (matchName s).map fun m => ⟨.name, m, .tag, m.length⟩

/-- The rules of the state data: `uxml/lex.py` 78-88, 123-131, 135-143. -/
def scanData (s : Str) : Option Match :=
  (ruleStart s).or <| (ruleEnd s).or <| (numEnt .data s).or <| (ruleComment s).or <|
    (ruleRun isDataChar .data s).or <| (namedEnt .data s).or (ruleChar '>' .gt .data s)

/-- The rules of the state tag: `uxml/lex.py` 73-75, 90-103, 133. -/
def scanTag (s : Str) : Option Match :=
  (ruleName s).or <| (ruleChar '>' .gt .data s).or <| (ruleChar '\'' .sglQuote .attrsgl s).or <|
    (ruleChar '"' .dblQuote .attrdbl s).or (ruleChar '=' .eq .tag s)

/-- The rules of the states attrsgl (`uxml/lex.py` 105-108, 115-117) and attrdbl (110-113, 119-121), and 123-126,
138-143 for both. -/
def scanAttr (st : LState) (q : Char) (quote : Kind) (p : Char → Bool) (s : Str) : Option Match :=
  (ruleChar q quote .tag s).or <| (ruleRun p st s).or <| (numEnt st s).or (namedEnt st s)

/-- One attempt to match, by the rules of the state. -/
def scan : LState → Str → Option Match
  | .data, s => scanData s
  | .tag, s => scanTag s
  | .attrsgl, s => scanAttr .attrsgl '\'' .sglQuote isAttrCharSgl s
  | .attrdbl, s => scanAttr .attrdbl '"' .dblQuote isAttrCharDbl s

/-- The one lexer of the module, `uxml/lex.py` 162: its state, what it has still to read, and `lexpos`. -/
structure Lexer where
  state : LState
  rest : Str
  pos : Nat
deriving DecidableEq, Repr

/-- What `lexer.token()` does: the illegal characters reported (`t_error`, `uxml/lex.py` 154-156, which skips them),
the token or None, and the lexer afterwards. -/
def tokenFrom (st : LState) (pos : Nat) : Str → Str × Option Tok × Lexer
  | [] => ([], none, ⟨st, [], pos⟩)
  | c :: r =>
    match scan st (c :: r) with
    | some m => ([], some ⟨m.kind, m.value, pos⟩, ⟨m.next, (c :: r).drop m.len, pos + m.len⟩)
    | none =>
      let (ill, t, l) := tokenFrom st (pos + 1) r
      (c :: ill, t, l)

/-- `lexer.token()`. -/
def Lexer.token (l : Lexer) : Str × Option Tok × Lexer := tokenFrom l.state l.pos l.rest

/-- `s.replace('\r\n', '\n')`, `uxml/lex.py` 166. -/
def replaceCrLf : Str → Str
  | [] => []
  | '\r' :: '\n' :: r => '\n' :: replaceCrLf r
  | c :: r => c :: replaceCrLf r

/-- `uxml/lex.py` 166-167: then `s.replace('\r', '\n')`. -/
def newlines (s : Str) : Str := (replaceCrLf s).map fun c => if c = '\r' then '\n' else c

/-- `lexer.input(s)`, `uxml/lex.py` 166-168: the state is not touched. -/
def Lexer.input (l : Lexer) (s : Str) : Lexer := ⟨l.state, newlines s, 0⟩

/-- What is seen of a scan: a token is yielded, or an illegal character is reported. -/
inductive Out where
  | tok (t : Tok)
  | illegal (c : Char)
deriving DecidableEq, Repr

/-- The loop of `run`, `uxml/lex.py` 170-173, not interrupted, for at most `fuel` tokens. -/
def drain : Nat → Lexer → List Out × Lexer
  | 0, l => ([], l)
  | fuel + 1, l =>
    match l.token with
    | (ill, some t, l') =>
      let (os, l'') := drain fuel l'
      (ill.map .illegal ++ .tok t :: os, l'')
    | (ill, none, l') => (ill.map .illegal, l')

/-- `list(run(s))` with the lexer left by earlier runs, `uxml/lex.py` 165-173: what is seen, and the lexer
afterwards.  A token has at least one character, so there are not more tokens than characters. -/
def run (l : Lexer) (s : Str) : List Out × Lexer := drain ((l.input s).rest.length + 1) (l.input s)

/-- The lexer when the module has been loaded, `uxml/lex.py` 162-163. -/
def lexer0 : Lexer := ⟨.data, [], 0⟩

/-- A call of `next` on a generator made by `run(s)`, `uxml/lex.py` 165-173: the first call (`some s`) gives the text
to the lexer, the later ones (`none`) go on with whatever the lexer has. -/
def nextOf (l : Lexer) : Option Str → Str × Option Tok × Lexer
  | some s => (l.input s).token
  | none => l.token

end Amara.Lex
