import Verif.Model.Chars
/-
The push parser of `pylib/uxml/parser.py`: `handle_cdata` (76-132) and the
coroutine `parser` (138-337), with `handler`, `parse` and `parsefrags`
(346-376).

The coroutine's local variables `window` and `pos` are represented by the
unread suffix `window[pos:]` (field `rest`): the code reads `window[i]` only for
`i >= pos`, apart from error messages, which are not modelled.
-/
namespace Amara

/-- The exception classes the parser can raise. -/
inductive Err where
  /-- `RuntimeError` -/
  | runtime
  /-- `IndexError` -/
  | index
  /-- `ValueError` (also stands for the `OverflowError` of `chr` on huge numbers) -/
  | value
deriving DecidableEq, Repr

/-- An attribute dictionary: association list in insertion order. -/
abbrev Attrs := List (Str × Str)

/-- `d[k] = v` on an insertion-ordered dictionary, as in `uxml/parser.py` 295: an existing key
keeps its place. -/
def Attrs.set : Attrs → Str → Str → Attrs
  | [], k, v => [(k, v)]
  | (k', v') :: r, k, v => if k' = k then (k', v) :: r else (k', v') :: Attrs.set r k v

/-- `d.get(k)` on a dictionary. -/
def Attrs.get : Attrs → Str → Option Str
  | [], _ => none
  | (k', v') :: r, k => if k' = k then some v' else Attrs.get r k

/-- The events sent to the handler, `uxml/parser.py` 26-29, 232, 238, 304.  The last component
of `start` and `stop` is the copy of `element_stack` (outermost first). -/
inductive Event where
  | start (name : Str) (attrs : Attrs) (anc : List Str)
  | stop (name : Str) (anc : List Str)
  | chars (s : Str)
deriving DecidableEq, Repr

/-! ### handle_cdata -/

/-- Where `handle_cdata` is: in plain text (87-95), just after '&' (97-98), after '&#' (98),
in the digits of a hexadecimal reference (101-111), in a named reference (114-127).  The digits and
name read so far are kept most recent first. -/
inductive CMode where
  | txt
  | amp
  | hash
  | hex (acc : Str)
  | named (acc : Str)
deriving DecidableEq, Repr

/-- Result of `handle_cdata`, `uxml/parser.py` 76-132. -/
inductive CRes where
  /-- `return cdata, cursor`: the text and what follows the stop character -/
  | found (s : Str) (rest : Str)
  /-- `return None, cursor` -/
  | more
  /-- an exception -/
  | fail (e : Err)
deriving DecidableEq, Repr

/-- `cdata += c`. -/
def CRes.push (c : Char) : CRes → CRes
  | .found s r => .found (c :: s) r
  | .more => .more
  | .fail e => .fail e

/-- The decoding of a complete hexadecimal reference, `uxml/parser.py` 105-107: `int('', 16)`
raises ValueError, `chr` raises ValueError/OverflowError beyond U+10FFFF, and a character
outside CHARACTER (surrogates included) raises RuntimeError. -/
def hexRef (digits : Str) : Except Err Char :=
  if digits = [] then .error .value
  else
    let n := hexNum digits
    if n ≥ 0x110000 then .error .value
    else if isCharacterN n then .ok (Char.ofNat n)
    else .error .runtime

/-- `handle_cdata(pos, window, charpat, stopchars)`, `uxml/parser.py` 76-132, on the suffix
`window[pos:]`.  `stop` is the single stop character ('<' or the opening quote).  An illegal
character in a named reference reaches line 127, whose `format` call raises IndexError, which
line 131 turns into "need more input". -/
def cdata (pat : Char → Bool) (stop : Char) : CMode → Str → CRes
  | _, [] => .more
  | .txt, c :: r =>
    if pat c then (cdata pat stop .txt r).push c
    else if c = stop then .found [] r
    else if c = '&' then cdata pat stop .amp r
    else cdata pat stop .txt r
  | .amp, c :: r =>
    if c = '#' then cdata pat stop .hash r
    else if isNamedRefChar c then cdata pat stop (.named [c]) r
    else if c = ';' then .fail .runtime
    else .more
  | .hash, c :: r =>
    if c = 'x' then cdata pat stop (.hex []) r
    else .more
  | .hex acc, c :: r =>
    if isHexDigit c then cdata pat stop (.hex (c :: acc)) r
    else if c = ';' then
      match hexRef acc.reverse with
      | .ok ch => (cdata pat stop .txt r).push ch
      | .error e => .fail e
    else .fail .runtime
  | .named acc, c :: r =>
    if isNamedRefChar c then cdata pat stop (.named (c :: acc)) r
    else if c = ';' then
      match charName acc.reverse with
      | some ch => (cdata pat stop .txt r).push ch
      | none => .fail .runtime
    else .more

/-! ### the parser coroutine -/

/-- `class state`, `uxml/parser.py` 15-23 (`tag_gi` is never used). -/
inductive St where
  | preElement
  | inElement
  | preTagGi
  | preCompleteTagGi
  | completeTag
  | completeDoc
  | attribute
deriving DecidableEq, Repr

/-- The local variables of the coroutine, `uxml/parser.py` 144-151: `curr_state`,
`window[pos:]`, `pending_event == end_element`, `gi`, `attribs`, and `element_stack` (here
innermost first). -/
structure PState where
  st : St
  rest : Str
  pendingEnd : Bool
  gi : Str
  attribs : Attrs
  stack : List Str
deriving DecidableEq, Repr

/-- State before the first `yield`, `uxml/parser.py` 141-151. -/
def PState.init : PState := ⟨.preElement, [], false, [], [], []⟩

/-- `while window[pos] in ' \r\n\t': pos += 1`, `uxml/parser.py` 168-169 and four other places. -/
def dropWs : Str → Str
  | [] => []
  | c :: r => if isWs c then dropWs r else c :: r

/-- `while NAMECHAR.match(window[advpos]): advpos += 1`, `uxml/parser.py` 203-204, 254-255: the
characters passed over. -/
def takeName : Str → Str
  | [] => []
  | c :: r => if isNameChar c then c :: takeName r else []

/-- As `takeName`: what remains. -/
def dropName : Str → Str
  | [] => []
  | c :: r => if isNameChar c then dropName r else c :: r

/-- Result of one pass through the block of the main loop for the current state. -/
inductive StepRes where
  /-- the inner loop goes on (`continue` with `need_input` false, or falling through to the
  block of the new state) -/
  | cont (s : PState) (evs : List Event)
  /-- the inner loop is left (`need_input = True`, or `break`) -/
  | pause (s : PState) (evs : List Event)
  /-- an exception escapes -/
  | fail (e : Err)
deriving DecidableEq, Repr

/-- `if not done: need_input = True` followed by `continue`. -/
def wait (done : Bool) (s : PState) : StepRes := if done then .cont s [] else .pause s []

/-- Block `state.pre_element`, `uxml/parser.py` 165-178. -/
def stepPreElement (done : Bool) (s : PState) : StepRes :=
  match dropWs s.rest with
  | [] => wait done { s with rest := [] }
  | c :: r =>
    if c = '<' then .cont { s with rest := r, st := .preTagGi } []
    else .cont { s with rest := c :: r } []

/-- Block `state.pre_tag_gi, state.pre_complete_tag_gi`, `uxml/parser.py` 182-211. -/
def stepTagGi (done : Bool) (s : PState) : StepRes :=
  let pend := decide (s.st = .preCompleteTagGi)
  match dropWs s.rest with
  | [] => wait done { s with rest := [], pendingEnd := pend }
  | c :: r =>
    if s.st = .preTagGi ∧ c = '/' then
      .cont { s with rest := r, st := .preCompleteTagGi, pendingEnd := true } []
    else if isNameStart c then
      if dropName r = [] then wait done { s with rest := c :: r, pendingEnd := pend }
      else .cont { s with gi := c :: takeName r, rest := dropName r, st := .completeTag,
                          pendingEnd := pend } []
    else .cont { s with gi := [], rest := c :: r, st := .completeTag, pendingEnd := pend } []

/-- Block `state.complete_tag`, `uxml/parser.py` 212-249. -/
def stepCompleteTag (done : Bool) (s : PState) : StepRes :=
  match dropWs s.rest with
  | [] => wait done { s with rest := [] }
  | c :: r =>
    if s.pendingEnd = false ∧ isNameStart c = true then
      .cont { s with rest := c :: r, st := .attribute } []
    else if c = '>' then
      if s.pendingEnd = false then
        let s' := { s with rest := r, st := .inElement, attribs := [], stack := s.gi :: s.stack }
        let evs := [Event.start s.gi s.attribs s.stack.reverse]
        if r = [] then .pause s' evs else .cont s' evs
      else
        match s.stack with
        | [] => .fail .index
        | opened :: stk =>
          if opened ≠ s.gi then .fail .runtime
          else
            let st' := if stk = [] then St.completeDoc else St.inElement
            let s' := { s with rest := r, st := st', attribs := [], stack := stk }
            let evs := [Event.stop s.gi stk.reverse]
            if r = [] then .pause s' evs else .cont s' evs
    else .fail .runtime

/-- The pattern for an attribute value opened by quote `q`, `uxml/parser.py` 284. -/
def attrPat (q : Char) : Char → Bool := if q = '\'' then isAttrCharSgl else isAttrCharDbl

/-- Block `state.attribute`, `uxml/parser.py` 250-296.  When `handle_cdata` needs more input
`pos` stays at the opening quote, not at the attribute name (289-291).  When the character after
'=' is not a quote the block falls through with `curr_state` still `attribute`. -/
def stepAttribute (done : Bool) (s : PState) : StepRes :=
  match s.rest with
  | [] => wait done s
  | c :: r =>
    if dropName r = [] then wait done s
    else
      match dropWs (dropName r) with
      | [] => wait done s
      | d :: r3 =>
        if d = '=' then
          match r3 with
          | [] => if done then .fail .index else .pause s []
          | q :: r4 =>
            if q = '"' ∨ q = '\'' then
              match cdata (attrPat q) q .txt r4 with
              | .found v r5 =>
                .cont { s with rest := r5, st := .completeTag,
                               attribs := s.attribs.set (c :: takeName r) v } []
              | .more => wait done { s with rest := q :: r4 }
              | .fail e => .fail e
            else .cont { s with rest := q :: r4 } []
        else .fail .runtime

/-- Block `state.in_element`, `uxml/parser.py` 297-311. -/
def stepInElement (done : Bool) (s : PState) : StepRes :=
  match cdata isDataChar '<' .txt s.rest with
  | .found t r => .cont { s with rest := r, st := .preTagGi }
                    (if t = [] then [] else [Event.chars t])
  | .more => wait done s
  | .fail e => .fail e

/-- Block `state.complete_doc`, `uxml/parser.py` 312-328. -/
def stepCompleteDoc (done : Bool) (s : PState) : StepRes :=
  match s.rest with
  | [] => .pause s []
  | _ :: _ =>
    match dropWs s.rest with
    | [] => wait done { s with rest := [] }
    | _ :: _ => .fail .runtime

/-- One pass of `while not need_input`, `uxml/parser.py` 164-328.  A pass that runs through
several blocks (a block changes `curr_state` to that of a later block and falls through) is
modelled as several steps; no variable is tested or changed in between. -/
def step (done : Bool) (s : PState) : StepRes :=
  match s.st with
  | .preElement => stepPreElement done s
  | .preTagGi => stepTagGi done s
  | .preCompleteTagGi => stepTagGi done s
  | .completeTag => stepCompleteTag done s
  | .attribute => stepAttribute done s
  | .inElement => stepInElement done s
  | .completeDoc => stepCompleteDoc done s

/-- How far a run of the inner loop has got. -/
inductive Status where
  /-- control is back at the outer loop -/
  | paused (s : PState)
  /-- an exception escaped -/
  | raised (e : Err)
  /-- still inside the inner loop -/
  | running (s : PState)
deriving DecidableEq, Repr

/-- The first `n` steps of the inner loop, `uxml/parser.py` 164-328: the events delivered in them
and where they lead. -/
def run (done : Bool) : Nat → PState → List Event × Status
  | 0, s => ([], .running s)
  | n + 1, s =>
    match step done s with
    | .cont s' evs => (evs ++ (run done n s').1, (run done n s').2)
    | .pause s' evs => (evs, .paused s')
    | .fail e => ([], .raised e)

/-- A number of steps after which the loop has left or will never leave (`Lemmas/Parser`
proves this of it). -/
def enough (s : PState) : Nat := 3 * s.rest.length + 3

/-- What has become of the parser coroutine. -/
inductive Session where
  /-- suspended at `frag, done = yield`, `uxml/parser.py` 156 -/
  | awaiting (s : PState)
  /-- suspended at `sentinel = yield`, line 331 -/
  | finished
  /-- the generator has ended: an exception escaped from `send`, or it was resumed at line 331 -/
  | dead
  /-- `send` never returned; nothing can follow -/
  | hung (s : PState)
deriving DecidableEq, Repr

/-- What the caller of `send` sees. -/
inductive SendRes where
  | returned
  | raised (e : Err)
  /-- the generator has ended, `StopIteration` -/
  | stopIteration
  | never
deriving DecidableEq, Repr

/-- `p.send((frag, done))`, `uxml/parser.py` 154-164, 331-337: the events delivered during the
call, the outcome for the caller and the new state of the coroutine. -/
def send (p : Session) (frag : Str) (done : Bool) : List Event × SendRes × Session :=
  match p with
  | .awaiting s =>
    if frag = [] then ([], .returned, if done then .finished else .awaiting s)
    else
      let s1 := { s with rest := s.rest ++ frag }
      let r := run done (enough s1) s1
      match r.2 with
      | .paused s' => (r.1, .returned, if done then .finished else .awaiting s')
      | .raised e => (r.1, .raised e, .dead)
      | .running s' => (r.1, .never, .hung s')
  | .finished => ([], .stopIteration, .dead)
  | .dead => ([], .stopIteration, .dead)
  | .hung s => ([], .never, .hung s)

/-- A fresh parser object, `uxml/parser.py` 138-156. -/
def newParser : Session := .awaiting .init

/-- Sending several non-final fragments one after the other, stopping at the first call that does
not return normally; the shape of the loop in `parsefrags`, `uxml/parser.py` 370-371. -/
def sendAll (p : Session) : List Str → List Event × SendRes × Session
  | [] => ([], .returned, p)
  | f :: fs =>
    let r := send p f false
    if r.2.1 = .returned then
      let r' := sendAll r.2.2 fs
      (r.1 ++ r'.1, r'.2)
    else r

/-- Any sequence of `send` calls made by a caller who carries on after exceptions: all the events
delivered, and the final state of the coroutine. -/
def sends (p : Session) : List (Str × Bool) → List Event × Session
  | [] => ([], p)
  | (f, d) :: h =>
    let r := send p f d
    let r' := sends r.2.2 h
    (r.1 ++ r'.1, r'.2)

/-- What the accumulating iterators yield: an item per accumulated object, then normal end, an
exception, or nothing ever. -/
inductive IterRes where
  | items (l : List (Option Event))
  | raised (e : SendRes)
  | never
deriving DecidableEq, Repr

/-- `parse(text)`, `uxml/parser.py` 354-362.  The handler is primed by `@coroutine` and again by
`next(handler)` in `parser` (140), so the accumulator starts with `None`.  Nothing is yielded until
the parser has finished. -/
def parseIter (text : Str) : IterRes :=
  let r := send newParser text true
  match r.2.1 with
  | .returned => .items (none :: r.1.map some)
  | .never => .never
  | e => .raised e

/-- `parsefrags(textfrags)`, `uxml/parser.py` 365-376. -/
def parsefragsIter (frags : List Str) : IterRes :=
  let r := sendAll newParser frags
  match r.2.1 with
  | .returned =>
    let r' := send r.2.2 [] true
    match r'.2.1 with
    | .returned => .items (none :: (r.1 ++ r'.1).map some)
    | .never => .never
    | e => .raised e
  | .never => .never
  | e => .raised e

end Amara
