import Verif.Model.Parser
/-
The parser with any handler (`uxml/parser.py` 138-337): a coroutine that may return or raise when it is sent an event.
`Model/Parser` is the same code with a handler that takes everything.
-/
namespace Amara

/-- What a handler does when it is resumed: go on to its next `yield`, return, or raise an exception (other than
`StopIteration`, which a generator cannot raise, and `GeneratorExit`). -/
inductive HandlerDoes where
  | takes
  | returns
  | raises
deriving DecidableEq, Repr

/-- A handler as seen from outside: what it has been resumed with so far, `None` for `next`, and whether it is over. -/
structure Handler where
  seen : List (Option Event)
  over : Bool
deriving DecidableEq, Repr

/-- What `handler.send` does for its caller. -/
inductive HandlerSaid where
  | took
  | stopIteration
  | raised
deriving DecidableEq, Repr

/-- `handler.send(x)`, called in `uxml/parser.py` 140 (`next`), 232, 238 and 304.  What a generator does depends on all it
has been sent, so `does` is a function of that; a generator that is over raises `StopIteration`. -/
def Handler.send (does : List (Option Event) → HandlerDoes) (h : Handler) (x : Option Event) : Handler × HandlerSaid :=
  if h.over then (h, .stopIteration)
  else match does (h.seen ++ [x]) with
    | .takes => (⟨h.seen ++ [x], false⟩, .took)
    | .returns => (⟨h.seen ++ [x], true⟩, .stopIteration)
    | .raises => (⟨h.seen ++ [x], true⟩, .raised)

/-- The events of one step, sent one after the other; an exception ends it.  (No step sends more than one.) -/
def Handler.deliver (does : List (Option Event) → HandlerDoes) (h : Handler) : List Event → Handler × HandlerSaid
  | [] => (h, .took)
  | e :: es => match h.send does (some e) with
    | (h', .took) => h'.deliver does es
    | r => r

/-- Where a run of the inner loop leads. -/
inductive StatusH where
  | parser (s : Status)
  /-- `StopIteration` from the handler, caught in `uxml/parser.py` 335-336: the parser returns -/
  | stopped
  /-- an exception of the handler's, which nothing catches -/
  | handlerRaised
deriving DecidableEq, Repr

/-- What an exception from the handler makes of the parser. -/
def HandlerSaid.status : HandlerSaid → StatusH → StatusH
  | .took, s => s
  | .stopIteration, _ => .stopped
  | .raised, _ => .handlerRaised

/-- The first `n` steps of the inner loop, `uxml/parser.py` 164-328. -/
def runH (does : List (Option Event) → HandlerDoes) (done : Bool) : Nat → PState → Handler → Handler × StatusH
  | 0, s, h => (h, .parser (.running s))
  | n + 1, s, h =>
    match step done s with
    | .cont s' evs => match h.deliver does evs with
      | (h', .took) => runH does done n s' h'
      | (h', r) => (h', r.status .stopped)
    | .pause s' evs => ((h.deliver does evs).1, (h.deliver does evs).2.status (.parser (.paused s')))
    | .fail e => (h, .parser (.raised e))

/-- What the caller of `send` sees. -/
inductive SendResH where
  | parser (r : SendRes)
  /-- the handler's own exception -/
  | handlerRaised
deriving DecidableEq, Repr

/-- `p.send((frag, done))`, `uxml/parser.py` 154-164, 331-337.  When the parser returns because the handler has, the
caller sees `StopIteration`. -/
def sendH (does : List (Option Event) → HandlerDoes) (p : Session) (h : Handler) (frag : Str) (done : Bool) :
    Handler × SendResH × Session :=
  match p with
  | .awaiting s =>
    if frag = [] then (h, .parser .returned, if done then .finished else .awaiting s)
    else
      let s1 := { s with rest := s.rest ++ frag }
      let r := runH does done (enough s1) s1 h
      match r.2 with
      | .parser (.paused s') => (r.1, .parser .returned, if done then .finished else .awaiting s')
      | .parser (.raised e) => (r.1, .parser (.raised e), .dead)
      | .parser (.running s') => (r.1, .parser .never, .hung s')
      | .stopped => (r.1, .parser .stopIteration, .dead)
      | .handlerRaised => (r.1, .handlerRaised, .dead)
  | .finished => (h, .parser .stopIteration, .dead)
  | .dead => (h, .parser .stopIteration, .dead)
  | .hung s => (h, .parser .never, .hung s)

/-- Any sequence of `send` calls made by a caller who carries on after exceptions. -/
def sendsH (does : List (Option Event) → HandlerDoes) (p : Session) (h : Handler) : List (Str × Bool) →
    Handler × List SendResH × Session
  | [] => (h, [], p)
  | (f, d) :: rest =>
    let r := sendH does p h f d
    let r' := sendsH does r.2.2 r.1 rest
    (r'.1, r.2.1 :: r'.2.1, r'.2.2)

/-- What `parser(handler)` does. -/
inductive NewRes where
  | made (p : Session)
  /-- `StopIteration` from `next(handler)`, which is outside the `try`: Python turns it into `RuntimeError` -/
  | runtimeError
  | handlerRaised
deriving DecidableEq, Repr

/-- `parser(handler)`, `uxml/parser.py` 138-156: the decorator runs the new generator up to line 156, which resumes the
handler once (140). -/
def newParserH (does : List (Option Event) → HandlerDoes) (h : Handler) : Handler × NewRes :=
  match h.send does none with
  | (h', .took) => (h', .made newParser)
  | (h', .stopIteration) => (h', .runtimeError)
  | (h', .raised) => (h', .handlerRaised)

end Amara
