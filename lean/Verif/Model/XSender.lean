import Verif.Model.SenderSinks
/-
`xmliter.sender`, `pylib/uxml/xmliter.py` 21-53: one expat parser and one handler for the life of the sender, so that
several calls of `parse` go on with one document.

The expat parser is outside the model: each call of `parse` (or `parse_file`) is the callbacks expat makes in it, and
whether it reports an error of its own.  When a callback raises, the exception comes out of `parse` and Python's binding
of expat removes all callbacks: this too is outside /repo, and is taken here as given.
-/
namespace Amara

/-- `_elem_stack` (innermost first) after callbacks that raise nothing, `uxml/xml.py` 32, 37. -/
def expatStack : List Str → List XCall → List Str
  | stk, [] => stk
  | stk, .start name _ :: r => expatStack ((localOfStart name).toList ++ stk) r
  | stk, .stop _ :: r => expatStack stk.tail r
  | stk, .chars _ :: r => expatStack stk r

/-- An XML sender, `uxml/xmliter.py` 35-45: the sender its handler works on, while the handler is called at all, and the
element stack of the callbacks. -/
structure XSender where
  live : Option Sender
  stack : List Str

/-- `xmliter.sender(patterns, sinks)`, `uxml/xmliter.py` 35-45. -/
def newXSender (patterns : List (List (Stage Event))) : XSender := ⟨some (newSender patterns), []⟩

/-- One call of `parse`: what was sent or attached, the sinks, the sender, and whether an exception came out. -/
structure XFed where
  outs : List SOut
  sinks : Sinks
  sender : XSender
  raised : Bool

/-- `parse(source)`, `uxml/xmliter.py` 47-49, in which expat makes the callbacks `p.1`, and then reports an error of its
own if `p.2`. -/
def XSender.feed (does : Nat → List Node → SinkDoes) (self : Id) (x : XSender) (k : Sinks) (p : List XCall × Bool) : XFed :=
  match x.live with
  | none => ⟨[], k, x, p.2⟩
  | some s =>
    let r := s.runS does self k (expatEvents x.stack p.1).1
    match r.exn, r.sender with
    | none, some s' =>
      if (expatEvents x.stack p.1).2 then ⟨r.outs, r.sinks, ⟨none, []⟩, true⟩
      else ⟨r.outs, r.sinks, ⟨some s', expatStack x.stack p.1⟩, p.2⟩
    | _, _ => ⟨r.outs, r.sinks, ⟨none, []⟩, true⟩

/-- Several calls of `parse`: for each what was sent or attached and whether an exception came out (which the program
catches), then the sinks and the sender. -/
def XSender.feeds (does : Nat → List Node → SinkDoes) (self : Id) : XSender → Sinks → List (List XCall × Bool) →
    List (List SOut × Bool) × Sinks × XSender
  | x, k, [] => ([], k, x)
  | x, k, p :: r =>
    let f := x.feed does self k p
    let g := XSender.feeds does self f.sender f.sinks r
    ((f.outs, f.raised) :: g.1, g.2)

end Amara
