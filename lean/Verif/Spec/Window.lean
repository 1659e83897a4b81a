import Verif.Model.Window
/-
What is said about the memory and the work of a parser object (C155).
-/
namespace Amara.W

/-- All the text passed to the parser in a sequence of calls. -/
def fed (h : List (Str × Bool)) : Str := (h.map (·.1)).flatten

/-- How often the window was read in all the calls of a sequence. -/
def totalReads (rs : List (List Event × SendRes × Nat)) : Nat := (rs.map (·.2.2)).foldl (· + ·) 0

/-- The window the parser object holds, if it is suspended. -/
def WSession.held : WSession → Option Str
  | .awaiting s => some s.window
  | .finished s => some s.window
  | _ => none

/-- How many characters a parser object has received and not yet got past. -/
def WSession.pending : WSession → Nat
  | .awaiting s => s.wlen - s.pos
  | _ => 0

/-- What the comment at `uxml/parser.py` 162 asks for: the part of the window already read is thrown away. -/
def WSession.trim : WSession → WSession
  | .awaiting s => .awaiting { s with window := s.window.drop s.pos, pos := 0, wlen := s.wlen - s.pos }
  | p => p

/-- Calls between which the window is trimmed. -/
def trimmedSends (p : WSession) : List (Str × Bool) → List (List Event × SendRes × Nat) × WSession
  | [] => ([], p)
  | (f, d) :: h =>
    let r := wsend p.trim f d
    let r' := trimmedSends r.2.2.2 h
    ((r.1, r.2.1, r.2.2.1) :: r'.1, r'.2)

end Amara.W
