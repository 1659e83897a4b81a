import Verif.Model.Parser
/-
The push parser of `pylib/uxml/parser.py` once more, closer to the text of the code than
`Model/Parser`: the coroutine keeps the whole `window`, the index `pos` into it and the length `wlen`,
`handle_cdata` works with a cursor and slices of the window, and every evaluation of `window[...]` with an
index is counted.  `Lemmas/Window` proves that `Model/Parser`, which keeps only the unread suffix, does the same.

Each function gives, with its result, how many times it evaluates an expression `window[i]` (successfully or with
`IndexError`).  Slices are not counted: what is sliced has been read before, character by character.  Reads that only
serve to build the text of an error message are not counted either.
-/
namespace Amara.W

/-- `window[i:j]` for `0 <= i <= j`. -/
def slice (w : Str) (i j : Nat) : Str := (w.drop i).take (j - i)

/-- The loops `while PATTERN.match(window[i]): i += 1` and `while window[i] in ' \r\n\t': i += 1`,
`uxml/parser.py` 88-89, 102-103, 117-118, 168-169, 186-187, 203-204, 216-217, 254-255, 267-268, 318-319: the value of `i` when
the condition fails or `window[i]` raises IndexError (then `i` is not an index of the window). -/
def scan (p : Char → Bool) (w : Str) (i : Nat) : Nat :=
  if h : i < w.length then if p w[i] then scan p w (i + 1) else i else i
termination_by w.length - i

/-- The number of reads of that loop: one for each character passed over and one for the read that ends it. -/
def scanReads (p : Char → Bool) (w : Str) (i : Nat) : Nat :=
  if h : i < w.length then if p w[i] then scanReads p w (i + 1) + 1 else 1 else 1
termination_by w.length - i

/-- What the code after a '&' leads to, `uxml/parser.py` 96-127. -/
inductive Ref where
  /-- a character, and the index of the ';' -/
  | char (c : Char) (cursor : Nat)
  /-- IndexError, caught at line 131 -/
  | more (cursor : Nat)
  /-- another exception -/
  | fail (e : Err)
deriving DecidableEq, Repr

/-- The hexadecimal reference whose digits start at `start`, `uxml/parser.py` 100-111. -/
def hexRefAt (w : Str) (start : Nat) : Ref × Nat :=
  let cursor := scan isHexDigit w start
  let reads := scanReads isHexDigit w start
  match w[cursor]? with
  | none => (.more cursor, reads)
  | some c =>
    if c = ';' then
      match hexRef (slice w start cursor) with
      | .ok ch => (.char ch cursor, reads + 1)
      | .error e => (.fail e, reads + 1)
    else (.fail .runtime, reads + 1)

/-- The named reference that starts at `start`, `uxml/parser.py` 114-127.  Line 127 raises IndexError (`format` with too few
arguments), which line 131 catches. -/
def namedRefAt (w : Str) (start : Nat) : Ref × Nat :=
  let cursor := scan isNamedRefChar w start
  let reads := scanReads isNamedRefChar w start
  match w[cursor]? with
  | none => (.more cursor, reads)
  | some c =>
    if c = ';' then
      match charName (slice w start cursor) with
      | some ch => (.char ch cursor, reads + 1)
      | none => (.fail .runtime, reads + 1)
    else (.more cursor, reads + 1)

/-- `if window[cursor] == '#' and window[cursor + 1] == 'x'` and its two branches, `uxml/parser.py` 98-127. -/
def refAt (w : Str) (cursor : Nat) : Ref × Nat :=
  match w[cursor]? with
  | none => (.more cursor, 1)
  | some c =>
    if c = '#' then
      match w[cursor + 1]? with
      | none => (.more cursor, 2)
      | some d =>
        if d = 'x' then ((hexRefAt w (cursor + 2)).1, (hexRefAt w (cursor + 2)).2 + 2)
        else ((namedRefAt w cursor).1, (namedRefAt w cursor).2 + 2)
    else ((namedRefAt w cursor).1, (namedRefAt w cursor).2 + 1)

theorem scan_ge (p : Char → Bool) (w : Str) (i : Nat) : i ≤ scan p w i := by
  fun_induction scan p w i with
  | case1 i h hp ih => omega
  | case2 => omega
  | case3 => omega

theorem hexRefAt_ge {w : Str} {i j : Nat} {c : Char} (h : (hexRefAt w i).1 = .char c j) : i ≤ j := by
  have := scan_ge isHexDigit w i
  simp only [hexRefAt] at h
  repeat' split at h
  all_goals simp_all

theorem namedRefAt_ge {w : Str} {i j : Nat} {c : Char} (h : (namedRefAt w i).1 = .char c j) : i ≤ j := by
  have := scan_ge isNamedRefChar w i
  simp only [namedRefAt] at h
  repeat' split at h
  all_goals simp_all

theorem refAt_ge {w : Str} {i j : Nat} {c : Char} (h : (refAt w i).1 = .char c j) : i ≤ j := by
  simp only [refAt] at h
  repeat' split at h
  all_goals first
    | (have := hexRefAt_ge h; omega)
    | exact namedRefAt_ge h
    | simp_all

/-- What `handle_cdata` gives: `(cdata, cursor)`, `(None, cursor)` or an exception. -/
inductive Ret where
  | found (cdata : Str) (cursor : Nat)
  | none (cursor : Nat)
  | fail (e : Err)
deriving DecidableEq, Repr

/-- The `while True` loop of `handle_cdata`, `uxml/parser.py` 86-132, at the head of which `start` equals `cursor`; `cdata` is the text
collected so far. -/
def cdataLoop (pat : Char → Bool) (stop : Char) (w : Str) (cursor : Nat) (cdata : Str) : Ret × Nat :=
  let c1 := scan pat w cursor
  let reads := scanReads pat w cursor
  if hlt : c1 < w.length then
    let cdata := cdata ++ slice w cursor c1
    if w[c1] = stop then (.found cdata c1, reads + 1)
    else if w[c1] = '&' then
      match hr : (refAt w (c1 + 1)).1 with
      | .char c c2 =>
        let r := cdataLoop pat stop w (c2 + 1) (cdata ++ [c])
        (r.1, reads + 2 + (refAt w (c1 + 1)).2 + r.2)
      | .more c2 => (.none c2, reads + 2 + (refAt w (c1 + 1)).2)
      | .fail e => (.fail e, reads + 2 + (refAt w (c1 + 1)).2)
    else
      let r := cdataLoop pat stop w (c1 + 1) cdata
      (r.1, reads + 2 + r.2)
  else (.none c1, reads)
termination_by w.length - cursor
decreasing_by
  · have := scan_ge pat w cursor
    have := refAt_ge hr
    omega
  · have := scan_ge pat w cursor
    omega

/-- `handle_cdata(pos, window, charpat, stopchars)`, `uxml/parser.py` 76-132. -/
def handleCdata (pos : Nat) (w : Str) (pat : Char → Bool) (stop : Char) : Ret × Nat := cdataLoop pat stop w pos []

/-- The local variables of the coroutine, `uxml/parser.py` 144-151 (`element_stack` innermost first). -/
structure WState where
  st : St
  window : Str
  pos : Nat
  wlen : Nat
  pendingEnd : Bool
  gi : Str
  attribs : Attrs
  stack : List Str
deriving DecidableEq, Repr

/-- `uxml/parser.py` 144-151. -/
def WState.init : WState := ⟨.preElement, [], 0, 0, false, [], [], []⟩

/-- Result of one pass through a block of the main loop. -/
inductive WStep where
  | cont (s : WState) (evs : List Event)
  | pause (s : WState) (evs : List Event)
  | fail (e : Err)
deriving DecidableEq, Repr

/-- `if not done: need_input = True` followed by `continue`. -/
def wwait (done : Bool) (s : WState) : WStep := if done then .cont s [] else .pause s []

/-- Block `state.pre_element`, `uxml/parser.py` 165-178. -/
def wPreElement (done : Bool) (s : WState) : WStep × Nat :=
  let pos := scan isWs s.window s.pos
  let reads := scanReads isWs s.window s.pos
  match s.window[pos]? with
  | none => (wwait done { s with pos := pos }, reads)
  | some c =>
    if c = '<' then (.cont { s with pos := pos + 1, st := .preTagGi } [], reads + 1)
    else (.cont { s with pos := pos } [], reads + 1)

/-- Block `state.pre_tag_gi, state.pre_complete_tag_gi`, `uxml/parser.py` 182-211. -/
def wTagGi (done : Bool) (s : WState) : WStep × Nat :=
  let pend := decide (s.st = .preCompleteTagGi)
  let pos := scan isWs s.window s.pos
  let reads := scanReads isWs s.window s.pos
  match s.window[pos]? with
  | none => (wwait done { s with pos := pos, pendingEnd := pend }, reads)
  | some c =>
    let reads := if s.st = .preTagGi then reads + 1 else reads
    if s.st = .preTagGi ∧ c = '/' then
      (.cont { s with pos := pos + 1, st := .preCompleteTagGi, pendingEnd := true } [], reads)
    else if isNameStart c then
      let advpos := scan isNameChar s.window (pos + 1)
      let reads := reads + 1 + scanReads isNameChar s.window (pos + 1)
      match s.window[advpos]? with
      | none => (wwait done { s with pos := pos, pendingEnd := pend }, reads)
      | some _ =>
        (.cont { s with gi := slice s.window pos advpos, pos := advpos, st := .completeTag, pendingEnd := pend } [], reads)
    else (.cont { s with gi := [], pos := pos, st := .completeTag, pendingEnd := pend } [], reads + 1)

/-- Block `state.complete_tag`, `uxml/parser.py` 212-249. -/
def wCompleteTag (done : Bool) (s : WState) : WStep × Nat :=
  let pos := scan isWs s.window s.pos
  let reads := scanReads isWs s.window s.pos
  match s.window[pos]? with
  | none => (wwait done { s with pos := pos }, reads)
  | some c =>
    let reads := if s.pendingEnd = false then reads + 1 else reads
    if s.pendingEnd = false ∧ isNameStart c = true then
      (.cont { s with pos := pos, st := .attribute } [], reads)
    else if c = '>' then
      if s.pendingEnd = false then
        let s' := { s with pos := pos + 1, st := .inElement, attribs := [], stack := s.gi :: s.stack }
        let evs := [Event.start s.gi s.attribs s.stack.reverse]
        if pos + 1 = s.wlen then (.pause s' evs, reads + 1) else (.cont s' evs, reads + 1)
      else
        match s.stack with
        | [] => (.fail .index, reads + 1)
        | opened :: stk =>
          if opened ≠ s.gi then (.fail .runtime, reads + 1)
          else
            let st' := if stk = [] then St.completeDoc else St.inElement
            let s' := { s with pos := pos + 1, st := st', attribs := [], stack := stk }
            let evs := [Event.stop s.gi stk.reverse]
            if pos + 1 = s.wlen then (.pause s' evs, reads + 1) else (.cont s' evs, reads + 1)
    else (.fail .runtime, reads + 1)

/-- Block `state.attribute`, `uxml/parser.py` 250-296. -/
def wAttribute (done : Bool) (s : WState) : WStep × Nat :=
  let advpos := scan isNameChar s.window (s.pos + 1)
  let reads := scanReads isNameChar s.window (s.pos + 1)
  match s.window[advpos]? with
  | none => (wwait done s, reads)
  | some _ =>
    let aname := slice s.window s.pos advpos
    let pos := scan isWs s.window advpos
    let reads := reads + scanReads isWs s.window advpos
    match s.window[pos]? with
    | none => (wwait done s, reads)
    | some d =>
      if d = '=' then
        if done = false ∧ pos + 1 = s.wlen then (.pause s [], reads + 1)
        else
          match s.window[pos + 1]? with
          | none => (.fail .index, reads + 2)
          | some q =>
            if q = '"' ∨ q = '\'' then
              let r := handleCdata (pos + 1 + 1) s.window (attrPat q) q
              match r.1 with
              | .found v newpos =>
                (.cont { s with pos := newpos + 1, st := .completeTag, attribs := s.attribs.set aname v } [], reads + 3 + r.2)
              | .none _ => (wwait done { s with pos := pos + 1 }, reads + 3 + r.2)
              | .fail e => (.fail e, reads + 3 + r.2)
            else (.cont { s with pos := pos + 1 } [], reads + 2)
      else (.fail .runtime, reads + 1)

/-- Block `state.in_element`, `uxml/parser.py` 297-311. -/
def wInElement (done : Bool) (s : WState) : WStep × Nat :=
  let r := handleCdata s.pos s.window isDataChar '<'
  match r.1 with
  | .found t newpos =>
    (.cont { s with pos := if s.window[newpos]? = some '<' then newpos + 1 else newpos, st := .preTagGi }
      (if t = [] then [] else [Event.chars t]), r.2 + 1)
  | .none _ => (wwait done s, r.2)
  | .fail e => (.fail e, r.2)

/-- Block `state.complete_doc`, `uxml/parser.py` 312-328. -/
def wCompleteDoc (done : Bool) (s : WState) : WStep × Nat :=
  if s.pos = s.wlen then (.pause s [], 0)
  else
    let pos := scan isWs s.window s.pos
    let reads := scanReads isWs s.window s.pos
    match s.window[pos]? with
    | none => (wwait done { s with pos := pos }, reads)
    | some _ => if pos = s.wlen then (.pause { s with pos := pos } [], reads) else (.fail .runtime, reads)

/-- One pass of `while not need_input`, `uxml/parser.py` 164-328 (see `Amara.step`). -/
def wstep (done : Bool) (s : WState) : WStep × Nat :=
  match s.st with
  | .preElement => wPreElement done s
  | .preTagGi => wTagGi done s
  | .preCompleteTagGi => wTagGi done s
  | .completeTag => wCompleteTag done s
  | .attribute => wAttribute done s
  | .inElement => wInElement done s
  | .completeDoc => wCompleteDoc done s

/-- How far a run of the inner loop has got. -/
inductive WStatus where
  | paused (s : WState)
  | raised (e : Err)
  | running (s : WState)
deriving DecidableEq, Repr

/-- The first `n` steps of the inner loop, `uxml/parser.py` 164-328: the events delivered, where they lead, the reads. -/
def wrun (done : Bool) : Nat → WState → List Event × WStatus × Nat
  | 0, s => ([], .running s, 0)
  | n + 1, s =>
    match wstep done s with
    | (.cont s' evs, k) => (evs ++ (wrun done n s').1, (wrun done n s').2.1, k + (wrun done n s').2.2)
    | (.pause s' evs, k) => (evs, .paused s', k)
    | (.fail e, k) => ([], .raised e, k)

/-- What has become of the coroutine (as `Session`). -/
inductive WSession where
  | awaiting (s : WState)
  /-- suspended at line 331, the local variables still alive -/
  | finished (s : WState)
  | dead
  | hung (s : WState)
deriving DecidableEq, Repr

/-- `p.send((frag, done))`, `uxml/parser.py` 154-164, 331-337: the events, the outcome, the reads made during the call and the new
state of the coroutine.  For a call that never returns the reads are those of the first steps only. -/
def wsend (p : WSession) (frag : Str) (done : Bool) : List Event × SendRes × Nat × WSession :=
  match p with
  | .awaiting s =>
    if frag = [] then ([], .returned, 0, if done then .finished s else .awaiting s)
    else
      let s1 := { s with window := s.window ++ frag, wlen := s.wlen + frag.length }
      let r := wrun done (3 * (s1.wlen - s1.pos) + 3) s1
      match r.2.1 with
      | .paused s' => (r.1, .returned, r.2.2, if done then .finished s' else .awaiting s')
      | .raised e => (r.1, .raised e, r.2.2, .dead)
      | .running s' => (r.1, .never, r.2.2, .hung s')
  | .finished _ => ([], .stopIteration, 0, .dead)
  | .dead => ([], .stopIteration, 0, .dead)
  | .hung s => ([], .never, 0, .hung s)

/-- A fresh parser object, `uxml/parser.py` 138-156. -/
def wnew : WSession := .awaiting .init

/-- Any sequence of `send` calls: what each of them gave (events, outcome, reads), and the final state of the coroutine. -/
def wsends (p : WSession) : List (Str × Bool) → List (List Event × SendRes × Nat) × WSession
  | [] => ([], p)
  | (f, d) :: h =>
    let r := wsend p f d
    let r' := wsends r.2.2.2 h
    ((r.1, r.2.1, r.2.2.1) :: r'.1, r'.2)

end Amara.W
