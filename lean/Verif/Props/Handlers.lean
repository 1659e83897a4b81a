import Verif.Spec.Handlers
import Verif.Props.Parser
/-
C139: what a handler is sent, and what becomes of the parser when it ends.
-/
namespace Amara

variable {does : List (Option Event) → HandlerDoes}

theorem deliver_append (h : Handler) (a b : List Event) :
    h.deliver does (a ++ b) = match h.deliver does a with
      | (h', .took) => h'.deliver does b
      | r => r := by
  induction a generalizing h with
  | nil => rfl
  | cons e a ih =>
    simp only [List.cons_append, Handler.deliver]
    rcases h.send does (some e) with ⟨h', _ | _ | _⟩
    · exact ih h'
    · rfl
    · rfl

/-- A run with a handler is the run without, its events delivered up to the first at which the handler ends. -/
theorem runH_eq (done : Bool) : ∀ (n : Nat) (s : PState) (h : Handler),
    runH does done n s h = ((h.deliver does (run done n s).1).1,
      (h.deliver does (run done n s).1).2.status (.parser (run done n s).2)) := by
  intro n
  induction n with
  | zero => intro s h; rfl
  | succ n ih =>
    intro s h
    simp only [runH, run]
    cases hs : step done s with
    | cont s' evs =>
      simp only [deliver_append]
      rcases h.deliver does evs with ⟨h', _ | _ | _⟩
      · simp only [ih]
      · rfl
      · rfl
    | pause s' evs => rfl
    | fail e => rfl

/-- Delivery, told from the events alone. -/
theorem deliver_cases (evs : List Event) : ∀ (h : Handler), h.over = false →
    (TakesAll does h.seen evs ∧ h.deliver does evs = (⟨h.seen ++ evs.map some, false⟩, .took)) ∨
    (∃ k, EndsAt does h.seen evs k .returns ∧
      h.deliver does evs = (⟨h.seen ++ (evs.take (k + 1)).map some, true⟩, .stopIteration)) ∨
    (∃ k, EndsAt does h.seen evs k .raises ∧
      h.deliver does evs = (⟨h.seen ++ (evs.take (k + 1)).map some, true⟩, .raised)) := by
  induction evs with
  | nil =>
    rintro ⟨seen, over⟩ ho
    cases ho
    exact .inl ⟨fun k hk => by simp at hk, by simp [Handler.deliver]⟩
  | cons e es ih =>
    rintro ⟨seen, over⟩ ho
    cases ho
    cases hd : does (seen ++ [some e]) with
    | returns =>
      refine .inr (.inl ⟨0, ⟨by simp, fun k hk => by simp at hk, by simpa using hd, by simp⟩, ?_⟩)
      simp [Handler.deliver, Handler.send, hd]
    | raises =>
      refine .inr (.inr ⟨0, ⟨by simp, fun k hk => by simp at hk, by simpa using hd, by simp⟩, ?_⟩)
      simp [Handler.deliver, Handler.send, hd]
    | takes =>
      have hstep : Handler.deliver does ⟨seen, false⟩ (e :: es) = Handler.deliver does ⟨seen ++ [some e], false⟩ es := by
        simp [Handler.deliver, Handler.send, hd]
      have hall : ∀ l : List Event, TakesAll does (seen ++ [some e]) l → TakesAll does seen (e :: l) := by
        intro l hl k hk
        cases k with
        | zero => simpa using hd
        | succ k =>
          have := hl k (by simpa using hk)
          simpa using this
      rcases ih ⟨seen ++ [some e], false⟩ rfl with ⟨h1, h2⟩ | ⟨k, ⟨h1, h2, h3, h4⟩, h5⟩ | ⟨k, ⟨h1, h2, h3, h4⟩, h5⟩
      · exact .inl ⟨hall _ h1, by rw [hstep, h2]; simp⟩
      · exact .inr (.inl ⟨k + 1, ⟨by simpa using h1, by rw [List.take_succ_cons]; exact hall _ h2, by simpa using h3, h4⟩,
          by rw [hstep, h5]; simp⟩)
      · exact .inr (.inr ⟨k + 1, ⟨by simpa using h1, by rw [List.take_succ_cons]; exact hall _ h2, by simpa using h3, h4⟩,
          by rw [hstep, h5]; simp⟩)

theorem sendH_eq (p : Session) (h : Handler) (frag : Str) (done : Bool) :
    sendH does p h frag done =
      match h.deliver does (send p frag done).1 with
      | (h', .took) => (h', .parser (send p frag done).2.1, (send p frag done).2.2)
      | (h', .stopIteration) => (h', .parser .stopIteration, .dead)
      | (h', .raised) => (h', .handlerRaised, .dead) := by
  cases p with
  | finished => rfl
  | dead => rfl
  | hung s => rfl
  | awaiting s =>
    by_cases hf : frag = []
    · simp [sendH, send, hf, Handler.deliver]
    · simp only [sendH, send, hf, if_false, runH_eq]
      generalize run done _ _ = r
      obtain ⟨evs, st⟩ := r
      cases st <;>
      · simp only
        rcases h.deliver does evs with ⟨h', _ | _ | _⟩ <;> rfl

theorem not_both {seen : List (Option Event)} {evs : List Event} {k : Nat} {how : HandlerDoes}
    (h1 : TakesAll does seen evs) (h2 : EndsAt does seen evs k how) : False := by
  have := h1 k h2.1
  rw [h2.2.2.1] at this
  exact h2.2.2.2 this

theorem ends_le {seen : List (Option Event)} {evs : List Event} {k k' : Nat} {how how' : HandlerDoes}
    (h1 : EndsAt does seen evs k how) (h2 : EndsAt does seen evs k' how') : k' ≤ k := by
  rcases Nat.lt_or_ge k k' with h | h
  · have := h2.2.1 k (by rw [List.length_take]; have := h1.1; omega)
    rw [List.take_take, Nat.min_eq_left (by omega), h1.2.2.1] at this
    exact absurd this h1.2.2.2
  · exact h

theorem ends_unique {seen : List (Option Event)} {evs : List Event} {k k' : Nat} {how how' : HandlerDoes}
    (h1 : EndsAt does seen evs k how) (h2 : EndsAt does seen evs k' how') : k' = k ∧ how' = how := by
  have : k' = k := Nat.le_antisymm (ends_le h1 h2) (ends_le h2 h1)
  subst this
  exact ⟨rfl, by rw [← h1.2.2.1, ← h2.2.2.1]⟩

/-- What is delivered, for each way in which it can go. -/
theorem deliver_takes {h : Handler} (ho : h.over = false) {evs : List Event} (ht : TakesAll does h.seen evs) :
    h.deliver does evs = (⟨h.seen ++ evs.map some, false⟩, .took) := by
  rcases deliver_cases (does := does) evs h ho with ⟨_, h2⟩ | ⟨k, h1, _⟩ | ⟨k, h1, _⟩
  · exact h2
  · exact (not_both ht h1).elim
  · exact (not_both ht h1).elim

theorem deliver_ends {h : Handler} (ho : h.over = false) {evs : List Event} {k : Nat} {how : HandlerDoes}
    (ht : EndsAt does h.seen evs k how) :
    h.deliver does evs = (⟨h.seen ++ (evs.take (k + 1)).map some, true⟩,
      if how = .returns then .stopIteration else .raised) := by
  rcases deliver_cases (does := does) evs h ho with ⟨h1, _⟩ | ⟨k', h1, h2⟩ | ⟨k', h1, h2⟩
  · exact (not_both h1 ht).elim
  · obtain ⟨rfl, rfl⟩ := ends_unique h1 ht; exact h2
  · obtain ⟨rfl, rfl⟩ := ends_unique h1 ht; exact h2

theorem sends_dead (h : Handler) (calls : List (Str × Bool)) :
    sendsH does .dead h calls = (h, List.replicate calls.length (.parser .stopIteration), .dead) := by
  induction calls with
  | nil => rfl
  | cons c cs ih =>
    obtain ⟨f, d⟩ := c
    simp only [sendsH, sendH, ih, List.length_cons, List.replicate_succ]

theorem sendsH_eq : ∀ (calls : List (Str × Bool)) (p : Session) (h : Handler),
    ((sendsH does p h calls).1, (sendsH does p h calls).2.2) =
      match h.deliver does (sends p calls).1 with
      | (h', .took) => (h', (sends p calls).2)
      | (h', _) => (h', .dead) := by
  intro calls
  induction calls with
  | nil => intro p h; rfl
  | cons c cs ih =>
    intro p h
    obtain ⟨f, d⟩ := c
    simp only [sendsH, sends, deliver_append, sendH_eq]
    rcases h.deliver does (send p f d).1 with ⟨h', _ | _ | _⟩
    · exact ih _ _
    · simp only [sends_dead]
    · simp only [sends_dead]

/-! ### C139 -/

/-- C139, one call: as long as the handler goes on, it gets the events of the text, in order, and the caller sees what the
text makes of the parser.  If it ends at an event, that one is the last it is sent; the call ends there, with `StopIteration`
if the handler returned and with its exception otherwise, and the parser is over.  This holds whatever comes after that event
in the text. -/
theorem C139_one_call (does : List (Option Event) → HandlerDoes) (p : Session) (h : Handler) (ho : h.over = false) (frag : Str)
    (done : Bool) :
    (TakesAll does h.seen (send p frag done).1 →
      sendH does p h frag done = (⟨h.seen ++ (send p frag done).1.map some, false⟩, .parser (send p frag done).2.1,
        (send p frag done).2.2)) ∧
    (∀ k, EndsAt does h.seen (send p frag done).1 k .returns →
      sendH does p h frag done = (⟨h.seen ++ ((send p frag done).1.take (k + 1)).map some, true⟩, .parser .stopIteration,
        .dead)) ∧
    (∀ k, EndsAt does h.seen (send p frag done).1 k .raises →
      sendH does p h frag done = (⟨h.seen ++ ((send p frag done).1.take (k + 1)).map some, true⟩, .handlerRaised, .dead)) := by
  refine ⟨fun ht => ?_, fun k hk => ?_, fun k hk => ?_⟩
  · rw [sendH_eq, deliver_takes ho ht]
  · rw [sendH_eq, deliver_ends ho hk]; rfl
  · rw [sendH_eq, deliver_ends ho hk]; rfl

/-- C139, any history of calls: the handler gets the events of all the texts sent, in order, up to and including the one at
which it ends. -/
theorem C139_history (does : List (Option Event) → HandlerDoes) (p : Session) (h : Handler) (ho : h.over = false)
    (calls : List (Str × Bool)) :
    (TakesAll does h.seen (sends p calls).1 →
      (sendsH does p h calls).1 = ⟨h.seen ++ (sends p calls).1.map some, false⟩ ∧
      (sendsH does p h calls).2.2 = (sends p calls).2) ∧
    (∀ k how, EndsAt does h.seen (sends p calls).1 k how →
      (sendsH does p h calls).1 = ⟨h.seen ++ ((sends p calls).1.take (k + 1)).map some, true⟩ ∧
      (sendsH does p h calls).2.2 = .dead) := by
  have hs := sendsH_eq (does := does) calls p h
  refine ⟨fun ht => ?_, fun k how hk => ?_⟩
  · rw [deliver_takes ho ht] at hs
    exact Prod.mk.inj hs
  · rw [deliver_ends ho hk] at hs
    by_cases hh : how = .returns
    · rw [if_pos hh] at hs; exact Prod.mk.inj hs
    · rw [if_neg hh] at hs; exact Prod.mk.inj hs

/-- C139, afterwards: once the handler has ended a call, every later call raises `StopIteration` and sends it nothing. -/
theorem C139_afterwards (does : List (Option Event) → HandlerDoes) (p : Session) (h : Handler) (ho : h.over = false)
    (frag : Str) (done : Bool) {k : Nat} {how : HandlerDoes} (hk : EndsAt does h.seen (send p frag done).1 k how)
    (calls : List (Str × Bool)) :
    sendsH does p h ((frag, done) :: calls) =
      (⟨h.seen ++ ((send p frag done).1.take (k + 1)).map some, true⟩,
        (if how = .returns then .parser .stopIteration else .handlerRaised) ::
          List.replicate calls.length (.parser .stopIteration), .dead) := by
  simp only [sendsH, sendH_eq, deliver_ends ho hk]
  by_cases hh : how = .returns
  · simp only [if_pos hh, sends_dead]
  · simp only [if_neg hh, sends_dead]

/-- C139, a handler that something else has ended, such as another parser it serves: the first event ends the parser. -/
theorem C139_handler_ended_elsewhere (does : List (Option Event) → HandlerDoes) (p : Session) (h : Handler) (ho : h.over = true)
    (frag : Str) (done : Bool) :
    sendH does p h frag done =
      if (send p frag done).1 = [] then (h, .parser (send p frag done).2.1, (send p frag done).2.2)
      else (h, .parser .stopIteration, .dead) := by
  rw [sendH_eq]
  cases (send p frag done).1 with
  | nil => rfl
  | cons e es => simp [Handler.deliver, Handler.send, ho]

theorem endsAt_append {seen : List (Option Event)} {evs more : List Event} {k : Nat} {how : HandlerDoes}
    (h : EndsAt does seen evs k how) : EndsAt does seen (evs ++ more) k how ∧
      (evs ++ more).take (k + 1) = evs.take (k + 1) := by
  obtain ⟨h1, h2, h3, h4⟩ := h
  have e1 : (evs ++ more).take (k + 1) = evs.take (k + 1) := List.take_append_of_le_length (by omega)
  have e2 : (evs ++ more).take k = evs.take k := List.take_append_of_le_length (by omega)
  exact ⟨⟨by rw [List.length_append]; omega, by rw [e2]; exact h2, by rw [e1]; exact h3, h4⟩, e1⟩

/-- Whatever follows a well-formed beginning, its events come first. -/
theorem open_first {stk : List Str} {evs : List Event} {w : Str} (hw : Open stk evs w) (rest : Str) (done : Bool) :
    ∃ more, (send newParser (w ++ rest) done).1 = evs ++ more := by
  cases rest with
  | nil =>
    obtain ⟨pe, gi, hx⟩ := exec_open (done := done) hw
    exact ⟨[], by rw [List.append_nil, send_new _ hw.ne_nil.2, hx]; simp⟩
  | cons c t =>
    obtain ⟨pe, gi, hr⟩ := reach_open (done := done) hw c t
    have hne : w ++ c :: t ≠ [] := by simp
    refine ⟨(exec done ⟨.inElement, c :: t, pe, gi, [], stk⟩).1, ?_⟩
    rw [send_new _ hne, exec_reach hr]
    cases (exec done ⟨.inElement, c :: t, pe, gi, [], stk⟩).2 <;> rfl

/-- C139, leaving early: a handler that ends within a well-formed beginning of the text gets the events up to there and gives
control back to the caller, whatever follows: malformed text, or text from which the parser would not return (C05, C06). -/
theorem C139_early_exit (does : List (Option Event) → HandlerDoes) {stk : List Str} {evs : List Event} {w : Str}
    (hw : Open stk evs w) (h : Handler) (ho : h.over = false) {k : Nat} {how : HandlerDoes} (hk : EndsAt does h.seen evs k how)
    (rest : Str) (done : Bool) :
    sendH does newParser h (w ++ rest) done = (⟨h.seen ++ (evs.take (k + 1)).map some, true⟩,
      if how = .returns then .parser .stopIteration else .handlerRaised, .dead) := by
  obtain ⟨more, hm⟩ := open_first hw rest done
  obtain ⟨h1, h2⟩ := endsAt_append (more := more) hk
  rw [sendH_eq, hm, deliver_ends ho h1, h2]
  by_cases hh : how = .returns
  · simp only [if_pos hh]
  · simp only [if_neg hh]

/-- C139, making a parser: it resumes the handler once, with `None`.  A handler that is over, or that returns at once, makes it
raise `RuntimeError`; so a handler that has ended cannot be used for another parser. -/
theorem C139_new_parser (does : List (Option Event) → HandlerDoes) (h : Handler) :
    (h.over = true → newParserH does h = (h, .runtimeError)) ∧
    (h.over = false → newParserH does h = match does (h.seen ++ [none]) with
      | .takes => (⟨h.seen ++ [none], false⟩, .made newParser)
      | .returns => (⟨h.seen ++ [none], true⟩, .runtimeError)
      | .raises => (⟨h.seen ++ [none], true⟩, .handlerRaised)) := by
  constructor
  · intro ho; simp [newParserH, Handler.send, ho]
  · intro ho
    simp only [newParserH, Handler.send, ho, Bool.false_eq_true, if_false]
    cases does (h.seen ++ [none]) <;> rfl

/-- The first `n` events of a document, by a handler that returns when it has them. -/
theorem C139_first_events {stk : List Str} {evs : List Event} {w : Str} (hw : Open stk evs w) {n : Nat} (hn : 0 < n)
    (hle : n ≤ evs.length) (rest : Str) (done : Bool) :
    newParserH (wants n) ⟨[], false⟩ = (⟨[none], false⟩, .made newParser) ∧
    sendH (wants n) newParser ⟨[none], false⟩ (w ++ rest) done =
      (⟨none :: (evs.take n).map some, true⟩, .parser .stopIteration, .dead) := by
  have hlen : ∀ k, k ≤ evs.length → ((([none] : List (Option Event)) ++ (evs.take k).map some).filterMap id).length = k := by
    intro k hk
    have hm : ∀ l : List Event, (l.map some).filterMap id = l := by
      intro l; induction l with
      | nil => rfl
      | cons a l ih => simp
    rw [List.filterMap_append, hm]
    simp
    omega
  have hk : EndsAt (wants n) [none] evs (n - 1) .returns := by
    refine ⟨by omega, fun k hk => ?_, ?_, by simp⟩
    · rw [List.length_take] at hk
      rw [List.take_take, Nat.min_eq_left (by omega), wants, hlen _ (by omega), if_pos (by omega)]
    · rw [wants, hlen _ (by omega), if_neg (by omega)]
  refine ⟨?_, ?_⟩
  · rw [(C139_new_parser (wants n) ⟨[], false⟩).2 rfl]
    simp [wants, hn]
  · have := C139_early_exit (wants n) hw ⟨[none], false⟩ rfl hk rest done
    rw [this, show n - 1 + 1 = n by omega]
    rfl

/-- `<a><b>` and then text that makes the parser loop or raise: the first two events arrive and the call ends. -/
example : Open ["b".toList, "a".toList] [.start "a".toList [] [], .start "b".toList [] ["a".toList]] "<a><b>".toList := by
  have h1 : Open ["a".toList] [.start "a".toList [] []] "<a>".toList :=
    Open.root (n := "a".toList) (kvs := []) (wa := []) (wb := []) (w0 := []) (w1 := []) (by decide) (by decide) .nil (by decide)
      (by decide)
  exact Open.down (s := []) (raw := []) (n := "b".toList) (kvs := []) (wa := []) (w0 := []) (w1 := []) h1 .nil (by decide) .nil
    (by decide) (by decide)

example : (send newParser "<a><b>x".toList true).2.1 = .never ∧
    sendH (wants 2) newParser ⟨[none], false⟩ "<a><b>x".toList true =
      (⟨[none, some (.start "a".toList [] []), some (.start "b".toList [] ["a".toList])], true⟩, .parser .stopIteration,
        .dead) := by decide +kernel

end Amara
