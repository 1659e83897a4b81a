import Verif.Spec.XSender
import Verif.Lemmas.XSender
import Verif.Props.SenderSinks
import Verif.Props.Expat
import Verif.Props.SenderCut
/-
C137: an XML sender fed a document in pieces.
-/
namespace Amara

variable {does : Nat → List Node → SinkDoes} {self : Id}

/-! ### Callbacks in pieces -/

theorem expatEvents_append (a b : List XCall) : ∀ stk,
    expatEvents stk (a ++ b) = if (expatEvents stk a).2 then expatEvents stk a
      else ((expatEvents stk a).1 ++ (expatEvents (expatStack stk a) b).1, (expatEvents (expatStack stk a) b).2) := by
  induction a with
  | nil => intro stk; simp [expatEvents, expatStack]
  | cons c a ih =>
    intro stk
    cases c with
    | start name attrs =>
      rcases hl : localOfStart name with _ | l
      · simp [expatEvents, hl]
      · rcases ha : stripAttrs [] attrs with _ | as
        · simp [expatEvents, hl, ha]
        · simp only [List.cons_append, expatEvents, hl, ha, ih, expatStack, Option.toList_some]
          by_cases h : (expatEvents (l :: stk) a).2 = true <;> simp [h]
    | stop name =>
      rcases hl : localOfStop name with _ | l
      · simp [expatEvents, hl]
      · cases stk with
        | nil => simp [expatEvents, hl]
        | cons x stk =>
          simp only [List.cons_append, expatEvents, hl, ih, expatStack, List.tail_cons]
          by_cases h : (expatEvents stk a).2 = true <;> simp [h]
    | chars s =>
      simp only [List.cons_append, expatEvents, ih, expatStack]
      by_cases h : (expatEvents stk a).2 = true <;> simp [h]

theorem expatStack_append (a b : List XCall) : ∀ stk, expatStack stk (a ++ b) = expatStack (expatStack stk a) b := by
  induction a with
  | nil => intro stk; rfl
  | cons c a ih => intro stk; cases c <;> simp only [List.cons_append, expatStack, ih]

theorem runS_append (a b : List Event) : ∀ (s : Sender) (k : Sinks),
    s.runS does self k (a ++ b) =
      (match (s.runS does self k a).exn, (s.runS does self k a).sender with
      | none, some s' =>
        ⟨(s.runS does self k a).outs ++ (s'.runS does self (s.runS does self k a).sinks b).outs,
          (s'.runS does self (s.runS does self k a).sinks b).sinks, (s'.runS does self (s.runS does self k a).sinks b).sender,
          (s'.runS does self (s.runS does self k a).sinks b).exn⟩
      | _, _ => s.runS does self k a) := by
  induction a with
  | nil => intro s k; simp [Sender.runS]
  | cons ev a ih =>
    intro s k
    simp only [List.cons_append, Sender.runS]
    generalize handlePatsS does self ev 0 s.stack s.pats k = x
    obtain ⟨o, k', r⟩ := x
    rcases r with _ | ⟨⟨stack, pats⟩, e⟩
    · rfl
    · cases e with
      | some e => rfl
      | none =>
        simp only [ih]
        generalize Sender.runS does self ⟨stack, pats⟩ k' a = y
        obtain ⟨o1, k1, s1, e1⟩ := y
        cases e1 with
        | some _ => rfl
        | none =>
          cases s1 with
          | none => rfl
          | some s1 => simp

theorem xfeed_append (x : XSender) (k : Sinks) (a b : List XCall) (bad : Bool) :
    x.feed does self k (a ++ b, bad) =
      ⟨(x.feed does self k (a, false)).outs ++
          ((x.feed does self k (a, false)).sender.feed does self (x.feed does self k (a, false)).sinks (b, bad)).outs,
        ((x.feed does self k (a, false)).sender.feed does self (x.feed does self k (a, false)).sinks (b, bad)).sinks,
        ((x.feed does self k (a, false)).sender.feed does self (x.feed does self k (a, false)).sinks (b, bad)).sender,
        (x.feed does self k (a, false)).raised ||
          ((x.feed does self k (a, false)).sender.feed does self (x.feed does self k (a, false)).sinks (b, bad)).raised⟩ := by
  obtain ⟨live, stack⟩ := x
  cases live with
  | none => simp [XSender.feed]
  | some s =>
    simp only [XSender.feed, expatEvents_append, expatStack_append]
    generalize expatEvents stack a = ea
    obtain ⟨ea, fa⟩ := ea
    generalize expatStack stack a = sa
    cases fa with
    | true =>
      simp only [if_true]
      generalize s.runS does self k ea = y
      obtain ⟨o1, k1, s1, e1⟩ := y
      cases e1 <;> cases s1 <;> simp
    | false =>
      simp only [Bool.false_eq_true, if_false, runS_append]
      generalize s.runS does self k ea = y
      obtain ⟨o1, k1, s1, e1⟩ := y
      cases e1 with
      | some _ => cases s1 <;> simp
      | none =>
        cases s1 with
        | none => simp
        | some s1 =>
          simp only [Bool.false_or]
          generalize expatEvents sa b = eb
          obtain ⟨eb, fb⟩ := eb
          simp only
          generalize s1.runS does self k1 eb = y
          obtain ⟨o2, k2, s2, e2⟩ := y
          cases e2 <;> cases s2 <;> cases fb <;> rfl

/-! ### C137 -/

theorem feed_nothing (x : XSender) (k : Sinks) : x.feed does self k ([], false) = ⟨[], k, x, false⟩ := by
  obtain ⟨live, stack⟩ := x
  cases live <;> rfl

theorem feed_raised {x : XSender} {k : Sinks} {cbs : List XCall} (h : (x.feed does self k (cbs, false)).raised = true) :
    (x.feed does self k (cbs, false)).sender.live = none := by
  obtain ⟨live, stack⟩ := x
  cases live with
  | none => rfl
  | some s =>
    simp only [XSender.feed] at h ⊢
    generalize s.runS does self k (expatEvents stack cbs).1 = y at h ⊢
    obtain ⟨o, k1, s1, e1⟩ := y
    cases e1 <;> cases s1 <;> cases hb : (expatEvents stack cbs).2 <;> simp_all

theorem feeds_dead {x : XSender} (h : x.live = none) : ∀ (k : Sinks) (pieces : List (List XCall)),
    x.feeds does self k (goodCalls pieces) = (pieces.map fun _ => ([], false), k, x) := by
  intro k pieces
  obtain ⟨live, stack⟩ := x
  simp only at h
  subst h
  induction pieces with
  | nil => rfl
  | cons p ps ih =>
    simp only [goodCalls, List.map_cons, XSender.feeds, XSender.feed] at ih ⊢
    rw [ih]

/-- C137: however a text is cut into pieces, an XML sender fed one after the other sends what it would send if it got all at
once, in the same order, and leaves the sinks and itself in the same state; it raises in one of the calls if and only if
it would then.  Once a call has raised, later ones send nothing and raise nothing.  Any patterns, any sinks. -/
theorem C137_pieces (x : XSender) (k : Sinks) (pieces : List (List XCall)) :
    let whole := x.feed does self k (pieces.flatten, false)
    let calls := x.feeds does self k (goodCalls pieces)
    (calls.1.map Prod.fst).flatten = whole.outs ∧ calls.2.1 = whole.sinks ∧ calls.2.2 = whole.sender ∧
    calls.1.any Prod.snd = whole.raised ∧ calls.1.Pairwise fun a b => a.2 = true → b = ([], false) := by
  induction pieces generalizing x k with
  | nil => simp [feed_nothing, goodCalls, XSender.feeds]
  | cons p ps ih =>
    obtain ⟨h1, h2, h3, h4, h5⟩ := ih (x.feed does self k (p, false)).sender (x.feed does self k (p, false)).sinks
    simp only [List.flatten_cons, xfeed_append]
    simp only [goodCalls, List.map_cons, XSender.feeds]
    refine ⟨?_, h2, h3, ?_, ?_⟩
    · rw [List.flatten_cons]
      exact congrArg _ h1
    · rw [List.any_cons]
      exact congrArg _ h4
    · refine List.pairwise_cons.2 ⟨?_, h5⟩
      intro b hb hr
      have := feeds_dead (does := does) (self := self) (feed_raised hr) (x.feed does self k (p, false)).sinks ps
      rw [goodCalls] at this
      rw [this] at hb
      simp only [List.mem_map] at hb
      obtain ⟨_, _, rfl⟩ := hb
      rfl

theorem takesAll_send (k : Sinks) (hk : ∀ j, k.over j = false) (ix : Nat) (x : Node) :
    ∃ k', k.send takesAll ix x = (k', none) ∧ ∀ j, k'.over j = false := by
  exact ⟨⟨fun j => if j = ix then k.got ix ++ [x] else k.got j, k.over⟩, by simp [Sinks.send, hk, takesAll], hk⟩

/-- Sinks that take whatever comes do not fail. -/
theorem runS_all (s : Sender) (k : Sinks) (hk : ∀ j, k.over j = false) (evs : List Event) :
    ∃ k', (∀ j, k'.over j = false ∧ k'.got j = k.got j ++ sentTo j (s.run (quiet evs)).1.flatten) ∧
      s.runS takesAll self k evs = ⟨(s.run (quiet evs)).1.flatten, k', (s.run (quiet evs)).2, none⟩ := by
  rcases C135_run_up_to_the_failure (does := takesAll) (self := self) s k evs with
    ⟨k', g1, g2⟩ | ⟨pre, ix, x, post, k1, k2, ex, g1, g2, g3, g4, g5, g6, -⟩
  · refine ⟨k', fun j => ?_, g2⟩
    obtain ⟨a, b, -⟩ := takes_got g1 j
    exact ⟨by rw [b, hk], a⟩
  · obtain ⟨_, h, _⟩ := takesAll_send k1 (fun j => by rw [(takes_got g2 j).2.1, hk]) ix x
    rw [g3] at h
    cases h

theorem expat_part {a b : List XCall} {evs : List Event} (h : expatEvents [] (a ++ b) = (evs, false)) : expatEvents [] a = (evs.take a.length, false) := by
  rw [expatEvents_append] at h
  by_cases hf : (expatEvents [] a).2 = true
  · rw [if_pos hf] at h
    rw [h] at hf
    cases hf
  · rw [if_neg hf] at h
    simp only [Prod.mk.injEq] at h
    have hl : ∀ (c : List XCall) stk, (expatEvents stk c).2 = false → (expatEvents stk c).1.length = c.length := by
      intro c
      induction c with
      | nil => intro stk _; rfl
      | cons d c ih =>
        intro stk hc
        cases d with
        | start name attrs =>
          rcases hl : localOfStart name with _ | l
          · simp [expatEvents, hl] at hc
          · rcases ha : stripAttrs [] attrs with _ | as
            · simp [expatEvents, hl, ha] at hc
            · simp only [expatEvents, hl, ha] at hc ⊢
              simp [ih _ hc]
        | stop name =>
          rcases hl : localOfStop name with _ | l
          · simp [expatEvents, hl] at hc
          · cases stk with
            | nil => simp [expatEvents, hl] at hc
            | cons x stk =>
              simp only [expatEvents, hl] at hc ⊢
              simp [ih _ hc]
        | chars s =>
          simp only [expatEvents] at hc ⊢
          simp [ih _ hc]
    have hf' : (expatEvents [] a).2 = false := by simpa using hf
    have hla := hl a [] hf'
    rw [← h.1, List.take_append_of_le_length (by omega), List.take_of_length_le (by omega), ← hf']

theorem reports_length {cbs : List XCall} {evs : List Event} (h : Reports cbs evs) : cbs.length = evs.length := by
  induction h <;> simp [*]

theorem feed_all {pats : List (List (Stage Event))} {cbs : List XCall} {evs : List Event} (hx : expatEvents [] cbs = (evs, false)) :
    ∃ k', (∀ j, k'.got j = sentTo j ((newSender pats).run (quiet evs)).1.flatten) ∧
      (newXSender pats).feed takesAll self .new (cbs, false) =
        ⟨((newSender pats).run (quiet evs)).1.flatten, k', ⟨((newSender pats).run (quiet evs)).2,
          if ((newSender pats).run (quiet evs)).2.isSome then expatStack [] cbs else []⟩,
          ((newSender pats).run (quiet evs)).2.isNone⟩ := by
  obtain ⟨k', g1, g2⟩ := runS_all (self := self) (newSender pats) .new (fun _ => rfl) evs
  refine ⟨k', fun j => (g1 j).2, ?_⟩
  simp only [XSender.feed, newXSender, hx, g2]
  cases ((newSender pats).run (quiet evs)).2 <;> rfl

/-- C137 for documents, any patterns: after any pieces, in any number of calls, no call has raised and each sink has got
exactly the elements its pattern has, of those whose end was in the pieces: `os` tells for each callback of the whole
document what was sent then. -/
theorem C137_document {e : Node} (he : e.isText = false) {cbs : List XCall} (hr : Reports cbs (e.events []))
    (pats : List (List (Stage Event))) (hall : ∀ p ∈ pats, Callable p) (self : Id) :
    ∃ os : List (List SOut),
      (∀ k st, GoesBy pats k st →
        Delivers (fun q => ∃ t, e.opened [] q = some t ∧ ReachesFirst st (stretched pats.length k t) ∧
          ∀ t', t' <+: t → t' ≠ t → ¬ ReachesFirst st (stretched pats.length k t')) (e.marks [] []) (os.map (sentTo k))) ∧
      ∀ (pieces : List (List XCall)) (rest : List XCall), cbs = pieces.flatten ++ rest →
        let calls := (newXSender pats).feeds takesAll self .new (goodCalls pieces)
        (∀ c ∈ calls.1, c.2 = false) ∧
        ∀ k, calls.2.1.got k = ((os.take pieces.flatten.length).map (sentTo k)).flatten := by
  obtain ⟨os, h1, -, h3⟩ := C35_what_each_sink_gets_exactly e pats hall
  refine ⟨os, h3, ?_⟩
  intro pieces rest hc
  have hw : WellNested (e.events []) := by
    cases e with
    | text s => cases he
    | elem n as cs => rw [WellNested, track_doc]; simp
  have hx := C43_local_names hr hw
  subst hc
  have hp := expat_part hx
  have hlen := reports_length hr
  rw [List.length_append] at hlen
  have hsplit : e.events [] = (e.events []).take pieces.flatten.length ++ (e.events []).drop pieces.flatten.length :=
    (List.take_append_drop _ _).symm
  rw [hsplit] at h1
  obtain ⟨s', h4⟩ := srun_take h1
  rw [List.length_take, Nat.min_eq_left (by omega)] at h4
  obtain ⟨p1, p2, p3, p4, p5⟩ := C137_pieces (does := takesAll) (self := self) (newXSender pats) .new pieces
  obtain ⟨k', g1, g2⟩ := feed_all (self := self) (pats := pats) hp
  rw [h4] at g1 g2
  rw [g2] at p1 p2 p3 p4
  refine ⟨fun c hc => ?_, fun k => ?_⟩
  · simp only [Option.isNone_some, List.any_eq_false] at p4
    simpa using p4 c hc
  · rw [p2]
    show k'.got k = _
    rw [g1 k, sentTo_flat]

theorem sentTo_norm {a b : List SOut} (h : a.map SOut.norm = b.map SOut.norm) (k : Nat) :
    (sentTo k a).map Node.norm = (sentTo k b).map Node.norm := by
  have key : ∀ l : List SOut, (sentTo k l).map Node.norm = sentTo k (l.map SOut.norm) := by
    intro l
    induction l with
    | nil => rfl
    | cons o l ih =>
      cases o with
      | stray j f => simpa [sentTo, SOut.norm] using ih
      | send j x =>
        by_cases hj : j = k
        · simp only [sentTo, SOut.norm, hj, List.filterMap_cons, if_true, List.map_cons] at ih ⊢
          rw [ih]
        · simp only [sentTo, SOut.norm, hj, List.filterMap_cons, if_false, List.map_cons] at ih ⊢
          rw [ih]
  rw [key, key, h]

theorem map_of_norm {α : Type} {f : Node → α} (hf : ∀ x y : Node, x.norm = y.norm → f x = f y) :
    ∀ {a b : List Node}, a.map Node.norm = b.map Node.norm → a.map f = b.map f
  | [], [], _ => rfl
  | [], _ :: _, h => by cases h
  | _ :: _, [], h => by cases h
  | x :: a, y :: b, h => by
    simp only [List.map_cons, List.cons.injEq] at h ⊢
    exact ⟨hf x y h.1, map_of_norm hf h.2⟩

theorem encode_of_norm {x y : Node} (h : x.norm = y.norm) : x.encode = y.encode := by
  cases x with
  | text s => cases y with
    | text t => simp only [Node.norm, Node.text.injEq] at h; rw [h]
    | elem _ _ _ => cases h
  | elem n as cs => cases y with
    | text t => cases h
    | elem m bs ds =>
      have h1 := encode_norm.1 (.elem n as cs) 0 rfl
      have h2 := encode_norm.1 (.elem m bs ds) 0 rfl
      rw [h] at h1
      exact h1.symm.trans h2

/-- C137: how expat chunks character data, and where the text is cut, makes no difference to what the sinks get but for the
texts in it: joined, they are the same, and so are the string values and the XML written from what was sent.  Any
patterns; `evs1` and `evs2` may be those of a document or of its beginning. -/
theorem C137_chunks {pieces1 pieces2 : List (List XCall)} {evs1 evs2 : List Event}
    (h1 : Reports pieces1.flatten evs1) (h2 : Reports pieces2.flatten evs2) (hw1 : WellNested evs1) (hw2 : WellNested evs2)
    (hj : joinChars evs1 = joinChars evs2) (pats : List (List (Stage Event))) (self : Id) :
    let r1 := (newXSender pats).feeds takesAll self .new (goodCalls pieces1)
    let r2 := (newXSender pats).feeds takesAll self .new (goodCalls pieces2)
    r1.1.any Prod.snd = r2.1.any Prod.snd ∧
    ∀ k, (r1.2.1.got k).map Node.norm = (r2.2.1.got k).map Node.norm ∧
      (r1.2.1.got k).map Node.xmlValue = (r2.2.1.got k).map Node.xmlValue ∧
      (r1.2.1.got k).map Node.encode = (r2.2.1.got k).map Node.encode := by
  have hs : SameRun ((newSender pats).run (quiet evs1)) ((newSender pats).run (quiet evs2)) := by
    have := (run_join evs1 (newSender pats)).trans (hj ▸ (run_join evs2 (newSender pats)).symm)
    exact this
  obtain ⟨_, p2, _, p4, _⟩ := C137_pieces (does := takesAll) (self := self) (newXSender pats) .new pieces1
  obtain ⟨_, q2, _, q4, _⟩ := C137_pieces (does := takesAll) (self := self) (newXSender pats) .new pieces2
  obtain ⟨k1, g1, g2⟩ := feed_all (self := self) (pats := pats) (C43_local_names h1 hw1)
  obtain ⟨k2, f1, f2⟩ := feed_all (self := self) (pats := pats) (C43_local_names h2 hw2)
  rw [g2] at p2 p4
  rw [f2] at q2 q4
  show _ ∧ _
  rw [p2, q2, p4, q4]
  refine ⟨?_, fun k => ?_⟩
  · have := hs.2
    cases h : ((newSender pats).run (quiet evs1)).2 <;> cases h' : ((newSender pats).run (quiet evs2)).2 <;> simp_all
  · show (k1.got k).map _ = (k2.got k).map _ ∧ (k1.got k).map _ = (k2.got k).map _ ∧ (k1.got k).map _ = (k2.got k).map _
    rw [g1, f1]
    have hn := sentTo_norm hs.1 k
    generalize sentTo k ((newSender pats).run (quiet evs1)).1.flatten = a at hn
    generalize sentTo k ((newSender pats).run (quiet evs2)).1.flatten = b at hn
    refine ⟨hn, ?_, ?_⟩
    · exact map_of_norm C18_string_value_ignores_splitting hn
    · exact map_of_norm (fun x y h => encode_of_norm h) hn

/-! ### Cases -/

/-- The callbacks of `<a><b>12</b><b>3</b></a>`, the first text in two chunks, in three calls; the second element is sent in
the last one. -/
example : ((newXSender [[.name ['a'], .name ['b']]]).feeds takesAll 7 .new (goodCalls
      [[.start ['a'] [], .start ['b'] [], .chars ['1']], [.chars ['2'], .stop ['b'], .start ['b'] []],
        [.chars ['3'], .stop ['b'], .stop ['a']]])).1 =
    [([], false), ([.send 0 (.elem ['b'] [] [.text ['1'], .text ['2']])], false), ([.send 0 (.elem ['b'] [] [.text ['3']])], false)] := by
  decide +kernel

/-- The same with a sink that returns at the first element: nothing is sent any more, and nothing raised. -/
example : ((newXSender [[.name ['a'], .name ['b']]]).feeds (takesFirst 1) 7 .new (goodCalls
      [[.start ['a'] [], .start ['b'] [], .chars ['1']], [.chars ['2'], .stop ['b'], .start ['b'] []],
        [.chars ['3'], .stop ['b'], .stop ['a']]])).1 =
    [([], false), ([.send 0 (.elem ['b'] [] [.text ['1'], .text ['2']])], true), ([], false)] := by
  decide +kernel

/-- The callbacks report the events of that document, with a namespace. -/
example : Reports [.start "urn:x a".toList [], .start ['b'] [(['i'], ['1'])], .chars ['1'], .stop ['b'], .stop "urn:x a".toList]
    ((Node.elem ['a'] [] [.elem ['b'] [(['i'], ['1'])] [.text ['1']]]).events []) ∧
    (∀ p ∈ [[Stage.name (α := Event) ['a'], .name ['b']]], Callable p) := by
  refine ⟨?_, by simp [Callable]⟩
  have qa : QName "urn:x a".toList ['a'] := ⟨by simp, by simp [NoSpace]; decide, .inr ⟨"urn:x".toList, by simp, by simp [NoSpace]; decide, by decide⟩⟩
  have qb : QName ['b'] ['b'] := ⟨by simp, by simp [NoSpace]; decide, .inl rfl⟩
  have qi : QName ['i'] ['i'] := ⟨by simp, by simp [NoSpace]; decide, .inl rfl⟩
  exact .start qa .nil (.start qb (.cons qi .nil) (.chars (.stop qb (.stop qa .nil))))

/-- Two ways of chunking one text. -/
example : joinChars ([.start ['a'] [] [], .chars ['1'], .chars [], .chars ['2'], .stop ['a'] []] : List Event) =
    joinChars [.start ['a'] [] [], .chars ['1', '2'], .stop ['a'] []] := by decide

end Amara
